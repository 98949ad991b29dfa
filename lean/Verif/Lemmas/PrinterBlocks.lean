import Verif.Lemmas.PrinterEnum
/-! Oneofs, blocks of extensions, and extension ranges as the descriptor printer writes them. -/
namespace Verif.Printer
open Verif.Lexer Verif.PrintWriter Verif.Decls Verif.Literal

variable {c : Cfg} {si : SI}

theorem Field.Means.shape {pk sc : QName} {ms : List KidMeans} {isExt : Bool} {f : Field} {d : Decl} (h : f.Means pk sc ms isExt d) :
    (∃ l t n i os, d = .field l t n i os) ∨ ∃ l n i os b, d = .group l n i os b := by
  obtain ⟨l, os, _, _, h⟩ := h
  cases ht : f.type with
  | plain t => rw [ht] at h; obtain ⟨r, h, _⟩ := h; exact .inl ⟨_, _, _, _, _, h⟩
  | map k v i => rw [ht] at h; obtain ⟨r, h, _⟩ := h; exact .inl ⟨_, _, _, _, _, h⟩
  | group i => rw [ht] at h; obtain ⟨r, b, _, h, _⟩ := h; exact .inr ⟨_, _, _, _, _, h⟩

/-! ### Oneofs -/

def isSib : Key → Option Nat | .sib i => some i | _ => none

def OStepMeans (pk sc : QName) (ms : List KidMeans) (h : MHead) (o : Oneof) : Key → List Decl → Prop
  | .opt t, ds => ∃ os, ds = optionDecls os ∧ List.Forall₂ (Opt.Means ⟨pk, sc ++ [o.name], false⟩) (optsAt o.opts t) os
  | .sib i, ds => ∃ f d, h.fields[i]? = some f ∧ ds = [d] ∧ f.Means pk sc ms false d
  | _, ds => ds = []

theorem flatMap_toList {α β : Type*} (f : α → Option β) (l : List α) : l.flatMap (fun a => (f a).toList) = l.filterMap f := by
  induction l with
  | nil => rfl
  | cons a l ih =>
    rw [List.flatMap_cons, ih]
    cases h : f a with
    | none => rw [List.filterMap_cons_none h]; rfl
    | some b => rw [List.filterMap_cons_some h]; rfl

theorem emits_printOneOf (en : Env c si) {pk sc : QName} (hs : ScOk pk sc) {kids : List Kid} {ms : List KidMeans}
    (hk : List.Forall₂ KidOk kids ms) {h : MHead} (hh : h.Ok kids.length) {j : Nat} {o : Oneof} (ho : h.oneofs[j]? = some o)
    {is : List Nat} (his : is.Perm ((List.range h.fields.length).filter (fun i => decide ((h.fields[i]?.bind Field.oneof) = some j))))
    (parent : Path) (ind : Int) :
    ∃ ds, o.Body pk sc ms (inOneof h j) ds ∧ Emits (printOneOf c si pk sc kids h j is parent ind) .idle (Decl.oneof o.name ds).toks .idle := by
  have hoo := hh.oneofs o (List.mem_of_getElem? ho)
  obtain ⟨ks, hks⟩ : ∃ ks, c.sort (parent ++ [8, (j : Int)]) (optKeys o.opts ++ is.map .sib) = ks := ⟨_, rfl⟩
  have hp : ks.Perm (optKeys o.opts ++ is.map .sib) := hks ▸ en.sorted _ _
  have hS : (ks.filterMap isSib).Perm is := by
    have := hp.filterMap isSib
    rw [List.filterMap_append, optKeys_other (fun _ => rfl), List.filterMap_map] at this
    simpa [Function.comp_def, isSib] using this
  have hO : (optKeys o.opts ++ is.map Key.sib).filterMap isOpt = o.opts.map Prod.fst := by
    rw [List.filterMap_append, optKeys_isOpt, List.filterMap_map]
    simp [Function.comp_def, isOpt]
  have hlt : ∀ i, Key.sib i ∈ ks → i < h.fields.length := by
    intro i hi
    have : i ∈ ks.filterMap isSib := List.mem_filterMap.2 ⟨_, hi, rfl⟩
    exact List.mem_range.1 (List.mem_filter.1 (his.subset (hS.subset this))).1
  have hst : ∀ k ∈ ks, ∃ ds, OStepMeans pk sc ms h o k ds ∧
      Emits (runOStep c si pk sc kids h o parent (parent ++ [8, (j : Int)]) (ind + 1) k) .idle (Decl.toksAll ds) .idle := by
    intro k hkm
    cases k with
    | opt t =>
      obtain ⟨os, h1, h2⟩ := emits_options en (a := ⟨pk, sc ++ [o.name], false⟩) (hs.snoc hoo.1) hoo.2 t
        (parent ++ [8, (j : Int)] ++ [2, t]) (ind + 1)
      exact ⟨_, ⟨os, rfl, h1⟩, h2⟩
    | sib i =>
      have hi := hlt i hkm
      have hg := List.getElem?_eq_getElem hi
      obtain ⟨d, h1, _, _, h4⟩ := emits_printField en hs hk 3 false (hh.fields _ (List.getElem_mem hi)) (parent ++ [2, (i : Int)]) (ind + 1)
      refine ⟨[d], ⟨_, d, hg, rfl, h1⟩, ?_⟩
      unfold runOStep
      simp only [hg]
      exact h4.toks (by simp [Decl.toksAll])
    | _ => exact ⟨[], rfl, Emits.id .idle⟩
  obtain ⟨dss, h1, h2⟩ := emits_runSteps _ hst
  refine ⟨dss.flatten, ⟨?_, ?_, ?_⟩, ?_⟩
  · refine opts_of_keys hoo.2 hp hO ?_
    rw [← flatMap_toList, List.flatMap_assoc]
    refine forall2_sel (fun k ds hr => ?_) h1
    cases k with
    | opt t => obtain ⟨os, rfl, ho⟩ := hr; rw [optionDecls_option]; simpa [isOpt] using ho
    | sib i =>
      obtain ⟨f, d, _, rfl, hf⟩ := hr
      rcases hf.shape with ⟨_, _, _, _, _, rfl⟩ | ⟨_, _, _, _, _, rfl⟩ <;> exact .nil
    | _ => have : ds = [] := hr; subst this; exact .nil
  · refine Matches.of_idx (P := fun i d => ∃ f, h.fields[i]? = some f ∧ f.Means pk sc ms false d) (is := ks.filterMap isSib)
      (get := fun i => h.fields[i]?) ?_ ?_ ?_
    · rw [← flatMap_toList]
      refine forall2_sel (fun k ds hr => ?_) h1
      cases k with
      | opt t => obtain ⟨os, rfl, ho⟩ := hr; rw [optionDecls_none (fun _ => rfl)]; exact .nil
      | sib i =>
        obtain ⟨f, d, hf0, rfl, hf⟩ := hr
        rcases hf.shape with ⟨_, _, _, _, _, rfl⟩ | ⟨_, _, _, _, _, rfl⟩ <;> exact .cons ⟨f, hf0, hf⟩ .nil
      | _ => have : ds = [] := hr; subst this; exact .nil
    · intro i hi
      obtain ⟨k, hkm, e⟩ := List.mem_filterMap.1 hi
      have : k = .sib i := by cases k <;> simp [isSib] at e; rw [e]
      subst this
      have hg := List.getElem?_eq_getElem (hlt i hkm)
      exact ⟨_, hg, fun y ⟨f, hf, hm⟩ => by rw [hg] at hf; cases hf; exact hm⟩
    · have := (hS.trans his).filterMap (fun i => h.fields[i]?)
      refine this.trans (List.Perm.of_eq ?_)
      unfold inOneof
      conv => rhs; rw [← range_get h.fields]
      rw [List.filterMap_filter, List.filter_filterMap]
      refine List.filterMap_congr (fun i hi => ?_)
      rw [List.getElem?_eq_getElem (List.mem_range.1 hi)]
      simp only [Option.bind_some, Option.filter]
  · refine forall2_all (fun k ds hr => ?_) h1
    cases k with
    | opt t => obtain ⟨os, rfl, ho⟩ := hr; exact optionDecls_all (fun _ => rfl) os
    | sib i =>
      obtain ⟨f, d, _, rfl, hf⟩ := hr
      rcases hf.shape with ⟨_, _, _, _, _, rfl⟩ | ⟨_, _, _, _, _, rfl⟩ <;> simp [Decl.inOneof]
    | _ => have : ds = [] := hr; subst this; simp
  · have := emits_named en (kw "oneof ") (emits_kw "oneof" (by decide) (by simp)) hoo.1 (parent ++ [8, (j : Int)])
      (parent ++ [8, (j : Int)] ++ [1]) ind (h2 c.compactFields true)
    unfold printOneOf
    rw [ho]
    simp only [hks]
    exact this.toks (by simp [Decl.toks])

/-! ### Extensions -/

theorem extLoc_ok (en : Env c si) (exts : List Ext) (path : Path) (i : Nat) : LocsOk (extLoc si exts path i) := by
  intro l hl
  unfold extLoc at hl
  split at hl
  · exact en.locs path l (List.mem_of_getElem? hl)
  · cases hl

theorem emits_printExtensions (en : Env c si) {pk sc : QName} (hs : ScOk pk sc) {kids : List Kid} {ms : List KidMeans}
    (hk : List.Forall₂ KidOk kids ms) (msgTag : Int) {exts : List Ext} (hx : ∀ x ∈ exts, x.Ok kids.length) (path : Path) (ind : Int)
    {is : List Nat} (hne : is ≠ []) {q : QName} (hall : ∀ i ∈ is, ∃ x, exts[i]? = some x ∧ x.extendee = q) :
    ∃ r ds, List.Forall₂ (fun (i : Nat) d => ∃ x, exts[i]? = some x ∧ x.Means pk sc ms (r, d)) is ds ∧
      Emits (printExtensions c si pk sc kids msgTag exts path ind is) .idle (Decl.extend r ds).toks .idle := by
  obtain ⟨i, rest, rfl⟩ := List.exists_cons_of_ne_nil hne
  obtain ⟨x, hxi, hq⟩ := hall i List.mem_cons_self
  have hxo := hx x (List.mem_of_getElem? hxi)
  obtain ⟨r, h1, h2, h3⟩ := qual_type (c := c) hs.idp hs.ids hs.pre hxo.extendee
  rw [hq] at h3
  obtain ⟨dss, h4, h5⟩ := emits_runSteps (R := fun (i : Nat) ds => ∃ x d, exts[i]? = some x ∧ ds = [d] ∧ x.Means pk sc ms (r, d))
    (one := fun (i : Nat) w => match exts[i]? with
      | some x => printField c si pk sc kids msgTag true x.field (path ++ [(i : Int)]) (ind + 1) w
      | none => panic w) (i :: rest) (by
    intro j hj
    obtain ⟨y, hy, hyq⟩ := hall j hj
    obtain ⟨d, h6, _, _, h7⟩ := emits_printField en hs hk msgTag true (hx y (List.mem_of_getElem? hy)).field (path ++ [(j : Int)]) (ind + 1)
    refine ⟨[d], ⟨y, d, hy, rfl, ?_, h6⟩, ?_⟩
    · show RefMeans sc r y.extendee
      rw [hyq]; exact h3
    · simp only [hy]
      exact h7.toks (by simp [Decl.toksAll]))
  have hflat : List.Forall₂ (fun (i : Nat) d => ∃ x, exts[i]? = some x ∧ x.Means pk sc ms (r, d)) (i :: rest) dss.flatten := by
    clear h5 hall hne
    revert h4
    generalize i :: rest = l
    intro h4
    induction h4 with
    | nil => exact .nil
    | cons h _ ih =>
      obtain ⟨x, d, e1, rfl, e2⟩ := h
      exact .cons ⟨x, e1, e2⟩ ih
  refine ⟨r, dss.flatten, hflat, ?_⟩
  have hl := extLoc_ok en exts path i
  have hlead : Emits (fun w => match extLoc si exts path i with | some l => leadingComments c l ind w | none => w) .idle [] .idle := by
    cases hc : extLoc si exts path i with
    | none => exact Emits.id .idle
    | some l => exact emits_leadingComments en.indent (hl l hc) ind .idle
  have htrail : Emits (fun w => match extLoc si exts path i with
        | some l =>
          let r := trailingComments c l (ind + 1) w
          if r.2 && !c.compactTrailing then nl r.1 else r.1
        | none => w) .idle [] .idle := by
    cases hc : extLoc si exts path i with
    | none => exact Emits.id .idle
    | some l =>
      have ht := emits_trailingComments en.indent (hl l hc) (ind + 1) .idle
      intro m0 base w toks hg
      have h1 := hg.after ht
      rw [List.append_nil] at h1 ⊢
      simp only
      split
      · have := h1.after (emits_nl .idle)
        rwa [List.append_nil] at this
      · exact h1
  have hkw := emits_kw "extend" (by decide) (k := .idle) (by simp)
  have hty : Emits (elementString c (si.get (path ++ [0, 2])) ind (qual c pk sc x.extendee 0 ++ [' '])) .sep r.toks .sep := by
    rw [h1]
    exact emits_elementString en.indent (en.loc _) ind ((Txt.ref h2).emits_sep (by simp))
  have := ((((((hlead.comp (emits_indentW en.indent ind .idle)).comp hkw).comp hty).comp (emits_open .sep)).comp htrail).comp
    (h5 c.compactFields true)).comp ((emits_indentW en.indent ind .idle).comp (emits_close .idle))
  unfold printExtensions
  simp only [hxi]
  exact this.toks (by simp [Decl.toks])

/-! ### Extension ranges -/

theorem emits_printExtensionRanges (en : Env c si) {pk sc : QName} (hs : ScOk pk sc) (messageSet : Bool)
    (rs : List (Ranges.Range × Path)) (h : ∀ r ∈ rs, r.1.start < r.1.stop) {os : Opts} (ho : os.Ok) (path : Path) (ind : Int) :
    ∃ ds ss, List.Forall₂ (RangeMeans messageSet) (rs.map Prod.fst) ds ∧ Opts.Mean ⟨pk, sc, true⟩ os ss ∧
      Emits (printExtensionRanges c si pk sc (Ranges.getMaxTag messageSet) rs os path ind) .idle (Decl.extensions ds ss).toks .idle := by
  obtain ⟨ys, h1, h2⟩ := emits_items (R := fun (r : Ranges.Range × Path) d => RangeMeans messageSet r.1 d) (toks := Decls.Range.toks)
    (print := fun r => element c true (si.get r.2) (inline ind) (put (Ranges.extensionItem (Ranges.getMaxTag messageSet) r.1 ++ [' ']))) rs (by
      intro r hr
      obtain ⟨d, h1, h2, _⟩ := txt_range messageSet (h r hr)
      exact ⟨d, h1, emits_element en.indent (en.loc _) true _ (h2.emits_sep (by simp))⟩)
  obtain ⟨ss, h3, h4⟩ := emits_optionsShort en (a := ⟨pk, sc, true⟩) hs ho 3 path ind
  refine ⟨ys, ss, List.forall₂_map_left_iff.2 h1, h3, ?_⟩
  have hk := emits_kw "extensions" (by decide) (k := .idle) (by simp)
  have := ((((emits_indentW en.indent ind .idle).comp hk).comp (h2 true)).comp h4).comp (emits_semiLine .sep)
  exact this.toks (by simp [Decl.toks, semi])

end Verif.Printer
