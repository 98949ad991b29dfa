import Verif.Lemmas.PrinterScope
/-! Enums, oneofs, and blocks of extensions as the descriptor printer writes them. -/
namespace Verif.Printer
open Verif.Lexer Verif.PrintWriter Verif.Decls Verif.Literal

variable {c : Cfg} {si : SI}

/-- A declaration with a name and a body. -/
theorem emits_named (e : Env c si) {word : Str} (kwText : Str) (hkw : Emits (put kwText) .idle [word] .sep)
    {name : Str} (hn : Ident name) (path npath : Path) (ind : Int) {body : W → W} {ds : List Decl}
    (hb : Emits body .idle (Decl.toksAll ds) .idle) :
    Emits (blockElement c (si.get path) ind (fun trail w =>
      let w := elementString c (si.get npath) ind (name ++ [' ']) (put kwText (indentW c ind w))
      let w := trail (ind + 1) true (put ['{', '\n'] w)
      put ['}', '\n'] (indentW c ind (body w)))) .idle ([word, name, ['{']] ++ Decl.toksAll ds ++ [['}']]) .idle := by
  refine emits_blockElement e.indent (e.loc _) ind (fun trail htr => ?_)
  have := ((((((emits_indentW e.indent ind .idle).comp hkw).comp (emits_name e hn npath ind)).comp (emits_open .sep)).comp
    (htr (ind + 1) true .idle)).comp hb).comp ((emits_indentW e.indent ind .idle).comp (emits_close .idle))
  exact this.toks (by simp)

theorem emits_options (e : Env c si) {a : At} (ha : ScOk a.pk a.sc) {os : Opts} (h : os.Ok) (t : Int) (path : Path) (ind : Int) :
    ∃ ds, List.Forall₂ (Opt.Means a) (optsAt os t) ds ∧
      Emits (optionsLong c si a (optsAt os t) path ind) .idle (Decl.toksAll (optionDecls ds)) .idle :=
  emits_optionsLong e ha (optsAt_ok h t) path ind

/-! ### Enums -/

def EStepMeans (pk sc : QName) (e : Enum) : EStep → List Decl → Prop
  | .opt t, ds => ∃ os, ds = optionDecls os ∧ List.Forall₂ (Opt.Means ⟨pk, sc ++ [e.name], false⟩) (optsAt e.opts t) os
  | .value i, ds => ∃ v os, e.values[i]? = some v ∧ ds = [.value v.name v.number os] ∧ v.Means pk sc (.value v.name v.number os)
  | .ranges is, ds => ∃ rs, ds = [.reservedRanges rs] ∧ List.Forall₂ EnumRangeMeans (is.map (enumRng e)) rs
  | .names is, ds => ∃ ts, ds = [.reservedNames ts] ∧ List.Forall₂ NameMeans (is.map (enumNm e)) ts

theorem enumKeys_values (e : Enum) : (enumKeys e).filterMap isValue = List.range e.values.length := by
  unfold enumKeys
  simp only [List.filterMap_append]
  rw [optKeys_other (fun _ => rfl), places_same (fun _ => rfl), places_other (fun _ => rfl), places_other (fun _ => rfl)]
  simp

theorem enumKeys_resR (e : Enum) : (enumKeys e).filterMap isResR = List.range e.resRanges.length := by
  unfold enumKeys
  simp only [List.filterMap_append]
  rw [optKeys_other (fun _ => rfl), places_same (mk := .resR) (fun _ => rfl), places_other (fun _ => rfl), places_other (fun _ => rfl)]
  simp

theorem enumKeys_resN (e : Enum) : (enumKeys e).filterMap isResN = List.range e.resNames.length := by
  unfold enumKeys
  simp only [List.filterMap_append]
  rw [optKeys_other (fun _ => rfl), places_same (mk := .resN) (fun _ => rfl), places_other (fun _ => rfl), places_other (fun _ => rfl)]
  simp

theorem enumKeys_opt (e : Enum) : (enumKeys e).filterMap isOpt = e.opts.map Prod.fst := by
  unfold enumKeys
  simp only [List.filterMap_append]
  rw [optKeys_isOpt, places_other (fun _ => rfl), places_other (fun _ => rfl), places_other (fun _ => rfl)]
  simp

theorem range_getD {α : Type*} (xs : List α) (d : α) : (List.range xs.length).map (fun i => xs.getD i d) = xs := by
  refine List.ext_getElem (by simp) (fun i h1 h2 => ?_)
  simp [List.getD_eq_getElem?_getD, h2]

theorem flatMap_mem {σ β : Type*} {proj : σ → List β} {ss : List σ} {s : σ} (hs : s ∈ ss) {i : β} (hi : i ∈ proj s) : i ∈ ss.flatMap proj :=
  List.mem_flatMap.2 ⟨s, hs, hi⟩

theorem emits_printEnum (en : Env c si) {pk sc : QName} (hs : ScOk pk sc) {e : Enum} (h : e.Ok) (path : Path) (ind : Int) :
    ∃ ds, e.Body pk sc ds ∧ Emits (printEnum c si pk sc e path ind) .idle (Decl.enum e.name ds).toks .idle := by
  obtain ⟨ks, hks⟩ : ∃ ks, c.sort path (enumKeys e) = ks := ⟨_, rfl⟩
  have hp : ks.Perm (enumKeys e) := hks ▸ en.sorted path _
  have hR : (ks.filterMap isResR).Perm (List.range e.resRanges.length) := enumKeys_resR e ▸ hp.filterMap _
  have hN : (ks.filterMap isResN).Perm (List.range e.resNames.length) := enumKeys_resN e ▸ hp.filterMap _
  have hV : (ks.filterMap isValue).Perm (List.range e.values.length) := enumKeys_values e ▸ hp.filterMap _
  have hc := enumSteps_content e ks.length [] [] ks (Nat.le_refl _)
    ((hR.map (enumRng e)).nodup_iff.2 (by rw [show (List.range e.resRanges.length).map (enumRng e) = e.resRanges from range_getD _ _]; exact h.distinctRanges))
    ((hN.map (enumNm e)).nodup_iff.2 (by rw [show (List.range e.resNames.length).map (enumNm e) = e.resNames from range_getD _ _]; exact h.distinctNames))
    (by simp) (by simp)
  have hst : ∀ s ∈ enumSteps e [] [] ks, ∃ ds, EStepMeans pk sc e s ds ∧
      Emits (runEStep c si pk sc e path (ind + 1) s) .idle (Decl.toksAll ds) .idle := by
    intro s hsm
    cases s with
    | opt t =>
      obtain ⟨os, h1, h2⟩ := emits_options en (a := ⟨pk, sc ++ [e.name], false⟩) (hs.snoc h.name) h.opts t (path ++ [3, t]) (ind + 1)
      exact ⟨_, ⟨os, rfl, h1⟩, h2⟩
    | value i =>
      have hi : i < e.values.length := by
        have : i ∈ ks.filterMap isValue := hc.values ▸ flatMap_mem hsm (by simp)
        exact List.mem_range.1 (hV.subset this)
      have hg := List.getElem?_eq_getElem hi
      obtain ⟨d, ⟨os, rfl, ho⟩, h2, h3, h4⟩ := emits_printEnumValue en hs (h.values _ (List.getElem_mem hi)) (path ++ [2, (i : Int)]) (ind + 1)
      refine ⟨_, ⟨_, os, hg, rfl, os, rfl, ho⟩, ?_⟩
      unfold runEStep
      simp only [hg]
      exact h4.toks (by simp [Decl.toksAll])
    | ranges is =>
      obtain ⟨ds, h1, h2⟩ := emits_reservedRanges en (R := EnumRangeMeans) 2147483647
        (is.map fun i => (enumRng e i, path ++ [4, (i : Int)])) (by
          intro r hr
          obtain ⟨i, hi, rfl⟩ := List.mem_map.1 hr
          have : i ∈ ks.filterMap isResR := hc.ranges ▸ flatMap_mem hsm hi
          have hi' := List.mem_range.1 (hR.subset this)
          refine txt_enumRange (h.ranges _ ?_)
          simp [enumRng, List.getD_eq_getElem?_getD, hi']) (ind + 1)
      refine ⟨_, ⟨ds, rfl, ?_⟩, ?_⟩
      · simpa [Function.comp_def] using h1
      · exact h2.toks (by simp [Decl.toksAll])
    | names is =>
      obtain ⟨ds, h1, h2⟩ := emits_reservedNames en
        (is.map fun i => (enumNm e i, path ++ [5, (i : Int)])) (by
          intro r hr
          obtain ⟨i, hi, rfl⟩ := List.mem_map.1 hr
          have : i ∈ ks.filterMap isResN := hc.names ▸ flatMap_mem hsm hi
          have hi' := List.mem_range.1 (hN.subset this)
          refine h.names _ ?_
          simp [enumNm, List.getD_eq_getElem?_getD, hi']) (ind + 1)
      refine ⟨_, ⟨ds, rfl, ?_⟩, ?_⟩
      · simpa [Function.comp_def] using h1
      · exact h2.toks (by simp [Decl.toksAll])
  obtain ⟨dss, h1, h2⟩ := emits_runSteps _ hst
  refine ⟨dss.flatten, ?_, ?_⟩
  · refine ⟨?_, ?_, ?_, ?_, ?_⟩
    · refine opts_of_keys h.opts hp (enumKeys_opt e) ?_
      rw [← hc.opts, List.flatMap_assoc]
      refine forall2_sel (fun s ds hr => ?_) h1
      cases s with
      | opt t => obtain ⟨os, rfl, ho⟩ := hr; rw [optionDecls_option]; simpa using ho
      | value i => obtain ⟨v, os, _, rfl, _⟩ := hr; exact .nil
      | ranges is => obtain ⟨rs, rfl, _⟩ := hr; exact .nil
      | names is => obtain ⟨rs, rfl, _⟩ := hr; exact .nil
    · refine Matches.of_range (is := ks.filterMap isValue) ?_ hV
      rw [← hc.values]
      refine forall2_sel (fun s ds hr => ?_) h1
      cases s with
      | opt t => obtain ⟨os, rfl, ho⟩ := hr; rw [optionDecls_none (fun _ => rfl)]; exact .nil
      | value i =>
        obtain ⟨v, os, hv, rfl, hm⟩ := hr
        exact .cons (fun x hx => by rw [hv] at hx; cases hx; exact hm) .nil
      | ranges is => obtain ⟨rs, rfl, _⟩ := hr; exact .nil
      | names is => obtain ⟨rs, rfl, _⟩ := hr; exact .nil
    · refine Matches.of_range (is := ks.filterMap isResR) ?_ hR
      rw [← hc.ranges]
      refine forall2_sel (fun s ds hr => ?_) h1
      cases s with
      | opt t => obtain ⟨os, rfl, ho⟩ := hr; rw [optionDecls_none (fun _ => rfl)]; exact .nil
      | value i => obtain ⟨v, os, _, rfl, _⟩ := hr; exact .nil
      | ranges is =>
        obtain ⟨rs, rfl, hm⟩ := hr
        refine List.Forall₂.imp ?_ (show List.Forall₂ _ is ([Decl.reservedRanges rs].flatMap asReserved) by
          simpa [asReserved] using List.forall₂_map_left_iff.1 hm)
        intro i d hd x hx
        simpa [enumRng, List.getD_eq_getElem?_getD, hx] using hd
      | names is => obtain ⟨rs, rfl, _⟩ := hr; exact .nil
    · refine Matches.of_range (is := ks.filterMap isResN) ?_ hN
      rw [← hc.names]
      refine forall2_sel (fun s ds hr => ?_) h1
      cases s with
      | opt t => obtain ⟨os, rfl, ho⟩ := hr; rw [optionDecls_none (fun _ => rfl)]; exact .nil
      | value i => obtain ⟨v, os, _, rfl, _⟩ := hr; exact .nil
      | ranges is => obtain ⟨rs, rfl, _⟩ := hr; exact .nil
      | names is =>
        obtain ⟨rs, rfl, hm⟩ := hr
        refine List.Forall₂.imp ?_ (show List.Forall₂ _ is ([Decl.reservedNames rs].flatMap asReservedName) by
          simpa [asReservedName] using List.forall₂_map_left_iff.1 hm)
        intro i d hd x hx
        simpa [enumNm, List.getD_eq_getElem?_getD, hx] using hd
    · refine forall2_all_mem h1 (fun s hsm ds hr => ?_)
      have hful := enumSteps_full e ks [] [] s hsm
      cases s with
      | opt t => obtain ⟨os, rfl, ho⟩ := hr; exact optionDecls_all (fun _ => rfl) os
      | value i => obtain ⟨v, os, _, rfl, _⟩ := hr; simp [Decl.inEnum]
      | ranges is => obtain ⟨rs, rfl, hm⟩ := hr; simpa [Decl.inEnum] using forall2_ne hm (by simpa [EStep.full] using hful)
      | names is => obtain ⟨rs, rfl, hm⟩ := hr; simpa [Decl.inEnum] using forall2_ne hm (by simpa [EStep.full] using hful)
  · have := emits_named en (kw "enum ") (emits_kw "enum" (by decide) (by simp)) h.name path (path ++ [1]) ind (h2 c.compactFields true)
    unfold printEnum
    rw [hks]
    exact this.toks (by simp [Decl.toks])

end Verif.Printer
