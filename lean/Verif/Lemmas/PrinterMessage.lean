import Verif.Lemmas.PrinterGroups
/-! Messages as the descriptor printer writes them. -/
namespace Verif.Printer
open Verif.Lexer Verif.PrintWriter Verif.Decls Verif.Literal

variable {c : Cfg} {si : SI}

/-! ### The keys of a message -/

def selField (h : MHead) : Key → Option Nat | .field i => if (realOneof h i).isNone then some i else none | _ => none
def selMsg (hid : List Nat) : Key → Option Nat | .msg i => if i ∈ hid then none else some i | _ => none
def isEnumK : Key → Option Nat | .enum i => some i | _ => none

def pOpt : Step → List Int | .opt t => [t] | _ => []
def pField : Step → List Nat | .field i => [i] | _ => []
def pMsg : Step → List Nat | .msg i => [i] | _ => []
def pEnum : Step → List Nat | .enum i => [i] | _ => []
def pExtR : Step → List Nat | .extRanges is => is | _ => []
def pResR : Step → List Nat | .ranges is => is | _ => []
def pResN : Step → List Nat | .names is => is | _ => []
def pExts : Step → List Nat | .exts is => is | _ => []

theorem simple_opt (h : MHead) : Simple h pOpt (fun k => (isOpt k).toList) := by
  constructor <;> intros <;> simp [pOpt, isOpt]
theorem simple_field (h : MHead) : Simple h pField (fun k => (selField h k).toList) := by
  constructor <;> intros <;> simp_all [pField, selField]
theorem simple_msg (h : MHead) : Simple h pMsg (fun k => (selMsg (hidden h.fields h.exts) k).toList) := by
  constructor <;> intros <;> simp_all [pMsg, selMsg]
theorem simple_enum (h : MHead) : Simple h pEnum (fun k => (isEnumK k).toList) := by
  constructor <;> intros <;> simp [pEnum, isEnumK]
theorem simple_extR (h : MHead) : Simple h pExtR (fun k => (isExtR k).toList) := by
  constructor <;> intros <;> simp [pExtR, isExtR]
theorem simple_resR (h : MHead) : Simple h pResR (fun k => (isResR k).toList) := by
  constructor <;> intros <;> simp [pResR, isResR]
theorem simple_resN (h : MHead) : Simple h pResN (fun k => (isResN k).toList) := by
  constructor <;> intros <;> simp [pResN, isResN]

theorem pExts_eq (ss : List Step) : ss.flatMap pExts = (ss.flatMap extsOf).flatten := by
  induction ss with
  | nil => rfl
  | cons s ss ih => rw [List.flatMap_cons, List.flatMap_cons, List.flatten_append, ih]; cases s <;> simp [pExts, extsOf]

theorem keys_other {β : Type*} {sel : Key → Option β} (h : MHead) (n : Nat) (hopt : ∀ t, sel (.opt t) = none) :
    (msgKeys h n).filterMap sel = (List.range h.resRanges.length).filterMap (fun i => sel (.resR i)) ++
      (List.range h.resNames.length).filterMap (fun i => sel (.resN i)) ++
      (List.range h.extRanges.length).filterMap (fun i => sel (.extR i)) ++
      (List.range h.fields.length).filterMap (fun i => sel (.field i)) ++
      (List.range n).filterMap (fun i => sel (.msg i)) ++
      (List.range h.enums.length).filterMap (fun i => sel (.enum i)) ++
      (List.range h.exts.length).filterMap (fun i => sel (.ext i)) := by
  unfold msgKeys
  simp only [List.filterMap_append, filterMap_places, optKeys_other hopt, List.nil_append]

theorem msgKeys_opt (h : MHead) (n : Nat) : (msgKeys h n).filterMap isOpt = h.opts.map Prod.fst := by
  unfold msgKeys
  simp [List.filterMap_append, filterMap_places, optKeys_isOpt, isOpt]

theorem mem_filterMap_sel {sel : Key → Option Nat} {ks : List Key} {n : Nat} (hp : (ks.filterMap sel).Perm (List.range n)) {i : Nat}
    (hi : i ∈ ks.filterMap sel) : i < n := List.mem_range.1 (hp.subset hi)

theorem hidden_iff (fs : List Field) (xs : List Ext) (i : Nat) : i ∈ hidden fs xs ↔ declared fs xs i = true := by
  unfold hidden declared
  rw [List.mem_append, Bool.or_eq_true, List.any_eq_true, List.any_eq_true, List.mem_filterMap, List.mem_filterMap]
  constructor
  · rintro (⟨f, hf, e⟩ | ⟨x, hx, e⟩)
    · refine .inl ⟨f, hf, ?_⟩
      cases ht : f.type with
      | plain t => rw [ht] at e; cases e
      | group j => rw [ht] at e; simpa using Eq.symm (by simpa using e)
      | map k v j => rw [ht] at e; simpa using Eq.symm (by simpa using e)
    · refine .inr ⟨x, hx, ?_⟩
      unfold Field.group? at e
      cases ht : x.field.type with
      | plain t => rw [ht] at e; cases e
      | group j => rw [ht] at e; simpa using Eq.symm (by simpa using e)
      | map k v j => rw [ht] at e; cases e
  · rintro (⟨f, hf, e⟩ | ⟨x, hx, e⟩)
    · refine .inl ⟨f, hf, ?_⟩
      cases ht : f.type with
      | plain t => rw [ht] at e; cases e
      | group j => rw [ht] at e; simpa using Eq.symm (by simpa using e)
      | map k v j => rw [ht] at e; simpa using Eq.symm (by simpa using e)
    · refine .inr ⟨x, hx, ?_⟩
      unfold Field.group?
      cases ht : x.field.type with
      | plain t => rw [ht] at e; cases e
      | group j => rw [ht] at e; simpa using Eq.symm (by simpa using e)
      | map k v j => rw [ht] at e; cases e

/-- The messages that are printed. -/
theorem visible_eq (fs : List Field) (xs : List Ext) (ms : List KidMeans) :
    ((List.range ms.length).filterMap (fun i => if i ∈ hidden fs xs then none else some i)).filterMap (fun i => ms[i]?) = visible fs xs ms := by
  unfold visible
  rw [zip_range, List.filter_filterMap, List.map_filterMap, List.filterMap_filterMap]
  refine List.filterMap_congr (fun i hi => ?_)
  rw [List.getElem?_eq_getElem (List.mem_range.1 hi)]
  by_cases hh : i ∈ hidden fs xs
  · have := (hidden_iff fs xs i).1 hh
    simp [hh, this, Option.filter]
  · have : declared fs xs i = false := by
      cases hd : declared fs xs i with
      | false => rfl
      | true => exact absurd ((hidden_iff fs xs i).2 hd) hh
    simp [hh, this, List.getElem?_eq_getElem (List.mem_range.1 hi), Option.filter]

theorem plainFields_eq {h : MHead} (ho : ∀ f ∈ h.fields, ∀ j, f.oneof = some j → j < h.oneofs.length) :
    ((List.range h.fields.length).filterMap (fun i => if (realOneof h i).isNone then some i else none)).filterMap (fun i => h.fields[i]?)
      = plainFields h := by
  unfold plainFields
  refine Eq.trans ?_ (filter_places h.fields _ (fun i => (realOneof h i).isNone) (fun i x hx => ?_))
  rotate_left
  · unfold realOneof
    rw [hx]
    cases hj : x.oneof with
    | none => simp [hj]
    | some j =>
      have hlt := ho x (List.mem_of_getElem? hx) j hj
      simp only [hj]
      unfold isReal
      rw [List.getElem?_eq_getElem hlt]
      cases hs : (h.oneofs[j]).synthetic <;> simp [hs]
  congr 1
  induction (List.range h.fields.length) with
  | nil => rfl
  | cons i is ih =>
    rw [List.filter_cons]
    cases hr : (realOneof h i).isNone with
    | false => rw [List.filterMap_cons_none (by rw [hr]; rfl), ih]; rfl
    | true => rw [List.filterMap_cons_some (b := i) (by rw [hr]; rfl), ih]; rfl

theorem realOneof_some {h : MHead} {i j : Nat} (hr : realOneof h i = some j) : ∃ f, h.fields[i]? = some f ∧ f.oneof = some j ∧
    (h.oneofs[j]?.map Oneof.synthetic).getD false = false := by
  unfold realOneof at hr
  cases hf : h.fields[i]? with
  | none => rw [hf] at hr; cases hr
  | some f =>
    rw [hf] at hr
    simp only at hr
    cases ho : f.oneof with
    | none => rw [ho] at hr; cases hr
    | some k =>
      rw [ho] at hr
      simp only at hr
      split at hr
      · cases hr
      · rename_i hne
        cases hr
        exact ⟨f, rfl, ho, by simpa using hne⟩

/-- The oneofs that are printed. -/
theorem realOneofs_perm {n : Nat} {h : MHead} (hh : h.Ok n) {is : List Nat} (hp : is.Perm (List.range h.fields.length)) :
    ((groups (realOneof h) (oneofMem h) [] is).filterMap
      (fun g => h.oneofs[g.1]?.bind (fun o => if o.synthetic then none else some (g.1, o)))).Perm (realOneofs h) := by
  obtain ⟨h1, h2⟩ := groups_fst (cls := realOneof h) (mem := oneofMem h) [] is
  have hjs : ((groups (realOneof h) (oneofMem h) [] is).map Prod.fst).Perm ((List.range h.oneofs.length).filter (isReal h)) := by
    refine (List.perm_ext_iff_of_nodup h1 (List.nodup_range.filter _)).2 (fun j => ?_)
    rw [List.mem_filter, List.mem_range]
    constructor
    · intro hj
      obtain ⟨g, hg, rfl⟩ := List.mem_map.1 hj
      obtain ⟨_, i, _, hi⟩ := h2 g hg
      obtain ⟨f, hf, ho, hs⟩ := realOneof_some hi
      have hlt := hh.oneof f (List.mem_of_getElem? hf) _ ho
      refine ⟨hlt, ?_⟩
      unfold isReal
      rw [List.getElem?_eq_getElem hlt] at hs ⊢
      simpa using hs
    · rintro ⟨hlt, hreal⟩
      obtain ⟨f, hf, ho⟩ := hh.inhabited j hlt
      obtain ⟨i, hi, rfl⟩ := List.mem_iff_getElem.1 hf
      have hr : realOneof h i = some j := by
        unfold realOneof
        rw [List.getElem?_eq_getElem hi]
        simp only [ho]
        unfold isReal at hreal
        rw [List.getElem?_eq_getElem hlt] at hreal ⊢
        simp only [Bool.not_eq_true'] at hreal
        simp [hreal]
      obtain ⟨g, hg, e⟩ := groups_all (mem := oneofMem h) [] is (hp.symm.subset (List.mem_range.2 hi)) hr (by simp)
      exact List.mem_map.2 ⟨g, hg, e⟩
  have := hjs.filterMap (fun j => h.oneofs[j]?.bind (fun o => if o.synthetic then none else some (j, o)))
  rw [List.filterMap_map] at this
  refine this.trans (List.Perm.of_eq ?_)
  unfold realOneofs
  rw [zip_range, List.filter_filterMap, List.filterMap_filter]
  refine List.filterMap_congr (fun j hj => ?_)
  unfold isReal
  rw [List.getElem?_eq_getElem (List.mem_range.1 hj)]
  cases hs : (h.oneofs[j]'(List.mem_range.1 hj)).synthetic <;> simp [hs, Option.filter]

/-! ### The body of a message -/

def StepMeans (pk sc : QName) (ms : List KidMeans) (h : MHead) : Step → List Decl → Prop
  | .opt t, ds => ∃ os, ds = optionDecls os ∧ List.Forall₂ (Opt.Means ⟨pk, sc, true⟩) (optsAt h.opts t) os
  | .field i, ds => ∃ f d, h.fields[i]? = some f ∧ ds = [d] ∧ f.Means pk sc ms false d
  | .oneof j _, ds => ∃ o b, h.oneofs[j]? = some o ∧ ds = [.oneof o.name b] ∧ o.Body pk sc ms (inOneof h j) b
  | .exts is, ds => ∃ r b, ds = [.extend r b] ∧ List.Forall₂ (fun (i : Nat) d => ∃ x, h.exts[i]? = some x ∧ x.Means pk sc ms (r, d)) is b
  | .msg i, ds => ∃ m b, ms[i]? = some m ∧ ds = [.message m.name b] ∧ m.body b
  | .enum i, ds => ∃ e b, h.enums[i]? = some e ∧ ds = [.enum e.name b] ∧ e.Body pk sc b
  | .extRanges is, ds => ∃ rs ss, ds = [.extensions rs ss] ∧ List.Forall₂ (fun (i : Nat) r => ∀ x, h.extRanges[i]? = some x →
      RangeMeans h.messageSet x.1 r ∧ Opts.Mean ⟨pk, sc, true⟩ x.2 ss) is rs
  | .ranges is, ds => ∃ rs, ds = [.reservedRanges rs] ∧ List.Forall₂ (fun (i : Nat) r => ∀ x, h.resRanges[i]? = some x →
      RangeMeans h.messageSet x r) is rs
  | .names is, ds => ∃ rs, ds = [.reservedNames rs] ∧ List.Forall₂ (fun (i : Nat) r => ∀ x, h.resNames[i]? = some x → NameMeans x r) is rs
  | _, ds => ds = []

theorem forall2_imp_mem {α β : Type*} {R S : α → β → Prop} {xs : List α} {ys : List β} (h : List.Forall₂ R xs ys)
    (hi : ∀ x ∈ xs, ∀ y, R x y → S x y) : List.Forall₂ S xs ys := by
  induction h with
  | nil => exact .nil
  | cons h _ ih => exact .cons (hi _ List.mem_cons_self _ h) (ih (fun x hx => hi x (List.mem_cons_of_mem _ hx)))

theorem emits_printMessage (en : Env c si) {k : Kid} {m : KidMeans} (hk : KidOk k m) (path : Path) (hp : 2 ≤ path.length) (ind : Int) :
    ∃ ds, m.body ds ∧ Emits (printMessage c si k path ind) .idle (Decl.message m.name ds).toks .idle := by
  obtain ⟨ds, h1, h2⟩ := hk.body path (ind + 1) hp
  refine ⟨ds, h1, ?_⟩
  have := emits_named en (kw "message ") (emits_kw "message" (by decide) (by simp)) hk.ident path (path ++ [1]) ind h2
  unfold printMessage
  exact this.toks (by simp [Decl.toks, hk.name])

theorem emits_printMessageBody (en : Env c si) {pk sc : QName} (hs : ScOk pk sc) {kids : List Kid} {ms : List KidMeans}
    (hk : List.Forall₂ KidOk kids ms) {h : MHead} (hh : h.Ok kids.length) (path : Path) (hpath : 2 ≤ path.length) (ind : Int) :
    ∃ ds, MHead.Body pk sc ms h ds ∧ Emits (printMessageBody c si pk sc kids h path ind) .idle (Decl.toksAll ds) .idle := by
  obtain ⟨ks, hks⟩ : ∃ ks, c.sort path (msgKeys h kids.length) = ks := ⟨_, rfl⟩
  have hp : ks.Perm (msgKeys h kids.length) := hks ▸ en.sorted path _
  have hnp : extsPanic si h.exts (path ++ [6]) = false := extsPanic_false hpath (en.paths path)
  obtain ⟨ss, hss⟩ : ∃ ss, steps si h path 0 [] [] ks = ss := ⟨_, rfl⟩
  have cont : ∀ {ι : Type} {proj : Step → List ι} {sel : Key → Option ι}, Simple h proj (fun k => (sel k).toList) →
      ss.flatMap proj = ks.filterMap sel := by
    intro ι proj sel hsim
    rw [← hss, steps_simple hsim ks.length [] [] ks (Nat.le_refl _), flatMap_toList]
  have cOpt := cont (simple_opt h)
  have cField := cont (simple_field h)
  have cMsg := cont (simple_msg h)
  have cEnum := cont (simple_enum h)
  have cExtR := cont (simple_extR h)
  have cResR := cont (simple_resR h)
  have cResN := cont (simple_resN h)
  have pField' : (ks.filterMap (selField h)).Perm ((List.range h.fields.length).filterMap (fun i => if (realOneof h i).isNone then some i else none)) := by
    have := hp.filterMap (selField h)
    rw [keys_other h _ (fun _ => rfl)] at this
    simpa [selField] using this
  have pMsg' : (ks.filterMap (selMsg (hidden h.fields h.exts))).Perm
      ((List.range kids.length).filterMap (fun i => if i ∈ hidden h.fields h.exts then none else some i)) := by
    have := hp.filterMap (selMsg (hidden h.fields h.exts))
    rw [keys_other h _ (fun _ => rfl)] at this
    simpa [selMsg] using this
  have pEnum' : (ks.filterMap isEnumK).Perm (List.range h.enums.length) := by
    have := hp.filterMap isEnumK
    rw [keys_other h _ (fun _ => rfl)] at this
    simpa [isEnumK] using this
  have pExtR' : (ks.filterMap isExtR).Perm (List.range h.extRanges.length) := by
    have := hp.filterMap isExtR
    rw [keys_other h _ (fun _ => rfl)] at this
    simpa [isExtR] using this
  have pResR' : (ks.filterMap isResR).Perm (List.range h.resRanges.length) := by
    have := hp.filterMap isResR
    rw [keys_other h _ (fun _ => rfl)] at this
    simpa [isResR] using this
  have pResN' : (ks.filterMap isResN).Perm (List.range h.resNames.length) := by
    have := hp.filterMap isResN
    rw [keys_other h _ (fun _ => rfl)] at this
    simpa [isResN] using this
  have pFld : (ks.filterMap isField).Perm (List.range h.fields.length) := by
    have := hp.filterMap isField
    rw [keys_other h _ (fun _ => rfl)] at this
    simpa [isField] using this
  have pExt' : (ks.filterMap isExt).Perm (List.range h.exts.length) := by
    have := hp.filterMap isExt
    rw [keys_other h _ (fun _ => rfl)] at this
    simpa [isExt] using this
  have cOne : ss.flatMap oneofOf = groups (realOneof h) (oneofMem h) [] (ks.filterMap isField) := by
    rw [← hss]; exact steps_oneofs ks.length [] [] ks (Nat.le_refl _)
  have cExt : ss.flatMap extsOf = (groups (fun i => some (extClass si h.exts (path ++ [6]) i)) (extMem si h.exts (path ++ [6])) []
      (ks.filterMap isExt)).map Prod.snd := by
    rw [← hss]; exact steps_exts ks.length [] [] ks (Nat.le_refl _)
  obtain ⟨xg1, xg2⟩ := ext_groups (si := si) (p := path ++ [6]) pExt'
  rw [← cExt] at xg1 xg2
  have hlenms : kids.length = ms.length := hk.length_eq
  have hst : ∀ s ∈ ss, ∃ ds, StepMeans pk sc ms h s ds ∧
      Emits (runStep c si pk sc kids h path ind s) .idle (Decl.toksAll ds) .idle := by
    intro s hsm
    cases s with
    | opt t =>
      obtain ⟨os, h1, h2⟩ := emits_options en (a := ⟨pk, sc, true⟩) hs hh.opts t (path ++ [7, t]) ind
      exact ⟨_, ⟨os, rfl, h1⟩, h2⟩
    | field i =>
      have hi : i < h.fields.length := by
        have : i ∈ ks.filterMap (selField h) := cField ▸ flatMap_mem hsm (by simp [pField])
        obtain ⟨j, hj, e⟩ := List.mem_filterMap.1 (pField'.subset this)
        split at e
        · cases e; exact List.mem_range.1 hj
        · cases e
      have hg := List.getElem?_eq_getElem hi
      obtain ⟨d, h1, _, _, h4⟩ := emits_printField en hs hk 3 false (hh.fields _ (List.getElem_mem hi)) (path ++ [2, (i : Int)]) ind
      refine ⟨[d], ⟨_, d, hg, rfl, h1⟩, ?_⟩
      unfold runStep
      simp only [hg]
      exact h4.toks (by simp [Decl.toksAll])
    | oneof j is =>
      have hmem : (j, is) ∈ groups (realOneof h) (oneofMem h) [] (ks.filterMap isField) := cOne ▸ flatMap_mem hsm (by simp [oneofOf])
      obtain ⟨_, i, _, hi⟩ := (groups_fst [] _).2 _ hmem
      obtain ⟨f, hf, ho, _⟩ := realOneof_some hi
      have hlt := hh.oneof f (List.mem_of_getElem? hf) _ ho
      have hg := List.getElem?_eq_getElem hlt
      obtain ⟨ds, h1, h2⟩ := emits_printOneOf en hs hk hh hg (oneof_groups pFld _ hmem) path ind
      exact ⟨_, ⟨_, ds, hg, rfl, h1⟩, h2.toks (by simp [Decl.toksAll])⟩
    | exts is =>
      have hmem : is ∈ ss.flatMap extsOf := flatMap_mem hsm (by simp [extsOf])
      obtain ⟨hne, cls, hcls⟩ := xg2 is hmem
      obtain ⟨i0, r0, e0⟩ := List.exists_cons_of_ne_nil hne
      have hi0 := hcls i0 (e0 ▸ List.mem_cons_self)
      obtain ⟨cl, hcl⟩ := extClass_some hnp hi0.1
      obtain ⟨r, ds, h1, h2⟩ := emits_printExtensions en hs hk 3 hh.exts (path ++ [6]) ind hne (q := cl.1) (by
        intro i hi
        have := (hcls i hi).2
        rw [← hi0.2, hcl] at this
        exact extClass_extendee this)
      exact ⟨_, ⟨r, ds, rfl, h1⟩, h2.toks (by simp [Decl.toksAll])⟩
    | msg i =>
      have hi : i < kids.length := by
        have : i ∈ ks.filterMap (selMsg (hidden h.fields h.exts)) := cMsg ▸ flatMap_mem hsm (by simp [pMsg])
        obtain ⟨j, hj, e⟩ := List.mem_filterMap.1 (pMsg'.subset this)
        split at e
        · cases e
        · cases e; exact List.mem_range.1 hj
      obtain ⟨k, m, hk1, hk2, hkm⟩ := forall2_get hk hi
      obtain ⟨ds, h1, h2⟩ := emits_printMessage en hkm (path ++ [3, (i : Int)]) (by simp) ind
      refine ⟨_, ⟨m, ds, hk2, rfl, h1⟩, ?_⟩
      unfold runStep
      simp only [hk1]
      exact h2.toks (by simp [Decl.toksAll])
    | enum i =>
      have hi : i < h.enums.length := mem_filterMap_sel pEnum' (cEnum ▸ flatMap_mem hsm (by simp [pEnum]))
      have hg := List.getElem?_eq_getElem hi
      obtain ⟨ds, h1, h2⟩ := emits_printEnum en hs (hh.enums _ (List.getElem_mem hi)) (path ++ [4, (i : Int)]) ind
      refine ⟨_, ⟨_, ds, hg, rfl, h1⟩, ?_⟩
      unfold runStep
      simp only [hg]
      exact h2.toks (by simp [Decl.toksAll])
    | extRanges is =>
      have hlt : ∀ i ∈ is, i < h.extRanges.length := fun i hi => mem_filterMap_sel pExtR' (cExtR ▸ flatMap_mem hsm hi)
      obtain ⟨i0, more, e0, hsame⟩ := steps_same ks.length [] [] ks (Nat.le_refl _) is (hss ▸ hsm)
      have hlast : is.getLastD 0 ∈ is := by
        rw [e0, List.getLastD_cons, List.getLastD_eq_getLast?]
        cases hl : more.getLast? with
        | none => exact List.mem_cons_self
        | some x => exact List.mem_cons_of_mem _ (List.mem_of_getLast? hl)
      have hopts : ∀ i ∈ is, ∀ x, h.extRanges[i]? = some x → ∀ y, h.extRanges[i0]? = some y → x.2 = y.2 := by
        intro i hi x hx y hy
        rw [e0] at hi
        rcases List.mem_cons.1 hi with rfl | hi
        · rw [hx] at hy; cases hy; rfl
        · exact (hh.same i0 i y x hy hx (hsame i hi)).symm
      have hg0 := List.getElem?_eq_getElem (hlt i0 (e0 ▸ List.mem_cons_self))
      have hgl := List.getElem?_eq_getElem (hlt _ hlast)
      obtain ⟨rs, sts, h1, h2, h3⟩ := emits_printExtensionRanges en hs h.messageSet
        (is.map fun (i : Nat) => (((h.extRanges[i]?).map Prod.fst).getD ⟨0, 0⟩, path ++ [5, (i : Int)])) (by
          intro r hr
          obtain ⟨i, hi, rfl⟩ := List.mem_map.1 hr
          rw [List.getElem?_eq_getElem (hlt i hi)]
          exact (hh.extRanges _ (List.getElem_mem (hlt i hi))).1)
        (os := ((h.extRanges[is.getLastD 0]?).map Prod.snd).getD []) (by
          rw [hgl]
          exact (hh.extRanges _ (List.getElem_mem _)).2) (path ++ [5, (is.getLastD 0 : Int)]) ind
      refine ⟨_, ⟨rs, sts, rfl, ?_⟩, h3.toks (by simp [Decl.toksAll])⟩
      rw [List.map_map] at h1
      refine forall2_imp_mem (List.forall₂_map_left_iff.1 h1) (fun i hi r hr x hx => ⟨?_, ?_⟩)
      · simpa [hx] using hr
      · rw [hgl] at h2
        have e1 := hopts _ hlast _ hgl _ hg0
        have e2 := hopts i hi x hx _ hg0
        rw [e2, ← e1]
        exact h2
    | ranges is =>
      have hlt : ∀ i ∈ is, i < h.resRanges.length := fun i hi => mem_filterMap_sel pResR' (cResR ▸ flatMap_mem hsm hi)
      obtain ⟨rs, h1, h2⟩ := emits_reservedRanges en (R := RangeMeans h.messageSet) (Ranges.getMaxTag h.messageSet)
        (is.map fun i => (h.resRanges.getD i ⟨0, 0⟩, path ++ [9, (i : Int)])) (by
          intro r hr
          obtain ⟨i, hi, rfl⟩ := List.mem_map.1 hr
          obtain ⟨d, h1, _, h3⟩ := txt_range h.messageSet (hh.resRanges (h.resRanges.getD i ⟨0, 0⟩) (by
            simp [List.getD_eq_getElem?_getD, hlt i hi]))
          exact ⟨d, h1, h3⟩) ind
      refine ⟨_, ⟨rs, rfl, ?_⟩, h2.toks (by simp [Decl.toksAll])⟩
      rw [List.map_map] at h1
      refine forall2_imp_mem (List.forall₂_map_left_iff.1 h1) (fun i hi r hr x hx => ?_)
      simpa [List.getD_eq_getElem?_getD, hx] using hr
    | names is =>
      have hlt : ∀ i ∈ is, i < h.resNames.length := fun i hi => mem_filterMap_sel pResN' (cResN ▸ flatMap_mem hsm hi)
      obtain ⟨rs, h1, h2⟩ := emits_reservedNames en
        (is.map fun i => (h.resNames.getD i [], path ++ [10, (i : Int)])) (by
          intro r hr
          obtain ⟨i, hi, rfl⟩ := List.mem_map.1 hr
          exact hh.resNames _ (by simp [List.getD_eq_getElem?_getD, hlt i hi])) ind
      refine ⟨_, ⟨rs, rfl, ?_⟩, h2.toks (by simp [Decl.toksAll])⟩
      rw [List.map_map] at h1
      refine forall2_imp_mem (List.forall₂_map_left_iff.1 h1) (fun i hi r hr x hx => ?_)
      simpa [List.getD_eq_getElem?_getD, hx] using hr
    | _ => exact ⟨[], rfl, Emits.id .idle⟩
  obtain ⟨dss, h1, h2⟩ := emits_runSteps ss hst
  refine ⟨dss.flatten, ?_, ?_⟩
  · constructor
    case opts =>
      refine opts_of_keys hh.opts hp (msgKeys_opt h _) ?_
      rw [← cOpt, List.flatMap_assoc]
      refine forall2_sel (fun s ds hr => ?_) h1
      cases s with
      | opt t =>
        obtain ⟨os, rfl, ho⟩ := hr
        rw [optionDecls_option]; simpa [pOpt] using ho
      | field i =>
        obtain ⟨f, d, hf0, rfl, hf⟩ := hr
        rcases hf.shape with ⟨_, _, _, _, _, rfl⟩ | ⟨_, _, _, _, _, rfl⟩ <;> exact .nil
      | oneof j is =>
        obtain ⟨o, b, ho0, rfl, ho⟩ := hr
        exact .nil
      | exts is =>
        obtain ⟨r, b, rfl, hb⟩ := hr
        exact .nil
      | msg i =>
        obtain ⟨m, b, hm0, rfl, hm⟩ := hr
        exact .nil
      | enum i =>
        obtain ⟨e, b, he0, rfl, he⟩ := hr
        exact .nil
      | extRanges is =>
        obtain ⟨rs, ss, rfl, hr⟩ := hr
        exact .nil
      | ranges is =>
        obtain ⟨rs, rfl, hr⟩ := hr
        exact .nil
      | names is =>
        obtain ⟨rs, rfl, hr⟩ := hr
        exact .nil
      | _ => have : ds = [] := hr; subst this; exact .nil
    case fields =>
      refine Matches.of_idx (P := fun i d => ∃ f, h.fields[i]? = some f ∧ f.Means pk sc ms false d) (is := ks.filterMap (selField h))
        (get := fun i => h.fields[i]?) ?_ ?_ ?_
      rotate_left
      · intro i hi
        have hi' : i < h.fields.length := by
          obtain ⟨j, hj, e⟩ := List.mem_filterMap.1 (pField'.subset hi)
          split at e
          · cases e; exact List.mem_range.1 hj
          · cases e
        have hg := List.getElem?_eq_getElem hi'
        exact ⟨_, hg, fun y ⟨f, hf, hm⟩ => by rw [hg] at hf; cases hf; exact hm⟩
      · exact (pField'.filterMap _).trans (List.Perm.of_eq (plainFields_eq hh.oneof))
      rw [← cField]
      refine forall2_sel (fun s ds hr => ?_) h1
      cases s with
      | opt t =>
        obtain ⟨os, rfl, ho⟩ := hr
        rw [optionDecls_none (fun _ => rfl)]; exact .nil
      | field i =>
        obtain ⟨f, d, hf0, rfl, hf⟩ := hr
        rcases hf.shape with ⟨_, _, _, _, _, rfl⟩ | ⟨_, _, _, _, _, rfl⟩ <;> exact .cons ⟨f, hf0, hf⟩ .nil
      | oneof j is =>
        obtain ⟨o, b, ho0, rfl, ho⟩ := hr
        exact .nil
      | exts is =>
        obtain ⟨r, b, rfl, hb⟩ := hr
        exact .nil
      | msg i =>
        obtain ⟨m, b, hm0, rfl, hm⟩ := hr
        exact .nil
      | enum i =>
        obtain ⟨e, b, he0, rfl, he⟩ := hr
        exact .nil
      | extRanges is =>
        obtain ⟨rs, ss, rfl, hr⟩ := hr
        exact .nil
      | ranges is =>
        obtain ⟨rs, rfl, hr⟩ := hr
        exact .nil
      | names is =>
        obtain ⟨rs, rfl, hr⟩ := hr
        exact .nil
      | _ => have : ds = [] := hr; subst this; exact .nil
    case oneofs =>
      refine Matches.of_idx (P := fun (g : Nat × List Nat) (d : Str × List Decl) => ∃ o, h.oneofs[g.1]? = some o ∧ o.synthetic = false ∧
          Oneof.Means pk sc ms h (g.1, o) d)
        (is := groups (realOneof h) (oneofMem h) [] (ks.filterMap isField))
        (get := fun g => h.oneofs[g.1]?.bind (fun o => if o.synthetic then none else some (g.1, o))) ?_ ?_ (realOneofs_perm hh pFld)
      rotate_left
      · intro g hg
        obtain ⟨_, i, _, hi⟩ := (groups_fst [] _).2 _ hg
        obtain ⟨f, hf, ho, hsyn⟩ := realOneof_some hi
        have hlt := hh.oneof f (List.mem_of_getElem? hf) _ ho
        have hgo := List.getElem?_eq_getElem hlt
        refine ⟨(g.1, h.oneofs[g.1]), ?_, ?_⟩
        · rw [hgo] at hsyn ⊢
          have : (h.oneofs[g.1]).synthetic = false := by simpa using hsyn
          simp [this]
        · rintro y ⟨o, ho, _, hm⟩
          rw [hgo] at ho
          cases ho
          exact hm
      have key : List.Forall₂ (fun (g : Nat × List Nat) (d : Str × List Decl) => ∃ o, h.oneofs[g.1]? = some o ∧ Oneof.Means pk sc ms h (g.1, o) d)
          (ss.flatMap oneofOf) (dss.flatten.flatMap asOneof) := by
        refine forall2_sel (fun s ds hr => ?_) h1
        cases s with
        | opt t =>
          obtain ⟨os, rfl, ho⟩ := hr
          rw [optionDecls_none (fun _ => rfl)]; exact .nil
        | field i =>
          obtain ⟨f, d, hf0, rfl, hf⟩ := hr
          rcases hf.shape with ⟨_, _, _, _, _, rfl⟩ | ⟨_, _, _, _, _, rfl⟩ <;> exact .nil
        | oneof j is =>
          obtain ⟨o, b, ho0, rfl, ho⟩ := hr
          exact .cons ⟨o, ho0, rfl, ho⟩ .nil
        | exts is =>
          obtain ⟨r, b, rfl, hb⟩ := hr
          exact .nil
        | msg i =>
          obtain ⟨m, b, hm0, rfl, hm⟩ := hr
          exact .nil
        | enum i =>
          obtain ⟨e, b, he0, rfl, he⟩ := hr
          exact .nil
        | extRanges is =>
          obtain ⟨rs, ss, rfl, hr⟩ := hr
          exact .nil
        | ranges is =>
          obtain ⟨rs, rfl, hr⟩ := hr
          exact .nil
        | names is =>
          obtain ⟨rs, rfl, hr⟩ := hr
          exact .nil
        | _ => have : ds = [] := hr; subst this; exact .nil
      rw [cOne] at key
      refine forall2_imp_mem key (fun g hg d hd => ?_)
      obtain ⟨o, ho0, hm⟩ := hd
      obtain ⟨_, i, _, hi⟩ := (groups_fst [] _).2 _ hg
      obtain ⟨f, hf, ho, hsyn⟩ := realOneof_some hi
      refine ⟨o, ho0, ?_, hm⟩
      rw [ho0] at hsyn
      simpa using hsyn
    case msgs =>
      refine Matches.of_idx (P := fun i (d : Str × List Decl) => ∃ m, ms[i]? = some m ∧ KidMeans.Means m d) (is := ks.filterMap (selMsg (hidden h.fields h.exts)))
        (get := fun i => ms[i]?) ?_ ?_ ?_
      rotate_left
      · intro i hi
        have hi' : i < ms.length := by
          obtain ⟨j, hj, e⟩ := List.mem_filterMap.1 (pMsg'.subset hi)
          split at e
          · cases e
          · cases e; rw [← hlenms]; exact List.mem_range.1 hj
        have hg := List.getElem?_eq_getElem hi'
        exact ⟨_, hg, fun y ⟨f, hf, hm⟩ => by rw [hg] at hf; cases hf; exact hm⟩
      · rw [hlenms] at pMsg'
        exact (pMsg'.filterMap _).trans (List.Perm.of_eq (visible_eq h.fields h.exts ms))
      rw [← cMsg]
      refine forall2_sel (fun s ds hr => ?_) h1
      cases s with
      | opt t =>
        obtain ⟨os, rfl, ho⟩ := hr
        rw [optionDecls_none (fun _ => rfl)]; exact .nil
      | field i =>
        obtain ⟨f, d, hf0, rfl, hf⟩ := hr
        rcases hf.shape with ⟨_, _, _, _, _, rfl⟩ | ⟨_, _, _, _, _, rfl⟩ <;> exact .nil
      | oneof j is =>
        obtain ⟨o, b, ho0, rfl, ho⟩ := hr
        exact .nil
      | exts is =>
        obtain ⟨r, b, rfl, hb⟩ := hr
        exact .nil
      | msg i =>
        obtain ⟨m, b, hm0, rfl, hm⟩ := hr
        exact .cons ⟨m, hm0, rfl, hm⟩ .nil
      | enum i =>
        obtain ⟨e, b, he0, rfl, he⟩ := hr
        exact .nil
      | extRanges is =>
        obtain ⟨rs, ss, rfl, hr⟩ := hr
        exact .nil
      | ranges is =>
        obtain ⟨rs, rfl, hr⟩ := hr
        exact .nil
      | names is =>
        obtain ⟨rs, rfl, hr⟩ := hr
        exact .nil
      | _ => have : ds = [] := hr; subst this; exact .nil
    case enums =>
      refine Matches.of_range (is := ks.filterMap isEnumK) ?_ pEnum'
      rw [← cEnum]
      refine forall2_sel (fun s ds hr => ?_) h1
      cases s with
      | opt t =>
        obtain ⟨os, rfl, ho⟩ := hr
        rw [optionDecls_none (fun _ => rfl)]; exact .nil
      | field i =>
        obtain ⟨f, d, hf0, rfl, hf⟩ := hr
        rcases hf.shape with ⟨_, _, _, _, _, rfl⟩ | ⟨_, _, _, _, _, rfl⟩ <;> exact .nil
      | oneof j is =>
        obtain ⟨o, b, ho0, rfl, ho⟩ := hr
        exact .nil
      | exts is =>
        obtain ⟨r, b, rfl, hb⟩ := hr
        exact .nil
      | msg i =>
        obtain ⟨m, b, hm0, rfl, hm⟩ := hr
        exact .nil
      | enum i =>
        obtain ⟨e, b, he0, rfl, he⟩ := hr
        exact .cons (fun x hx => by rw [he0] at hx; cases hx; exact ⟨rfl, he⟩) .nil
      | extRanges is =>
        obtain ⟨rs, ss, rfl, hr⟩ := hr
        exact .nil
      | ranges is =>
        obtain ⟨rs, rfl, hr⟩ := hr
        exact .nil
      | names is =>
        obtain ⟨rs, rfl, hr⟩ := hr
        exact .nil
      | _ => have : ds = [] := hr; subst this; exact .nil
    case exts =>
      refine Matches.of_range (is := (ss.flatMap extsOf).flatten) ?_ (xg1.trans pExt')
      rw [← pExts_eq]
      refine forall2_sel (fun s ds hr => ?_) h1
      cases s with
      | opt t =>
        obtain ⟨os, rfl, ho⟩ := hr
        rw [optionDecls_none (fun _ => rfl)]; exact .nil
      | field i =>
        obtain ⟨f, d, hf0, rfl, hf⟩ := hr
        rcases hf.shape with ⟨_, _, _, _, _, rfl⟩ | ⟨_, _, _, _, _, rfl⟩ <;> exact .nil
      | oneof j is =>
        obtain ⟨o, b, ho0, rfl, ho⟩ := hr
        exact .nil
      | exts is =>
        obtain ⟨r, b, rfl, hb⟩ := hr
        show List.Forall₂ _ is ([Decl.extend r b].flatMap asExtend)
        simp only [List.flatMap_cons, List.flatMap_nil, List.append_nil, asExtend]
        refine List.forall₂_map_right_iff.2 (List.Forall₂.imp ?_ hb)
        rintro i d ⟨x, hx, hm⟩ y hy
        rw [hx] at hy; cases hy; exact hm
      | msg i =>
        obtain ⟨m, b, hm0, rfl, hm⟩ := hr
        exact .nil
      | enum i =>
        obtain ⟨e, b, he0, rfl, he⟩ := hr
        exact .nil
      | extRanges is =>
        obtain ⟨rs, ss, rfl, hr⟩ := hr
        exact .nil
      | ranges is =>
        obtain ⟨rs, rfl, hr⟩ := hr
        exact .nil
      | names is =>
        obtain ⟨rs, rfl, hr⟩ := hr
        exact .nil
      | _ => have : ds = [] := hr; subst this; exact .nil
    case extRanges =>
      refine Matches.of_range (is := ks.filterMap isExtR) ?_ pExtR'
      rw [← cExtR]
      refine forall2_sel (fun s ds hr => ?_) h1
      cases s with
      | opt t =>
        obtain ⟨os, rfl, ho⟩ := hr
        rw [optionDecls_none (fun _ => rfl)]; exact .nil
      | field i =>
        obtain ⟨f, d, hf0, rfl, hf⟩ := hr
        rcases hf.shape with ⟨_, _, _, _, _, rfl⟩ | ⟨_, _, _, _, _, rfl⟩ <;> exact .nil
      | oneof j is =>
        obtain ⟨o, b, ho0, rfl, ho⟩ := hr
        exact .nil
      | exts is =>
        obtain ⟨r, b, rfl, hb⟩ := hr
        exact .nil
      | msg i =>
        obtain ⟨m, b, hm0, rfl, hm⟩ := hr
        exact .nil
      | enum i =>
        obtain ⟨e, b, he0, rfl, he⟩ := hr
        exact .nil
      | extRanges is =>
        obtain ⟨rs, ss, rfl, hr⟩ := hr
        show List.Forall₂ _ is ([Decl.extensions rs ss].flatMap asExtension)
        simp only [List.flatMap_cons, List.flatMap_nil, List.append_nil, asExtension]
        exact List.forall₂_map_right_iff.2 hr
      | ranges is =>
        obtain ⟨rs, rfl, hr⟩ := hr
        exact .nil
      | names is =>
        obtain ⟨rs, rfl, hr⟩ := hr
        exact .nil
      | _ => have : ds = [] := hr; subst this; exact .nil
    case resRanges =>
      refine Matches.of_range (is := ks.filterMap isResR) ?_ pResR'
      rw [← cResR]
      refine forall2_sel (fun s ds hr => ?_) h1
      cases s with
      | opt t =>
        obtain ⟨os, rfl, ho⟩ := hr
        rw [optionDecls_none (fun _ => rfl)]; exact .nil
      | field i =>
        obtain ⟨f, d, hf0, rfl, hf⟩ := hr
        rcases hf.shape with ⟨_, _, _, _, _, rfl⟩ | ⟨_, _, _, _, _, rfl⟩ <;> exact .nil
      | oneof j is =>
        obtain ⟨o, b, ho0, rfl, ho⟩ := hr
        exact .nil
      | exts is =>
        obtain ⟨r, b, rfl, hb⟩ := hr
        exact .nil
      | msg i =>
        obtain ⟨m, b, hm0, rfl, hm⟩ := hr
        exact .nil
      | enum i =>
        obtain ⟨e, b, he0, rfl, he⟩ := hr
        exact .nil
      | extRanges is =>
        obtain ⟨rs, ss, rfl, hr⟩ := hr
        exact .nil
      | ranges is =>
        obtain ⟨rs, rfl, hr⟩ := hr
        show List.Forall₂ _ is ([Decl.reservedRanges rs].flatMap asReserved)
        simpa [asReserved] using hr
      | names is =>
        obtain ⟨rs, rfl, hr⟩ := hr
        exact .nil
      | _ => have : ds = [] := hr; subst this; exact .nil
    case resNames =>
      refine Matches.of_range (is := ks.filterMap isResN) ?_ pResN'
      rw [← cResN]
      refine forall2_sel (fun s ds hr => ?_) h1
      cases s with
      | opt t =>
        obtain ⟨os, rfl, ho⟩ := hr
        rw [optionDecls_none (fun _ => rfl)]; exact .nil
      | field i =>
        obtain ⟨f, d, hf0, rfl, hf⟩ := hr
        rcases hf.shape with ⟨_, _, _, _, _, rfl⟩ | ⟨_, _, _, _, _, rfl⟩ <;> exact .nil
      | oneof j is =>
        obtain ⟨o, b, ho0, rfl, ho⟩ := hr
        exact .nil
      | exts is =>
        obtain ⟨r, b, rfl, hb⟩ := hr
        exact .nil
      | msg i =>
        obtain ⟨m, b, hm0, rfl, hm⟩ := hr
        exact .nil
      | enum i =>
        obtain ⟨e, b, he0, rfl, he⟩ := hr
        exact .nil
      | extRanges is =>
        obtain ⟨rs, ss, rfl, hr⟩ := hr
        exact .nil
      | ranges is =>
        obtain ⟨rs, rfl, hr⟩ := hr
        exact .nil
      | names is =>
        obtain ⟨rs, rfl, hr⟩ := hr
        show List.Forall₂ _ is ([Decl.reservedNames rs].flatMap asReservedName)
        simpa [asReservedName] using hr
      | _ => have : ds = [] := hr; subst this; exact .nil
    case only =>
      refine forall2_all_mem h1 (fun s hsm ds hr => ?_)
      have hful : s.full = true := steps_full ks 0 [] [] s (hss ▸ hsm)
      cases s with
      | opt t =>
        obtain ⟨os, rfl, ho⟩ := hr
        exact optionDecls_all (fun _ => rfl) os
      | field i =>
        obtain ⟨f, d, hf0, rfl, hf⟩ := hr
        rcases hf.shape with ⟨_, _, _, _, _, rfl⟩ | ⟨_, _, _, _, _, rfl⟩ <;> simp [Decl.inMessage]
      | oneof j is =>
        obtain ⟨o, b, ho0, rfl, ho⟩ := hr
        simp [Decl.inMessage]
      | exts is =>
        obtain ⟨r, b, rfl, hb⟩ := hr
        simpa [Decl.inMessage] using forall2_ne hb (xg2 is (flatMap_mem hsm (by simp [extsOf]))).1
      | msg i =>
        obtain ⟨m, b, hm0, rfl, hm⟩ := hr
        simp [Decl.inMessage]
      | enum i =>
        obtain ⟨e, b, he0, rfl, he⟩ := hr
        simp [Decl.inMessage]
      | extRanges is =>
        obtain ⟨rs, ss, rfl, hr⟩ := hr
        simpa [Decl.inMessage] using forall2_ne hr (by simpa [Step.full] using hful)
      | ranges is =>
        obtain ⟨rs, rfl, hr⟩ := hr
        simpa [Decl.inMessage] using forall2_ne hr (by simpa [Step.full] using hful)
      | names is =>
        obtain ⟨rs, rfl, hr⟩ := hr
        simpa [Decl.inMessage] using forall2_ne hr (by simpa [Step.full] using hful)
      | _ => have : ds = [] := hr; subst this; simp
  · unfold printMessageBody
    rw [hnp, hks, hss]
    exact h2 _ _

/-! ### All messages -/

mutual
theorem kid_ok (en : Env c si) {pk : QName} : ∀ (m : Msg) {sc : QName}, ScOk pk sc → m.Ok → KidOk (m.kid c si pk sc) (m.means pk sc)
  | .mk h ms, sc, hs, hm => by
    rw [Msg.Ok] at hm
    have hsc := hs.snoc hm.1.name
    have hk := kids_ok en ms hsc hm.2
    rw [Msg.kid, Msg.means]
    have hl : (Msg.kids c si pk (sc ++ [h.name]) ms).length = ms.length := kids_length en ms
    exact ⟨rfl, hm.1.name, fun path ind hp => emits_printMessageBody en hsc hk (hl ▸ hm.1) path hp ind⟩
theorem kids_ok (en : Env c si) {pk : QName} : ∀ (ms : List Msg) {sc : QName}, ScOk pk sc → Msg.AllOk ms →
    List.Forall₂ KidOk (Msg.kids c si pk sc ms) (Msg.meanings pk sc ms)
  | [], sc, hs, hm => by rw [Msg.kids, Msg.meanings]; exact .nil
  | m :: ms, sc, hs, hm => by
    rw [Msg.AllOk] at hm
    rw [Msg.kids, Msg.meanings]
    exact .cons (kid_ok en m hs hm.1) (kids_ok en ms hs hm.2)
theorem kids_length (en : Env c si) {pk : QName} : ∀ (ms : List Msg) {sc : QName}, (Msg.kids c si pk sc ms).length = ms.length
  | [], sc => by rw [Msg.kids]; rfl
  | m :: ms, sc => by rw [Msg.kids, List.length_cons, List.length_cons, kids_length en ms]
end

end Verif.Printer
