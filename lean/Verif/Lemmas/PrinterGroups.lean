import Verif.Lemmas.PrinterSteps
import Mathlib.Data.List.Nodup
import Mathlib.Data.List.Induction
/-! The oneofs and blocks of extensions of a message: each is printed once, with all its fields. -/
namespace Verif.Printer
open Verif.Lexer Verif.PrintWriter Verif.Decls Verif.Literal

section Groups
variable {κ : Type*} [DecidableEq κ] {cls : Nat → Option κ} {mem : Nat → List Nat → List Nat}

theorem groups_fst (seen : List κ) (is : List Nat) :
    ((groups cls mem seen is).map Prod.fst).Nodup ∧ ∀ g ∈ groups cls mem seen is, g.1 ∉ seen ∧ ∃ i ∈ is, cls i = some g.1 := by
  induction is generalizing seen with
  | nil => exact ⟨List.nodup_nil, fun g hg => by cases hg⟩
  | cons i is ih =>
    rw [groups]
    cases hc : cls i with
    | none =>
      obtain ⟨h1, h2⟩ := ih seen
      refine ⟨h1, fun g hg => ?_⟩
      obtain ⟨h3, k, hk, h4⟩ := h2 g hg
      exact ⟨h3, k, List.mem_cons_of_mem _ hk, h4⟩
    | some a =>
      simp only
      split
      · obtain ⟨h1, h2⟩ := ih seen
        refine ⟨h1, fun g hg => ?_⟩
        obtain ⟨h3, k, hk, h4⟩ := h2 g hg
        exact ⟨h3, k, List.mem_cons_of_mem _ hk, h4⟩
      · rename_i ha
        obtain ⟨h1, h2⟩ := ih (a :: seen)
        refine ⟨?_, ?_⟩
        · rw [List.map_cons, List.nodup_cons]
          refine ⟨fun hm => ?_, h1⟩
          obtain ⟨g, hg, e⟩ := List.mem_map.1 hm
          exact (h2 g hg).1 (e ▸ List.mem_cons_self)
        · intro g hg
          rcases List.mem_cons.1 hg with rfl | hg
          · exact ⟨ha, i, List.mem_cons_self, hc⟩
          · obtain ⟨h3, k, hk, h4⟩ := h2 g hg
            exact ⟨fun h => h3 (List.mem_cons_of_mem _ h), k, List.mem_cons_of_mem _ hk, h4⟩

theorem groups_all (seen : List κ) (is : List Nat) {i : Nat} (hi : i ∈ is) {a : κ} (ha : cls i = some a) (hn : a ∉ seen) :
    ∃ g ∈ groups cls mem seen is, g.1 = a := by
  induction is generalizing seen with
  | nil => cases hi
  | cons k is ih =>
    rw [groups]
    rcases List.mem_cons.1 hi with rfl | hi
    · rw [ha]
      simp only [hn, if_false]
      exact ⟨_, List.mem_cons_self, rfl⟩
    · cases hc : cls k with
      | none => exact ih seen hi hn
      | some b =>
        simp only
        split
        · exact ih seen hi hn
        · by_cases hab : a = b
          · exact ⟨_, List.mem_cons_self, hab.symm⟩
          · obtain ⟨g, hg, e⟩ := ih (b :: seen) hi (by simp [hab, hn])
            exact ⟨g, List.mem_cons_of_mem _ hg, e⟩

theorem groups_members {p : κ → Nat → Bool} (hp1 : ∀ i a, cls i = some a → p a i = true)
    (hp2 : ∀ i i' a, cls i' = some a → p a i = true → cls i = some a) (seen : List κ) (is : List Nat)
    (hm : ∀ i l, l <:+ is → ∀ a, cls i = some a → mem i l = l.filter (p a)) :
    ∀ g ∈ groups cls mem seen is, g.2 = is.filter (p g.1) := by
  induction is generalizing seen with
  | nil => intro g hg; cases hg
  | cons i is ih =>
    intro g hg
    have hm' : ∀ i l, l <:+ is → ∀ a, cls i = some a → mem i l = l.filter (p a) :=
      fun j l hl => hm j l (hl.trans (List.suffix_cons _ _))
    have skip : ∀ seen' : List κ, g ∈ groups cls mem seen' is → (∀ b, cls i = some b → b ∈ seen') → g.2 = (i :: is).filter (p g.1) := by
      intro seen' hg' hb
      rw [ih seen' hm' g hg', List.filter_cons]
      have hfalse : p g.1 i = false := by
        by_contra hne
        have hpt : p g.1 i = true := by simpa using hne
        obtain ⟨h3, k, _, h4⟩ := (groups_fst seen' is).2 g hg'
        exact h3 (hb _ (hp2 i k g.1 h4 hpt))
      simp [hfalse]
    rw [groups] at hg
    cases hc : cls i with
    | none => rw [hc] at hg; exact skip seen hg (fun b hb => by rw [hc] at hb; cases hb)
    | some a =>
      rw [hc] at hg
      simp only at hg
      split at hg
      · rename_i ha
        exact skip seen hg (fun b hb => by rw [hc] at hb; cases hb; exact ha)
      · rcases List.mem_cons.1 hg with rfl | hg
        · exact hm i (i :: is) (List.suffix_refl _) a hc
        · exact skip (a :: seen) hg (fun b hb => by rw [hc] at hb; cases hb; exact List.mem_cons_self)

/-- The groups together are the list. -/
theorem groups_perm {p : κ → Nat → Bool} (hp1 : ∀ i a, cls i = some a → p a i = true)
    (hp2 : ∀ i i' a, cls i' = some a → p a i = true → cls i = some a) (is : List Nat) (hn : is.Nodup)
    (hm : ∀ i l, l <:+ is → ∀ a, cls i = some a → mem i l = l.filter (p a)) (hc : ∀ i ∈ is, ∃ a, cls i = some a) :
    ((groups cls mem [] is).map Prod.snd).flatten.Perm is := by
  have hmem := groups_members hp1 hp2 [] is hm
  obtain ⟨h1, h2⟩ := groups_fst (cls := cls) (mem := mem) [] is
  refine (List.perm_ext_iff_of_nodup ?_ hn).2 (fun i => ?_)
  · refine List.nodup_flatten.2 ⟨?_, ?_⟩
    · intro l hl
      obtain ⟨g, hg, rfl⟩ := List.mem_map.1 hl
      rw [hmem g hg]
      exact hn.filter _
    · rw [List.pairwise_map]
      have h1' : (groups cls mem [] is).Pairwise (fun x y => x.1 ≠ y.1) := List.pairwise_map.1 h1
      refine List.Pairwise.imp_of_mem ?_ h1'
      intro x y hx hy hxy
      rw [hmem x hx, hmem y hy]
      intro i hi1 hi2
      obtain ⟨_, k, _, hk⟩ := h2 x hx
      obtain ⟨_, k', _, hk'⟩ := h2 y hy
      have e1 := hp2 i k x.1 hk (List.mem_filter.1 hi1).2
      have e2 := hp2 i k' y.1 hk' (List.mem_filter.1 hi2).2
      rw [e1] at e2
      exact hxy (Option.some.inj e2)
  · constructor
    · intro hi
      obtain ⟨l, hl, hil⟩ := List.mem_flatten.1 hi
      obtain ⟨g, hg, rfl⟩ := List.mem_map.1 hl
      rw [hmem g hg] at hil
      exact (List.mem_filter.1 hil).1
    · intro hi
      obtain ⟨a, ha⟩ := hc i hi
      obtain ⟨g, hg, rfl⟩ := groups_all (mem := mem) [] is hi ha (by simp)
      refine List.mem_flatten.2 ⟨g.2, List.mem_map_of_mem hg, ?_⟩
      rw [hmem g hg]
      exact List.mem_filter.2 ⟨hi, hp1 i _ ha⟩

end Groups

theorem take_all {is js : List Nat} {n : Nat} (p : Nat → Bool) (hn : is.Nodup) (hsub : is ⊆ js) (hl : (js.filter p).length ≤ n) :
    (is.filter p).take n = is.filter p := by
  apply List.take_of_length_le
  have h1 : (is.filter p).Subperm (js.filter p) := List.subperm_of_subset (hn.filter _) (fun x hx => List.mem_filter.2 ⟨hsub (List.mem_filter.1 hx).1, (List.mem_filter.1 hx).2⟩)
  have := h1.length_le
  omega

theorem filterMap_length {α β : Type*} {f : α → Option β} {l : List α} (h : ∀ a ∈ l, ∃ b, f a = some b) : (l.filterMap f).length = l.length := by
  induction l with
  | nil => rfl
  | cons a l ih =>
    obtain ⟨b, hb⟩ := h a List.mem_cons_self
    rw [List.filterMap_cons_some hb, List.length_cons, List.length_cons, ih (fun x hx => h x (List.mem_cons_of_mem _ hx))]

/-- The elements of a list that satisfy something, by their places. -/
theorem filter_places {α : Type*} (xs : List α) (q : α → Bool) (p : Nat → Bool) (h : ∀ i x, xs[i]? = some x → p i = q x) :
    ((List.range xs.length).filter p).filterMap (fun i => xs[i]?) = xs.filter q := by
  conv => rhs; rw [← range_get xs]
  rw [List.filterMap_filter, List.filter_filterMap]
  refine List.filterMap_congr (fun i hi => ?_)
  have hg := List.getElem?_eq_getElem (List.mem_range.1 hi)
  rw [hg, h i _ hg]
  rfl

theorem filter_places_length {α : Type*} (xs : List α) (q : α → Bool) (p : Nat → Bool) (h : ∀ i x, xs[i]? = some x → p i = q x) :
    ((List.range xs.length).filter p).length = (xs.filter q).length := by
  rw [← filter_places xs q p h, filterMap_length]
  intro i hi
  exact ⟨_, List.getElem?_eq_getElem (List.mem_range.1 (List.mem_filter.1 hi).1)⟩

theorem zip_range {α : Type*} (xs : List α) :
    (List.range xs.length).zip xs = (List.range xs.length).filterMap (fun i => xs[i]?.map (fun x => (i, x))) := by
  induction xs using List.reverseRecOn with
  | nil => rfl
  | append_singleton xs x ih =>
    rw [List.length_append, List.length_singleton, List.range_succ, List.zip_append (by simp), ih, List.filterMap_append]
    congr 1
    · refine List.filterMap_congr (fun i hi => ?_)
      rw [List.getElem?_append_left (List.mem_range.1 hi)]
    · simp

variable {si : SI} {h : MHead} {path : Path}

/-- The oneofs. -/
theorem oneof_groups {is : List Nat} (hp : is.Perm (List.range h.fields.length)) :
    ∀ g ∈ groups (realOneof h) (oneofMem h) [] is,
      g.2.Perm ((List.range h.fields.length).filter (fun i => decide ((h.fields[i]?.bind Field.oneof) = some g.1))) := by
  intro g hg
  have hn : is.Nodup := hp.nodup_iff.2 List.nodup_range
  have := groups_members (p := fun j i => decide ((h.fields[i]?.bind Field.oneof) = some j)) (cls := realOneof h) (mem := oneofMem h)
    (fun i a ha => by simpa using realOneof_bind ha)
    (fun i i' a ha hpi => by
      have h1 := realOneof_bind ha
      have h2 : h.fields[i]?.bind Field.oneof = some a := by simpa using hpi
      unfold realOneof at ha ⊢
      cases hf : h.fields[i]? with
      | none => rw [hf] at h2; cases h2
      | some f =>
        cases hf' : h.fields[i']? with
        | none => rw [hf'] at h1; cases h1
        | some f' =>
          rw [hf] at h2
          rw [hf'] at h1 ha
          have e1 : f.oneof = some a := h2
          have e2 : f'.oneof = some a := h1
          simp only [e1]
          simp only [e2] at ha
          exact ha) [] is
    (fun i l hl a ha => by
      unfold oneofMem
      rw [realOneof_bind ha]
      refine take_all (js := List.range h.fields.length) _ (hn.sublist hl.sublist)
        (fun x hx => hp.subset (hl.subset hx)) (Nat.le_of_eq ?_)
      refine filter_places_length _ _ _ (fun k x hx => ?_)
      rw [hx, Option.bind_some]) g hg
  rw [this]
  exact hp.filter _

/-- The blocks of extensions. -/
theorem ext_groups {exts : List Ext} {p : Path} {is : List Nat} (hp : is.Perm (List.range exts.length)) :
    let gs := (groups (fun i => some (extClass si exts p i)) (extMem si exts p) [] is).map Prod.snd
    gs.flatten.Perm is ∧ ∀ m ∈ gs, m ≠ [] ∧ ∃ cls, ∀ i ∈ m, i < exts.length ∧ extClass si exts p i = cls := by
  have hn : is.Nodup := hp.nodup_iff.2 List.nodup_range
  have hp1 : ∀ i a, some (extClass si exts p i) = some a → decide (extClass si exts p i = a) = true := by
    intro i a ha; cases ha; simp
  have hp2 : ∀ i i' a, some (extClass si exts p i') = some a → decide (extClass si exts p i = a) = true → some (extClass si exts p i) = some a := by
    intro i i' a _ ha; simpa using ha
  have hm : ∀ i l, l <:+ is → ∀ a, some (extClass si exts p i) = some a → extMem si exts p i l = l.filter (fun j => decide (extClass si exts p j = a)) := by
    intro i l hl a ha
    cases ha
    exact take_all (js := List.range exts.length) _ (hn.sublist hl.sublist) (fun x hx => hp.subset (hl.subset hx)) (Nat.le_refl _)
  refine ⟨groups_perm hp1 hp2 is hn hm (fun i _ => ⟨_, rfl⟩), fun m hmm => ?_⟩
  obtain ⟨g, hg, rfl⟩ := List.mem_map.1 hmm
  have hg2 := groups_members hp1 hp2 [] is hm g hg
  obtain ⟨_, k, hk, e⟩ := (groups_fst [] is).2 g hg
  refine ⟨?_, g.1, fun i hi => ?_⟩
  · have : k ∈ g.2 := by rw [hg2]; exact List.mem_filter.2 ⟨hk, hp1 k _ e⟩
    exact List.ne_nil_of_mem this
  · rw [hg2] at hi
    obtain ⟨h1, h2⟩ := List.mem_filter.1 hi
    exact ⟨List.mem_range.1 (hp.subset h1), by simpa using h2⟩

/-- Extension ranges that are printed together. -/
theorem steps_same : ∀ (n : Nat) (so : List Nat) (se : List (Option (QName × Option Nat))) (ks : List Key), ks.length ≤ n →
    ∀ is, Step.extRanges is ∈ steps si h path 0 so se ks → ∃ i more, is = i :: more ∧ ∀ j ∈ more, h.sameOpts i j = true := by
  intro n
  induction n with
  | zero =>
    intro so se ks hn is hm
    have : ks = [] := List.length_eq_zero_iff.1 (by omega)
    subst this
    rw [steps] at hm; cases hm
  | succ n ih =>
    intro so se ks hn is hm
    match ks with
    | [] => rw [steps] at hm; cases hm
    | k :: ks =>
      have hn' : ks.length ≤ n := by simp at hn; omega
      cases k with
      | extR i =>
        obtain ⟨more, rest, e, hsame, e2⟩ := steps_extR (si := si) (h := h) (path := path) so se i ks
        have hr : rest.length ≤ n := by rw [e] at hn'; simp at hn'; omega
        rw [e2] at hm
        rcases List.mem_cons.1 hm with e3 | hm
        · cases e3; exact ⟨i, more, rfl, hsame⟩
        · exact ih _ _ _ hr _ hm
      | resR i =>
        obtain ⟨more, rest, e, e2⟩ := steps_resR (si := si) (h := h) (path := path) so se i ks
        have hr : rest.length ≤ n := by rw [e] at hn'; simp at hn'; omega
        rw [e2] at hm
        rcases List.mem_cons.1 hm with e3 | hm
        · cases e3
        · exact ih _ _ _ hr _ hm
      | resN i =>
        obtain ⟨more, rest, e, e2⟩ := steps_resN (si := si) (h := h) (path := path) so se i ks
        have hr : rest.length ≤ n := by rw [e] at hn'; simp at hn'; omega
        rw [e2] at hm
        rcases List.mem_cons.1 hm with e3 | hm
        · cases e3
        · exact ih _ _ _ hr _ hm
      | field i =>
        rw [steps] at hm
        cases hr : realOneof h i with
        | none =>
          rw [hr] at hm
          rcases List.mem_cons.1 hm with e3 | hm
          · cases e3
          · exact ih _ _ _ hn' _ hm
        | some j =>
          rw [hr] at hm
          simp only at hm
          split at hm
          · exact ih _ _ _ hn' _ hm
          · rcases List.mem_cons.1 hm with e3 | hm
            · cases e3
            · exact ih _ _ _ hn' _ hm
      | ext i =>
        rw [steps] at hm
        split at hm
        · exact ih _ _ _ hn' _ hm
        · rcases List.mem_cons.1 hm with e3 | hm
          · cases e3
          · exact ih _ _ _ hn' _ hm
      | msg i =>
        rw [steps] at hm
        split at hm
        · exact ih _ _ _ hn' _ hm
        · rcases List.mem_cons.1 hm with e3 | hm
          · cases e3
          · exact ih _ _ _ hn' _ hm
      | opt t =>
        rw [steps] at hm
        rcases List.mem_cons.1 hm with e3 | hm
        · cases e3
        · exact ih _ _ _ hn' _ hm
      | enum t =>
        rw [steps] at hm
        rcases List.mem_cons.1 hm with e3 | hm
        · cases e3
        · exact ih _ _ _ hn' _ hm
      | _ => exact ih so se ks hn' is hm

/-! ### The message-level source info does not crash -/

theorem isSpanWithin_some {p : Path} (hp : 2 ≤ p.length) (t i : Int) : (isSpanWithin (p ++ [t] ++ [i]) (p ++ [t])).isSome = true := by
  match p, hp with
  | [a, b], _ => simp [isSpanWithin]
  | a :: b :: d :: r, _ =>
    unfold isSpanWithin
    by_cases hlt : d < a
    · simp [hlt]
    · simp [hlt]

theorem findExtLoop_some {p : Path} {e : Path} (he : (isSpanWithin p e).isSome = true) (ls : List Loc) (hl : ∀ l ∈ ls, l.path = e) (i : Nat) :
    (findExtLoop p i ls).isSome = true := by
  induction ls generalizing i with
  | nil => rfl
  | cons l ls ih =>
    unfold findExtLoop
    rw [hl l List.mem_cons_self]
    cases hs : isSpanWithin p e with
    | none => rw [hs] at he; cases he
    | some b =>
      cases b
      · exact ih (fun x hx => hl x (List.mem_cons_of_mem _ hx)) _
      · rfl

theorem extsPanic_false {exts : List Ext} {p : Path} (hp : 2 ≤ p.length) (hl : ∀ l ∈ si (p ++ [6]), l.path = p ++ [6]) :
    extsPanic si exts (p ++ [6]) = false := by
  unfold extsPanic
  rw [List.any_eq_false]
  intro i hi
  have hi' := List.mem_range.1 hi
  unfold extClass
  rw [List.getElem?_eq_getElem hi']
  simp only [Option.isNone_map]
  unfold findExtSi
  split
  · simp
  · have := findExtLoop_some (isSpanWithin_some hp 6 (i : Int)) _ hl 0
    rw [Option.isSome_iff_ne_none] at this
    simpa using this

theorem extClass_extendee {exts : List Ext} {p : Path} {i : Nat} {cl : QName × Option Nat} (hc : extClass si exts p i = some cl) :
    ∃ x, exts[i]? = some x ∧ x.extendee = cl.1 := by
  unfold extClass at hc
  cases hx : exts[i]? with
  | none => rw [hx] at hc; cases hc
  | some x =>
    rw [hx] at hc
    simp only at hc
    cases hf : findExtSi si (p ++ [(i : Int)]) (si p) with
    | none => rw [hf] at hc; cases hc
    | some l => rw [hf] at hc; cases hc; exact ⟨x, rfl, rfl⟩

theorem extClass_some {exts : List Ext} {p : Path} (hnp : extsPanic si exts p = false) {i : Nat} (hi : i < exts.length) :
    ∃ cl, extClass si exts p i = some cl := by
  unfold extsPanic at hnp
  rw [List.any_eq_false] at hnp
  have := hnp i (List.mem_range.2 hi)
  cases hc : extClass si exts p i with
  | none => rw [hc] at this; simp at this
  | some cl => exact ⟨cl, rfl⟩

end Verif.Printer
