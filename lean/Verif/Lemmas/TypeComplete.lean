import Verif.Spec.TypeComplete
import Verif.Lemmas.OptionComplete
import Verif.Lemmas.QuickFix
import Verif.Props.RelativeName
import Mathlib.Data.List.Forall2
/-!
# Lemmas about the completion of types
-/
namespace Verif.TypeComplete
open Verif.Documents (Pos)
open Verif.QuickFix (Edit posAfter sourcePosAfter Fits applyEdit editAddImport)
open Verif.ImportComplete (adjustColumn trimPrefix quoted)

theorem trimPrefix_append (p s : Str) : trimPrefix (p ++ s) p = s := by
  unfold trimPrefix
  rw [if_pos (by rw [List.isPrefixOf_iff_prefix]; exact List.prefix_append _ _)]
  simp

theorem trimPrefix_none (p s : Str) (h : ∀ rest, s ≠ p ++ rest) : trimPrefix s p = s := by
  unfold trimPrefix
  rw [if_neg]
  rw [List.isPrefixOf_iff_prefix]
  rintro ⟨t, rfl⟩
  exact h t rfl

/-- The label is the name that is to be shown. -/
theorem shows_label (doc : Doc) (typed : Str) (c : Cand) : Shows doc.pkg typed c.fullName (label doc typed c) := by
  unfold label labelPrefix trimmed
  by_cases hd : '.' ∈ typed
  · have hc : typed.contains '.' = true := by simpa using hd
    rw [if_pos hc]
    have ht : ∀ s, trimPrefix s [] = s := fun s => by simp [trimPrefix]
    rw [ht]
    match typed, hd with
    | x :: t, hd =>
      by_cases hx : x = '.'
      · subst hx
        simpa using Shows.absolute (pkg := doc.pkg) (full := c.fullName) t rfl
      · have : '.' ∈ t := by
          rcases List.mem_cons.1 hd with h | h
          · exact absurd h.symm hx
          · exact h
        obtain ⟨a, b, rfl⟩ := List.append_of_mem this
        have hp : (['.'].isPrefixOf (x :: (a ++ '.' :: b))) = false := by
          simp [List.isPrefixOf]
          exact fun h => hx h.symm
        rw [hp]
        simpa using Shows.qualified (pkg := doc.pkg) (full := c.fullName) a b x rfl hx
  · have hc : typed.contains '.' = false := by simpa using hd
    have hp : ['.'].isPrefixOf typed = false := by
      cases typed with
      | nil => rfl
      | cons x t =>
        simp [List.isPrefixOf]
        exact fun h => hd (by simp [← h])
    rw [hc, hp]
    simp only [Bool.false_eq_true, if_false, List.nil_append]
    by_cases hs : ∃ rest, c.fullName = doc.pkg ++ '.' :: rest
    · obtain ⟨rest, hs⟩ := hs
      have : c.fullName = (doc.pkg ++ ['.']) ++ rest := by simp [hs]
      rw [this, trimPrefix_append, ← this]
      exact Shows.short rest hd hs
    · have hs' : ∀ rest, c.fullName ≠ doc.pkg ++ '.' :: rest := fun rest h => hs ⟨rest, h⟩
      rw [trimPrefix_none _ _ (fun rest h => hs' rest (by simpa using h))]
      exact Shows.foreign hd hs'

/-- There is at most one name to be shown. -/
theorem shows_unique {pkg typed full a b : Str} (ha : Shows pkg typed full a) (hb : Shows pkg typed full b) : a = b := by
  cases ha with
  | absolute t h =>
    cases hb with
    | absolute => rfl
    | qualified t' u x h' hx => rw [h] at h'; simp at h'; exact absurd h'.1.symm hx
    | short _ h' => exact absurd (by simp [h]) h'
    | foreign h' => exact absurd (by simp [h]) h'
  | qualified t u x h hx =>
    cases hb with
    | absolute t' h' => rw [h] at h'; simp at h'; exact absurd h'.1 hx
    | qualified => rfl
    | short _ h' => exact absurd (by simp [h]) h'
    | foreign h' => rfl
  | short _ h e =>
    cases hb with
    | absolute t h' => exact absurd (by simp [h']) h
    | qualified t u x h' hx => exact absurd (by simp [h']) h
    | short _ h' e' => rw [e] at e'; simpa using e'
    | foreign h' e' => exact absurd e (e' _)
  | foreign h e =>
    cases hb with
    | absolute t h' => exact absurd (by simp [h']) h
    | qualified t u x h' hx => rfl
    | short _ h' e' => exact absurd e' (e _)
    | foreign => rfl

theorem item_of {doc : Doc} {typed sfx : Str} {pos : Pos} {c : Cand} {it : Item} (h : item doc typed sfx pos c = some it) :
    IsType c ∧ it.label = label doc typed c ∧ (it.kind = .enum ↔ c.kind = .enum) ∧
      it.detail = (maybeResolveImport doc c (label doc typed c) c.fullName).1 ∧
      it.edit = ⟨adjustColumn pos (-(typed.length : Int)), adjustColumn pos sfx.length, label doc typed c⟩ ∧
      it.more = (maybeResolveImport doc c (label doc typed c) c.fullName).2 := by
  unfold item at h
  cases hk : c.kind with
  | message m e => rw [hk] at h; cases h; exact ⟨.inr ⟨m, e, hk⟩, rfl, by simp, rfl, rfl, rfl⟩
  | enum => rw [hk] at h; cases h; exact ⟨.inl hk, rfl, by simp, rfl, rfl, rfl⟩
  | field => rw [hk] at h; cases h
  | other => rw [hk] at h; cases h

theorem item_isType {doc : Doc} {typed sfx : Str} {pos : Pos} {c : Cand} (h : IsType c) : ∃ it, item doc typed sfx pos c = some it := by
  unfold item
  rcases h with h | ⟨m, e, h⟩ <;> rw [h] <;> exact ⟨_, rfl⟩

theorem forall₂_filterMap {doc : Doc} {typed sfx : Str} {pos : Pos} (out : List Cand) :
    List.Forall₂ (fun c it => item doc typed sfx pos c = some it) (out.filter (fun c => decide (IsType c)))
      (out.filterMap (item doc typed sfx pos)) := by
  induction out with
  | nil => exact .nil
  | cons c t ih =>
    by_cases hc : IsType c
    · obtain ⟨it, hi⟩ := item_isType (doc := doc) (typed := typed) (sfx := sfx) (pos := pos) hc
      rw [List.filter_cons_of_pos (by simpa using hc), List.filterMap_cons_some hi]
      exact .cons hi ih
    · have hi : item doc typed sfx pos c = none := by
        cases h : item doc typed sfx pos c with
        | none => rfl
        | some it => exact absurd (item_of h).1 hc
      rw [List.filter_cons_of_neg (by simpa using hc), List.filterMap_cons_none hi]
      exact ih

/-- Where an item of the list comes from. -/
theorem mem_items {doc : Doc} {scope typed sfx : Str} {pos : Pos} {cands : List Cand} {items : List Item}
    (h : FromList doc scope typed sfx pos cands items) {it : Item} (hi : it ∈ items) : ∃ c ∈ cands, item doc typed sfx pos c = some it := by
  obtain ⟨out, ⟨hp, _⟩, rfl⟩ := h
  obtain ⟨c, hc, he⟩ := List.mem_filterMap.1 hi
  exact ⟨c, hp.mem_iff.1 hc, he⟩

theorem adds_unique {e : Edit} {p q : Str} (hp : AddsImport e p) (hq : AddsImport e q) : p = q := by
  unfold AddsImport at hp hq
  rw [hp] at hq
  simpa using hq

theorem more_of {doc : Doc} {w : World} {f : Str} (hres : Resolves doc w f) {typed sfx : Str} {pos : Pos} {c : Cand} {it : Item}
    (he : item doc typed sfx pos c = some it) :
    (w.Visible f c.fullName ∧ it.more = []) ∨ (¬ w.Visible f c.fullName ∧ it.more = [editAddImport doc.point c.path]) := by
  obtain ⟨_, _, _, _, _, h5⟩ := item_of he
  by_cases hv : w.Visible f c.fullName
  · refine .inl ⟨hv, ?_⟩
    rw [h5]; unfold maybeResolveImport
    rw [(hres _).2 hv]
    simp only [Bool.true_eq_false, if_false]
    split <;> rfl
  · refine .inr ⟨hv, ?_⟩
    rw [h5]; unfold maybeResolveImport
    rw [if_pos (by
      cases hb : doc.resolves c.fullName with
      | false => rfl
      | true => exact absurd ((hres _).1 hb) hv)]

theorem adds_edit (doc : Doc) (p : Str) : AddsImport (editAddImport doc.point p) p := rfl

theorem via_mono {w w' : World} (h : ∀ f g b, w.imports f g b → w'.imports f g b) {f g : Str} (hv : w.Via f g) : w'.Via f g := by
  induction hv with
  | direct hi => exact .direct (h _ _ _ hi)
  | pub _ hi ih => exact .pub ih (h _ _ _ hi)

/-- If a name begins with another one and a dot, its components begin with the components of the other one. -/
theorem dotted_prefix (L : Str) : ∀ (pkg target : List Str), Wf pkg → Wf target → pkg ≠ [] → dotted target = dotted pkg ++ '.' :: L →
    ∃ nm, target = pkg ++ nm ∧ L = dotted nm ∧ nm ≠ [] := by
  intro pkg
  induction pkg with
  | nil => intro _ _ _ k; exact absurd rfl k
  | cons p ps ih =>
    intro target hw hwt _ hx
    match target with
    | [] => simp [dotted, joinWith] at hx
    | q :: qs =>
      have hp := (hw p (by simp)).2
      have hq := (hwt q (by simp)).2
      obtain ⟨y, ey, ty, ny⟩ := Completion.tail_of q qs
      obtain ⟨z, ez, tz, nz⟩ := Completion.tail_of p ps
      rw [ey, ez] at hx
      have hz : ∃ z', z ++ '.' :: L = '.' :: z' := by
        rcases tz with rfl | ⟨z', rfl⟩
        · exact ⟨_, rfl⟩
        · exact ⟨_, rfl⟩
      obtain ⟨z', hz'⟩ := hz
      rw [List.append_assoc, hz'] at hx
      have hy : ∃ y', y = '.' :: y' := by
        rcases ty with rfl | k
        · exfalso
          rw [List.append_nil] at hx
          exact hq (by rw [hx]; simp)
        · exact k
      obtain ⟨y', rfl⟩ := hy
      have hsplit : ∀ (a b u v : Str), '.' ∉ a → '.' ∉ b → a ++ '.' :: u = b ++ '.' :: v → a = b ∧ u = v := by
        intro a
        induction a with
        | nil =>
          intro b u v _ hb k
          cases b with
          | nil => simpa using k
          | cons d t => simp at k; exact absurd (by simp [← k.1]) hb
        | cons d t ih =>
          intro b u v ha hb k
          cases b with
          | nil => simp at k; exact absurd (by simp [k.1]) ha
          | cons d' t' =>
            simp only [List.cons_append, List.cons.injEq] at k
            simp only [List.mem_cons, not_or] at ha hb
            obtain ⟨k1, k2⟩ := ih t' u v ha.2 hb.2 k.2
            exact ⟨by rw [k.1, k1], k2⟩
      obtain ⟨e1, e2⟩ := hsplit q p y' z' hq hp hx
      subst e1
      have hqs : qs ≠ [] := fun k => by rw [ny.2 k] at *; cases ty <;> simp_all
      have hyq : y' = dotted qs := by
        obtain ⟨a, as, rfl⟩ := List.exists_cons_of_ne_nil hqs
        rw [show dotted (q :: a :: as) = q ++ '.' :: dotted (a :: as) by simp [dotted, joinWith_cons]] at ey
        simpa using ey.symm
      by_cases hps : ps = []
      · subst hps
        have : z = [] := nz.2 rfl
        subst this
        simp only [List.nil_append, List.cons.injEq, true_and] at hz'
        exact ⟨qs, by simp, by rw [hz', ← e2, hyq], hqs⟩
      · obtain ⟨b, bs, rfl⟩ := List.exists_cons_of_ne_nil hps
        rw [show dotted (q :: b :: bs) = q ++ '.' :: dotted (b :: bs) by simp [dotted, joinWith_cons]] at ez
        have ez' : z = '.' :: dotted (b :: bs) := by simpa using ez.symm
        rw [ez'] at hz'
        simp only [List.cons_append, List.cons.injEq, true_and] at hz'
        obtain ⟨nm, k1, k2, k3⟩ := ih qs (fun x hx => hw x (by simp [hx])) (fun x hx => hwt x (by simp [hx])) (by simp)
          (by rw [← hyq, e2, ← hz'])
        exact ⟨nm, by rw [k1]; simp, k2, k3⟩

end Verif.TypeComplete
