import Verif.Model.Compile
/-!
# Lemmas about the compile bookkeeping
-/
namespace Verif.Compile

open Verif.Assoc

/-- What `results` holds for a path. -/
def lk (es : List Entry) (p : Nat) : Option (Option Nat) := (es.find? fun e => decide (e.path = p)).map (·.res)

def paths (es : List Entry) : List Nat := es.map (·.path)

theorem lk_nil (p : Nat) : lk [] p = none := rfl

theorem lk_cons (e : Entry) (es : List Entry) (p : Nat) : lk (e :: es) p = if e.path = p then some e.res else lk es p := by
  unfold lk
  by_cases h : e.path = p
  · rw [List.find?_cons_of_pos (by simpa using h), if_pos h]; rfl
  · rw [List.find?_cons_of_neg (by simpa using h), if_neg h]

theorem lk_none {es : List Entry} {p : Nat} : lk es p = none ↔ p ∉ paths es := by
  induction es with
  | nil => simp [lk, paths]
  | cons e es ih =>
    rw [lk_cons]
    unfold paths at ih ⊢
    by_cases h : e.path = p
    · simp [h]
    · rw [if_neg h, ih, List.map_cons, List.mem_cons, not_or]
      exact ⟨fun h' => ⟨fun e' => h e'.symm, h'⟩, fun h' => h'.2⟩

theorem lk_of_mem {es : List Entry} (hn : (paths es).Nodup) {e : Entry} (he : e ∈ es) : lk es e.path = some e.res := by
  induction es with
  | nil => cases he
  | cons a es ih =>
    rw [lk_cons]
    unfold paths at hn
    rw [List.map_cons, List.nodup_cons] at hn
    rcases List.mem_cons.1 he with rfl | he
    · rw [if_pos rfl]
    · rw [if_neg, ih hn.2 he]
      intro h
      exact hn.1 (List.mem_map.2 ⟨e, he, h.symm⟩)

theorem paths_replaceFirst (p : Nat) (r : Option Nat) (es : List Entry) : paths (replaceFirst p r es) = paths es := by
  induction es with
  | nil => rfl
  | cons e es ih =>
    unfold replaceFirst
    unfold paths at ih ⊢
    by_cases h : e.path = p
    · rw [if_pos h]; simp [h]
    · rw [if_neg h, List.map_cons, ih, List.map_cons]

theorem lk_replaceFirst (p : Nat) (r : Option Nat) (es : List Entry) (q : Nat) :
    lk (replaceFirst p r es) q = if q = p then (lk es p).map (fun _ => r) else lk es q := by
  induction es with
  | nil => by_cases h : q = p <;> simp [replaceFirst, lk_nil, h]
  | cons e es ih =>
    unfold replaceFirst
    by_cases h : e.path = p
    · rw [if_pos h, lk_cons]
      by_cases hq : q = p
      · subst hq; rw [if_pos rfl, if_pos rfl, lk_cons, if_pos h]; rfl
      · rw [if_neg (fun e => hq e.symm), if_neg hq, lk_cons, if_neg (fun e' => hq (e'.symm.trans h))]
    · rw [if_neg h, lk_cons, ih]
      by_cases hq : q = p
      · subst hq; rw [if_neg h, if_pos rfl, if_pos rfl, lk_cons, if_neg h]
      · rw [if_neg hq, if_neg hq, lk_cons]

theorem removeFirst_sublist (p : Nat) (es : List Entry) : (removeFirst p es).Sublist es := by
  induction es with
  | nil => exact List.Sublist.refl _
  | cons e es ih =>
    unfold removeFirst
    split
    · exact List.sublist_cons_self _ _
    · exact ih.cons_cons _

theorem lk_removeFirst (p : Nat) (es : List Entry) (hn : (paths es).Nodup) (q : Nat) :
    lk (removeFirst p es) q = if q = p then none else lk es q := by
  induction es with
  | nil => simp [removeFirst, lk_nil]
  | cons e es ih =>
    have hn' := hn
    unfold paths at hn'
    rw [List.map_cons, List.nodup_cons] at hn'
    unfold removeFirst
    by_cases h : e.path = p
    · rw [if_pos h]
      by_cases hq : q = p
      · subst hq
        rw [if_pos rfl, lk_none]
        rw [h] at hn'
        exact hn'.1
      · rw [if_neg hq, lk_cons, if_neg (fun e' => hq (e'.symm.trans h))]
    · rw [if_neg h, lk_cons, ih hn'.2]
      by_cases hq : q = p
      · subst hq; rw [if_neg h, if_pos rfl, if_pos rfl]
      · rw [if_neg hq, if_neg hq, lk_cons]

theorem found_iff {p : Nat} {es : List Entry} : found p es = true ↔ lk es p ≠ none := by
  rw [ne_eq, lk_none]
  unfold found paths
  rw [List.any_eq_true, Decidable.not_not, List.mem_map]
  constructor
  · rintro ⟨e, he, h⟩; exact ⟨e, he, of_decide_eq_true h⟩
  · rintro ⟨e, he, h⟩; exact ⟨e, he, decide_eq_true h⟩

theorem lk_append (es : List Entry) (e : Entry) (q : Nat) : lk (es ++ [e]) q = (lk es q).or (if e.path = q then some e.res else none) := by
  induction es with
  | nil => rw [List.nil_append, lk_cons, lk_nil]; simp
  | cons a es ih =>
    rw [List.cons_append, lk_cons, lk_cons, ih]
    by_cases h : a.path = q <;> simp [h]

end Verif.Compile
