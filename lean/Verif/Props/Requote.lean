import Verif.Model.Requote
/-!
# Properties of the string literals of the formatter: C43
-/
namespace Verif.Requote
open Verif.Literal

/-- Specification: a double quote that is not part of an escape occurs in the text of a literal. -/
def bare : Bytes → Bool
  | [] => false
  | c :: s =>
    if c = 34 then true
    else if c ≠ 92 then bare s
    else match escape s with
      | none => bare s
      | some (_, n) => bare (s.drop n)
termination_by s => s.length
decreasing_by
  all_goals simp only [List.length_drop, List.length_cons]
  all_goals omega

theorem digits_append (val : Nat → Option Nat) (base q : Nat) (hq : val q = none) (s : Bytes) :
    ∀ max acc, digits val base max acc (s ++ [q]) = digits val base max acc s ∧
      (digits val base max acc s).2 ≤ s.length := by
  induction s with
  | nil =>
    intro max acc
    cases max with
    | zero => exact ⟨rfl, Nat.le_refl _⟩
    | succ max => simp [digits, hq]
  | cons c s ih =>
    intro max acc
    cases max with
    | zero => exact ⟨rfl, Nat.zero_le _⟩
    | succ max =>
      simp only [List.cons_append, digits]
      cases hv : val c with
      | none => exact ⟨rfl, Nat.zero_le _⟩
      | some d =>
        obtain ⟨h1, h2⟩ := ih max (base * acc + d)
        simp only
        rw [h1]
        exact ⟨rfl, by simp only [List.length_cons]; omega⟩

theorem escape_append (q c : Nat) (s : Bytes) (hq : q = 39 ∨ q = 34) :
    escape (c :: s ++ [q]) = escape (c :: s) ∧
    ∀ b n, escape (c :: s) = some (b, n) → n ≤ (c :: s).length := by
  have hoct : octVal q = none := by rcases hq with rfl | rfl <;> decide
  have hhex : hexVal q = none := by rcases hq with rfl | rfl <;> decide
  unfold escape
  simp only [List.cons_append]
  cases hs : simple c with
  | some b =>
    simp only
    refine ⟨trivial, ?_⟩
    intro b' n h
    cases h
    simp
  | none =>
    simp only
    by_cases h1 : (octVal c).isSome = true
    · simp only [h1, if_true]
      obtain ⟨e, l⟩ := digits_append octVal 8 q hoct (c :: s) 3 0
      simp only [List.cons_append] at e l
      rw [e]
      refine ⟨rfl, ?_⟩
      intro b n h
      split at h
      · obtain ⟨_, rfl⟩ := Prod.mk.inj (Option.some.inj h)
        exact l
      · cases h
    · simp only [h1, Bool.false_eq_true, if_false]
      by_cases h2 : c = 120
      · simp only [h2, if_true]
        obtain ⟨e, l⟩ := digits_append hexVal 16 q hhex s 2 0
        rw [e]
        refine ⟨rfl, ?_⟩
        intro b n h
        split at h
        · cases h
        · obtain ⟨_, rfl⟩ := Prod.mk.inj (Option.some.inj h)
          simp only [List.length_cons]; omega
      · simp only [h2, if_false]
        by_cases h3 : c = 117
        · simp only [h3, if_true]
          obtain ⟨e, l⟩ := digits_append hexVal 16 q hhex s 4 0
          rw [e]
          refine ⟨rfl, ?_⟩
          intro b n h
          split at h
          · obtain ⟨_, rfl⟩ := Prod.mk.inj (Option.some.inj h)
            simp only [List.length_cons]; omega
          · cases h
        · simp only [h3, if_false]
          by_cases h4 : c = 85
          · simp only [h4, if_true]
            obtain ⟨e, l⟩ := digits_append hexVal 16 q hhex s 8 0
            rw [e]
            refine ⟨rfl, ?_⟩
            intro b n h
            split at h
            · rename_i hh
              obtain ⟨_, rfl⟩ := Prod.mk.inj (Option.some.inj h)
              simp only [List.length_cons]; omega
            · cases h
          · simp only [h4, if_false]
            exact ⟨trivial, fun b n h => by cases h⟩

theorem body_requote (k : Nat) : ∀ (m v : Bytes), m.length ≤ k → body 39 (m ++ [39]) = some v →
    body 34 (m ++ [34]) = if bare m then none else some v := by
  induction k with
  | zero =>
    intro m v hm h
    have : m = [] := List.length_eq_zero_iff.1 (by omega)
    subst this
    simp only [List.nil_append] at h ⊢
    rw [body] at h ⊢
    simp only [if_true] at h ⊢
    rw [bare]
    simpa using h
  | succ k ih =>
    intro m v hm h
    cases m with
    | nil => exact ih [] v (by simp) h
    | cons c s =>
      simp only [List.length_cons] at hm
      rw [List.cons_append, body] at h
      rw [List.cons_append, body, bare]
      by_cases h39 : c = 39
      · rw [if_pos h39, if_neg (by simp)] at h
        cases h
      rw [if_neg h39] at h
      by_cases h10 : c = 10 ∨ c = 0
      · rw [if_pos h10] at h
        cases h
      rw [if_neg h10] at h
      by_cases h34 : c = 34
      · rw [if_pos h34, if_neg (by simp), if_pos h34]
        rfl
      rw [if_neg h34, if_neg h10, if_neg h34]
      by_cases h92 : c ≠ 92
      · rw [if_pos h92] at h ⊢
        rw [if_pos h92]
        obtain ⟨w, hw, rfl⟩ := Option.map_eq_some_iff.1 h
        rw [ih s w (by omega) hw]
        cases bare s <;> rfl
      · rw [if_neg h92] at h ⊢
        rw [if_neg h92]
        cases s with
        | nil =>
          exfalso
          have : escape ([] ++ [39]) = some ([39], 1) := by decide
          rw [this] at h
          simp only [List.nil_append, List.drop_succ_cons, List.drop_zero] at h
          rw [body] at h
          cases h
        | cons d s =>
          obtain ⟨he, hl⟩ := escape_append 39 d s (.inl rfl)
          obtain ⟨he', _⟩ := escape_append 34 d s (.inr rfl)
          rw [he] at h
          rw [he']
          cases hes : escape (d :: s) with
          | none => rw [hes] at h; cases h
          | some r =>
            obtain ⟨b, n⟩ := r
            rw [hes] at h
            simp only at h ⊢
            have hn2 := hl b n hes
            rw [List.drop_append_of_le_length hn2] at h ⊢
            obtain ⟨w, hw, rfl⟩ := Option.map_eq_some_iff.1 h
            rw [ih _ w (by simp only [List.length_drop]; simp only [List.length_cons] at hm ⊢; omega) hw]
            by_cases hb : bare (List.drop n (d :: s)) = true
            · rw [if_pos hb, if_pos hb]; rfl
            · rw [if_neg hb, if_neg hb]; rfl

theorem bare_append (k : Nat) : ∀ (m v : Bytes), m.length ≤ k → body 39 (m ++ [39]) = some v →
    bare (m ++ [39]) = bare m := by
  induction k with
  | zero =>
    intro m v hm h
    have : m = [] := List.length_eq_zero_iff.1 (by omega)
    subst this
    decide +kernel
  | succ k ih =>
    intro m v hm h
    cases m with
    | nil => decide +kernel
    | cons c s =>
      simp only [List.length_cons] at hm
      rw [List.cons_append, body] at h
      rw [List.cons_append, bare, bare]
      by_cases h39 : c = 39
      · rw [if_pos h39, if_neg (by simp)] at h
        cases h
      rw [if_neg h39] at h
      by_cases h10 : c = 10 ∨ c = 0
      · rw [if_pos h10] at h
        cases h
      rw [if_neg h10] at h
      by_cases h34 : c = 34
      · rw [if_pos h34, if_pos h34]
      rw [if_neg h34, if_neg h34]
      by_cases h92 : c ≠ 92
      · rw [if_pos h92] at h
        rw [if_pos h92, if_pos h92]
        obtain ⟨w, hw, rfl⟩ := Option.map_eq_some_iff.1 h
        exact ih s w (by omega) hw
      · rw [if_neg h92] at h
        rw [if_neg h92, if_neg h92]
        cases s with
        | nil => decide +kernel
        | cons d s =>
          obtain ⟨he, hl⟩ := escape_append 39 d s (.inl rfl)
          rw [he] at h ⊢
          cases hes : escape (d :: s) with
          | none => rw [hes] at h; cases h
          | some r =>
            obtain ⟨b, n⟩ := r
            rw [hes] at h
            simp only at h ⊢
            have hn2 := hl b n hes
            rw [List.drop_append_of_le_length hn2] at h ⊢
            obtain ⟨w, hw, rfl⟩ := Option.map_eq_some_iff.1 h
            exact ih _ w (by simp only [List.length_drop]; simp only [List.length_cons] at hm ⊢; omega) hw

theorem body_quoted (k : Nat) : ∀ (q : Nat) (s v : Bytes), s.length ≤ k → body q s = some v →
    s.getLast? = some q := by
  induction k with
  | zero =>
    intro q s v hs h
    have : s = [] := List.length_eq_zero_iff.1 (by omega)
    subst this
    rw [body] at h
    cases h
  | succ k ih =>
    intro q s v hs h
    cases s with
    | nil => rw [body] at h; cases h
    | cons c s =>
      simp only [List.length_cons] at hs
      rw [body] at h
      by_cases hc : c = q
      · rw [if_pos hc] at h
        by_cases hs' : s = []
        · rw [hs', hc]; rfl
        · rw [if_neg hs'] at h; cases h
      rw [if_neg hc] at h
      by_cases h10 : c = 10 ∨ c = 0
      · rw [if_pos h10] at h; cases h
      rw [if_neg h10] at h
      by_cases h92 : c ≠ 92
      · rw [if_pos h92] at h
        obtain ⟨w, hw, _⟩ := Option.map_eq_some_iff.1 h
        rw [List.getLast?_cons, ih q s w (by omega) hw]
        rfl
      · rw [if_neg h92] at h
        cases hes : escape s with
        | none => rw [hes] at h; cases h
        | some r =>
          obtain ⟨b, n⟩ := r
          rw [hes] at h
          simp only at h
          obtain ⟨w, hw, _⟩ := Option.map_eq_some_iff.1 h
          have := ih q (s.drop n) w (by simp only [List.length_drop]; omega) hw
          rw [List.getLast?_drop] at this
          split at this
          · cases this
          · rw [List.getLast?_cons, this]; rfl

/-- **C43**: a literal keeps its value exactly if it is not a single-quoted literal with a bare double
quote; otherwise what is written is not a literal at all. -/
theorem C43_value (raw v : Bytes) (h : value raw = some v) :
    value (requote raw) = if raw.head? = some 39 ∧ bare raw.tail = true then none else some v := by
  cases raw with
  | nil => cases h
  | cons q s =>
    simp only [value] at h
    by_cases hq : q = 34 ∨ q = 39
    · rw [if_pos hq] at h
      have hl := body_quoted s.length q s v (Nat.le_refl _) h
      obtain ⟨m, rfl⟩ : ∃ m, s = m ++ [q] := by
        obtain ⟨m, hm⟩ := List.getLast?_eq_some_iff.1 hl
        exact ⟨m, hm⟩
      by_cases h39 : q = 39
      · subst h39
        have hr : requote (39 :: (m ++ [39])) = 34 :: (m ++ [34]) := by
          unfold requote
          rw [if_pos ⟨by simp, rfl, by rw [List.getLast?_cons]; simp⟩]
          simp
        rw [hr]
        simp only [value]
        rw [if_pos (.inl trivial), body_requote m.length m v (Nat.le_refl _) h]
        have hb : bare (m ++ [39]) = bare m := bare_append m.length m v (Nat.le_refl _) h
        simp only [List.head?_cons, List.tail_cons, hb, true_and]
      · have h34 : q = 34 := by rcases hq with h | h; exact h; exact absurd h h39
        subst h34
        have hr : requote (34 :: (m ++ [34])) = 34 :: (m ++ [34]) := by
          unfold requote
          rw [if_neg (by intro hh; exact absurd hh.2.1 (by simp))]
        rw [hr, if_neg (by intro hh; exact absurd hh.1 (by simp))]
        simp only [value]
        rw [if_pos (.inl trivial)]
        exact h
    · rw [if_neg hq] at h
      cases h

/-- **C43** (partial): a literal without bare double quotes keeps its value. Missing: single-quoted
literals with bare double quotes, for which the property fails (`C43_violated`). -/
theorem C43_partial (raw v : Bytes) (h : value raw = some v) (hb : raw.head? = some 34 ∨ bare raw.tail = false) :
    value (requote raw) = some v := by
  rw [C43_value raw v h, if_neg]
  rintro ⟨h1, h2⟩
  rcases hb with hb | hb
  · rw [h1] at hb; cases hb
  · rw [h2] at hb; cases hb

/-- **C43** (part): formatting again changes nothing. -/
theorem C43_idempotent (raw : Bytes) : requote (requote raw) = requote raw := by
  by_cases h : raw.length > 1 ∧ raw.head? = some 39 ∧ raw.getLast? = some 39
  · have : requote raw = 34 :: raw.tail.dropLast ++ [34] := by unfold requote; rw [if_pos h]
    rw [this]
    unfold requote
    rw [if_neg]
    rintro ⟨_, h', _⟩
    cases h'
  · have : requote raw = raw := by unfold requote; rw [if_neg h]
    rw [this, this]

-- 'a\"\x41' becomes "a\"\x41"
example : value [39, 97, 92, 34, 92, 120, 52, 49, 39] = some [97, 34, 65] ∧
    bare [97, 92, 34, 92, 120, 52, 49, 39] = false ∧
    requote [39, 97, 92, 34, 92, 120, 52, 49, 39] = [34, 97, 92, 34, 92, 120, 52, 49, 34] := by
  decide +kernel

/-- The code violates C43: a single-quoted literal that consists of a double quote becomes three double
quotes. -/
theorem C43_violated : value [39, 34, 39] = some [34] ∧ requote [39, 34, 39] = [34, 34, 34] ∧
    value (requote [39, 34, 39]) = none := by
  decide +kernel

end Verif.Requote
