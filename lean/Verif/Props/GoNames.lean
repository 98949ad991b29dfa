import Verif.Model.GoNames
/-!
# Properties of derived Go names: C39
-/
namespace Verif.GoNames

theorem isLower_iff (c : Char) : isLower c = true ↔ 97 ≤ c.toNat ∧ c.toNat ≤ 122 := by
  unfold isLower
  rw [Bool.and_eq_true, decide_eq_true_eq, decide_eq_true_eq]
  rfl

theorem isDigit_iff (c : Char) : isDigit c = true ↔ 48 ≤ c.toNat ∧ c.toNat ≤ 57 := by
  unfold isDigit
  rw [Bool.and_eq_true, decide_eq_true_eq, decide_eq_true_eq]
  rfl

theorem upper_toNat (c : Char) (h : isLower c = true) : (upper c).toNat = c.toNat - 32 := by
  unfold upper
  rw [if_pos h]
  rw [isLower_iff] at h
  have hv : (c.toNat - 32).isValidChar := by
    left; omega
  rw [Char.ofNat, dif_pos hv]
  rfl

theorem upper_not_lower (c : Char) : isLower (upper c) = false := by
  rw [Bool.eq_false_iff]
  by_cases h : isLower c = true
  · have hu := upper_toNat c h
    intro hl
    rw [isLower_iff] at h hl
    omega
  · unfold upper
    rw [if_neg h]
    exact h

/-- Specification: a Go name in normal form: no `.`; a lower-case letter occurs only in a word, i.e.
directly after a letter or another character that is neither a digit nor `_`; `start` and `after` tell
whether the name starts here, or which character precedes. -/
def Normal : Option Char → Str → Prop
  | _, [] => True
  | prev, c :: s =>
    c ≠ '.' ∧
    (isLower c = true → ∃ p, prev = some p ∧ p ≠ '_' ∧ isDigit p = false) ∧
    Normal (some c) s

theorem not_digit_of_lower {c : Char} (h : isLower c = true) : isDigit c = false := by
  rw [Bool.eq_false_iff]
  intro hd
  rw [isLower_iff] at h
  rw [isDigit_iff] at hd
  omega

theorem lower_ne {c d : Char} (h : isLower c = true) (hd : isLower d = false) : c ≠ d := by
  rintro rfl; rw [h] at hd; cases hd

theorem upper_not_digit (c : Char) (h : isDigit c = false) : isDigit (upper c) = false := by
  by_cases hl : isLower c = true
  · have hu := upper_toNat c hl
    rw [Bool.eq_false_iff]
    intro hd
    rw [isLower_iff] at hl
    rw [isDigit_iff] at hd
    omega
  · unfold upper; rw [if_neg hl]; exact h

theorem upper_ne (c d : Char) (h : c ≠ d) (hd : d.toNat < 65 ∨ 90 < d.toNat) : upper c ≠ d := by
  by_cases hl : isLower c = true
  · have hu := upper_toNat c hl
    rw [isLower_iff] at hl
    intro he
    rw [he] at hu
    omega
  · unfold upper; rw [if_neg hl]; exact h

/-- What the loop appends is in normal form after what has been appended. `out` is the last character
appended. -/
theorem camel_normal (s : Str) : ∀ (prev : Option Char) (word : Bool) (out : Option Char),
    (word = true → ∃ p, out = some p ∧ p ≠ '_' ∧ isDigit p = false ∨ nextLower s = false) →
    Normal out (camel prev word s) := by
  induction s with
  | nil => intro _ _ _ _; trivial
  | cons c s ih =>
    intro prev word out hw
    unfold camel
    split
    · rename_i h
      rw [Bool.and_eq_true] at h
      have hp : ∃ p, out = some p ∧ p ≠ '_' ∧ isDigit p = false := by
        obtain ⟨p, h' | h'⟩ := hw h.1
        · exact ⟨p, h'⟩
        · simp only [nextLower] at h'
          rw [h.2] at h'
          cases h'
      refine ⟨lower_ne h.2 (by decide), fun _ => hp, ih _ _ _ ?_⟩
      intro _
      exact ⟨c, .inl ⟨rfl, lower_ne h.2 (by decide), not_digit_of_lower h.2⟩⟩
    · split
      · exact ih _ _ _ (by intro h; cases h)
      · split
        · exact ⟨by decide, (by intro h; exact absurd h (by decide)), ih _ _ _ (by intro h; cases h)⟩
        · rename_i hdot
          split
          · exact ⟨by decide, (by intro h; exact absurd h (by decide)), ih _ _ _ (by intro h; cases h)⟩
          · split
            · exact ih _ _ _ (by intro h; cases h)
            · rename_i hus
              split
              · rename_i hd
                refine ⟨by rintro rfl; exact absurd hd (by decide), ?_, ih _ _ _ (by intro h; cases h)⟩
                intro hl
                rw [not_digit_of_lower hl] at hd
                cases hd
              · rename_i hnd
                refine ⟨upper_ne c '.' hdot (by decide), ?_, ih _ _ _ ?_⟩
                · intro hl
                  rw [upper_not_lower] at hl
                  cases hl
                · intro _
                  by_cases hc : c = '_'
                  · refine ⟨'_', .inr ?_⟩
                    rw [Bool.eq_false_iff]
                    intro hn
                    exact hus (by simp [hc, hn])
                  · exact ⟨upper c, .inl ⟨rfl, upper_ne c '_' hc (by decide), upper_not_digit c (by simpa using hnd)⟩⟩

/-- **C39** (part): the derived name is in normal form; in particular it contains no `.`, and no
lower-case letter at the start, after `_` or after a digit. -/
theorem C39_normal (s : Str) : Normal none (goCamelCase s) :=
  camel_normal s none false none (by intro h; cases h)

theorem normal_no_dot (prev : Option Char) (s : Str) (h : Normal prev s) : '.' ∉ s := by
  induction s generalizing prev with
  | nil => simp
  | cons c s ih =>
    obtain ⟨h1, _, h3⟩ := h
    intro hm
    rcases List.mem_cons.1 hm with hm | hm
    · exact h1 hm.symm
    · exact ih _ h3 hm

/-- **C39** (part): no dot. -/
theorem C39_no_dot (s : Str) : '.' ∉ goCamelCase s := normal_no_dot none _ (C39_normal s)

/-- **C39** (part): a name that does not start with a dot leads to a Go name that starts neither with
a lower-case letter nor with `_`; and one that starts with a letter or `_` to a Go name that starts
with an upper-case letter, i.e. is exported. -/
theorem C39_start (c : Char) (s : Str) (hc : c ≠ '.') :
    ∃ d t, goCamelCase (c :: s) = d :: t ∧ isLower d = false ∧ d ≠ '_' ∧
      (isLower c = true ∨ c = '_' ∨ (65 ≤ c.toNat ∧ c.toNat ≤ 90) → 65 ≤ d.toNat ∧ d.toNat ≤ 90) := by
  unfold goCamelCase camel
  simp only [Bool.false_and, Bool.false_eq_true, if_false, hc, decide_false, decide_true, Bool.true_or,
    Bool.and_true]
  by_cases hu : c = '_'
  · subst hu
    exact ⟨'X', _, rfl, by decide, by decide, fun _ => by decide⟩
  · simp only [hu, decide_false, Bool.false_and, Bool.false_eq_true, if_false]
    by_cases hd : isDigit c = true
    · rw [if_pos hd]
      have hnl : isLower c = false := by
        rw [Bool.eq_false_iff]; intro hl; rw [not_digit_of_lower hl] at hd; cases hd
      refine ⟨c, _, rfl, hnl, hu, ?_⟩
      rintro (h | h | h)
      · rw [hnl] at h; cases h
      · exact h.elim
      · exact h
    · rw [if_neg hd]
      refine ⟨upper c, _, rfl, upper_not_lower c, upper_ne c '_' hu (by decide), ?_⟩
      rintro (h | h | h)
      · have := upper_toNat c h
        rw [isLower_iff] at h
        omega
      · exact h.elim
      · have hnl : ¬ isLower c = true := by rw [isLower_iff]; omega
        unfold upper
        rw [if_neg hnl]
        exact h

/-- A name in normal form is not changed. -/
theorem camel_of_normal (s : Str) : ∀ (prev : Option Char) (word : Bool),
    Normal prev s → (prev = none → s.head? ≠ some '_') → prev ≠ some '.' →
    (∀ p, prev = some p → p ≠ '_' → isDigit p = false → word = true) →
    camel prev word s = s := by
  induction s with
  | nil => intro _ _ _ _ _ _; rfl
  | cons c s ih =>
    intro prev word ⟨h1, h2, h3⟩ hfirst hdot hword
    unfold camel
    have hnext : c = '_' ∨ isDigit c = true → nextLower s = false := by
      intro h
      match s, h3 with
      | [], _ => rfl
      | d :: s, h3 =>
        simp only [nextLower]
        rw [Bool.eq_false_iff]
        intro hl
        obtain ⟨p, hp, hp1, hp2⟩ := h3.2.1 hl
        cases hp
        rcases h with h | h
        · exact hp1 h
        · rw [h] at hp2; cases hp2
    have hrec : ∀ w : Bool, (c ≠ '_' → isDigit c = false → w = true) → camel (some c) w s = s := by
      intro w hwc
      refine ih _ _ h3 (by intro h; cases h) (fun h => h1 (Option.some.inj h)) ?_
      intro p hp hp1 hp2
      cases hp
      exact hwc hp1 hp2
    by_cases hl : isLower c = true
    · obtain ⟨p, rfl, hp1, hp2⟩ := h2 hl
      have := hword p rfl hp1 hp2
      rw [if_pos (by simp [this, hl]), hrec true (fun _ _ => rfl)]
    · rw [if_neg (by simp [hl]), if_neg (by simp [h1]), if_neg h1]
      by_cases hu : c = '_'
      · have hp : prev ≠ none := fun hn => hfirst hn (by rw [hu]; rfl)
        have hn := hnext (.inl hu)
        rw [if_neg (by simp [hp, hdot]), if_neg (by simp [hn]), if_neg (by rw [hu]; decide),
          hrec true (fun _ _ => rfl)]
        rw [hu]
        rfl
      · rw [if_neg (by simp [hu]), if_neg (by simp [hu])]
        by_cases hd : isDigit c = true
        · rw [if_pos hd, hrec false (fun _ h => by rw [hd] at h; cases h)]
        · rw [if_neg hd, hrec true (fun _ _ => rfl)]
          unfold upper
          rw [if_neg hl]

/-- **C39** (part): deriving the name again changes nothing, for names that do not start with a dot. -/
theorem C39_idempotent (s : Str) (hs : s.head? ≠ some '.') :
    goCamelCase (goCamelCase s) = goCamelCase s := by
  refine camel_of_normal _ none false (C39_normal s) ?_ (by simp) (by intro p hp; cases hp)
  intro _
  match s with
  | [] => simp [goCamelCase, camel]
  | c :: s =>
    obtain ⟨d, t, h, _, h2, _⟩ := C39_start c s (fun hc => hs (by rw [hc]; rfl))
    rw [h]
    intro he
    exact h2 (Option.some.inj he)

/-- Specification: the letters and digits of a proto name in lower case; an underscore at the start
or after a dot stands for the letter `x`. -/
def essence : Option Char → Str → Str
  | _, [] => []
  | prev, c :: s =>
    (if c = '.' then [] else if c = '_' then (if prev = none ∨ prev = some '.' then ['X'] else [])
      else [upper c]) ++ essence (some c) s

/-- Specification: the letters and digits of a Go name, up to capitalisation. -/
def letters (s : Str) : Str := (s.filter (fun c => decide (c ≠ '_'))).map upper

theorem letters_cons (c : Char) (s : Str) :
    letters (c :: s) = (if c = '_' then [] else [upper c]) ++ letters s := by
  unfold letters
  by_cases h : c = '_'
  · rw [List.filter_cons_of_neg (by simpa using h), if_pos h]; rfl
  · rw [List.filter_cons_of_pos (by simpa using h), if_neg h]; rfl

theorem upper_upper (c : Char) : upper (upper c) = upper c := by
  have h := upper_not_lower c
  generalize upper c = d at h ⊢
  unfold upper
  rw [if_neg (by rw [h]; simp)]

theorem camel_letters (s : Str) : ∀ (prev : Option Char) (word : Bool),
    letters (camel prev word s) = essence prev s := by
  induction s with
  | nil => intro _ _; rfl
  | cons c s ih =>
    intro prev word
    unfold camel essence
    split
    · rename_i h
      rw [Bool.and_eq_true] at h
      have h1 : c ≠ '.' := lower_ne h.2 (by decide)
      have h2 : c ≠ '_' := lower_ne h.2 (by decide)
      rw [letters_cons, ih, if_neg h1, if_neg h2, if_neg h2]
    · split
      · rename_i h
        rw [Bool.and_eq_true, decide_eq_true_eq] at h
        rw [ih, if_pos h.1]
        rfl
      · split
        · rename_i h
          rw [letters_cons, ih]
          rfl
        · rename_i hdot
          split
          · rename_i h
            rw [Bool.and_eq_true, Bool.or_eq_true, decide_eq_true_eq, decide_eq_true_eq, decide_eq_true_eq] at h
            rw [letters_cons, ih, if_pos h.1, if_pos h.2]
            rfl
          · rename_i hX
            have hX : c = '_' → ¬ (prev = none ∨ prev = some '.') := by
              intro hc hp
              apply hX
              rw [Bool.and_eq_true, Bool.or_eq_true, decide_eq_true_eq, decide_eq_true_eq, decide_eq_true_eq]
              exact ⟨hc, hp⟩
            split
            · rename_i h
              rw [Bool.and_eq_true, decide_eq_true_eq] at h
              rw [ih, if_pos h.1, if_neg (hX h.1)]
              rfl
            · split
              · rename_i hd
                have h2 : c ≠ '_' := by rintro rfl; exact absurd hd (by decide)
                rw [letters_cons, ih, if_neg h2, if_neg h2]
              · rw [letters_cons, ih]
                by_cases h2 : c = '_'
                · subst h2
                  rw [if_pos rfl, if_neg (hX rfl)]
                  rfl
                · rw [if_neg (upper_ne c '_' h2 (by decide)), if_neg h2, upper_upper]

/-- **C39** (part): the derived name keeps all letters, digits and other characters in order, up to
capitalisation; only dots and underscores are dropped (or changed: an underscore at the start or after
a dot becomes an `X`). -/
theorem C39_letters (s : Str) : letters (goCamelCase s) = essence none s := camel_letters s none false

example : goCamelCase "foo_bar.baz_1x._y".toList = "FooBarBaz_1X_XY".toList := by decide
example : goCamelCase (goCamelCase "_my_field__name".toList) = "XMyField_Name".toList := by decide

/-- **C39** (`GoSanitized`): the result is a valid Go identifier: not empty, letters, digits and `_`
only, not starting with a digit, and not a keyword - as long as no keyword starts with `_`. -/
theorem C39_sanitized (isLetter isUDigit : Char → Bool) (isKeyword : Str → Bool)
    (hk : ∀ t, isKeyword ('_' :: t) = false) (s : Str) :
    isKeyword (goSanitized isLetter isUDigit isKeyword s) = false ∧
    (∃ c t, goSanitized isLetter isUDigit isKeyword s = c :: t ∧ (c = '_' ∨ isLetter c = true)) ∧
    ∀ c ∈ goSanitized isLetter isUDigit isKeyword s, c = '_' ∨ isLetter c = true ∨ isUDigit c = true := by
  unfold goSanitized
  simp only
  generalize ht : (s.map fun r => if (isLetter r || isUDigit r) = true then r else '_') = t
  have hall : ∀ c ∈ t, c = '_' ∨ isLetter c = true ∨ isUDigit c = true := by
    intro c hc
    rw [← ht] at hc
    obtain ⟨r, _, hr⟩ := List.mem_map.1 hc
    split at hr
    · rename_i h
      rw [Bool.or_eq_true] at h
      rw [← hr]
      exact .inr h
    · exact .inl hr.symm
  match t with
  | [] => exact ⟨hk [], ⟨'_', [], rfl, .inl rfl⟩, by simp⟩
  | r :: t =>
    simp only
    split
    · refine ⟨hk _, ⟨'_', _, rfl, .inl rfl⟩, ?_⟩
      intro c hc
      rcases List.mem_cons.1 hc with h | h
      · exact .inl h
      · exact hall c h
    · rename_i h
      rw [Bool.or_eq_true, not_or] at h
      refine ⟨by simpa using h.1, ⟨r, t, rfl, .inr ?_⟩, hall⟩
      simpa using h.2

end Verif.GoNames
