import Verif.Model.Quote
/-!
# Properties of printed literals: C32
-/
namespace Verif.Quote
open Verif.Literal

theorem body_plain {q c : Nat} (s : Bytes) (h1 : c ≠ q) (h2 : c ≠ 10) (h3 : c ≠ 0) (h4 : c ≠ 92) :
    body q (c :: s) = (body q s).map (c :: ·) := by
  rw [body, if_neg h1, if_neg (by omega), if_pos h4]

theorem body_escape {q : Nat} (s b : Bytes) (n : Nat) (hq : q ≠ 92) (h : escape s = some (b, n)) :
    body q (92 :: s) = (body q (s.drop n)).map (b ++ ·) := by
  rw [body, if_neg (fun h => hq h.symm), if_neg (by decide), if_neg (by decide), h]

theorem octVal_digit (d : Nat) (h : d < 8) : octVal (48 + d) = some d := by
  unfold octVal
  rw [if_pos (by omega)]
  congr 1
  omega

theorem hexVal_digit : ∀ d < 16, hexVal (hexDigit d) = some d := by decide

theorem simple_oct : ∀ d < 8, simple (48 + d) = none := by decide

theorem escape_oct (c : Nat) (s : Bytes) (hc : c < 256) :
    escape ((octEscape c).tail ++ s) = some ([c], 3) := by
  have h1 : c / 64 < 8 := by omega
  have h2 : c / 8 % 8 < 8 := by omega
  have h3 : c % 8 < 8 := by omega
  simp only [octEscape, List.tail_cons, List.cons_append, List.nil_append, escape]
  rw [simple_oct _ h1, octVal_digit _ h1]
  simp only [Option.isSome_some, if_true, digits, octVal_digit _ h1, octVal_digit _ h2, octVal_digit _ h3]
  have : 8 * (8 * (8 * 0 + c / 64) + c / 8 % 8) + c % 8 = c := by omega
  rw [this, if_pos hc]

theorem digits_hex4 (acc n : Nat) (s : Bytes) (k : Nat) (hn : n < 65536) :
    digits hexVal 16 (k + 4) acc (hex4 n ++ s)
      = ((digits hexVal 16 k (65536 * acc + n) s).1, (digits hexVal 16 k (65536 * acc + n) s).2 + 4) := by
  have h1 : n / 4096 < 16 := by omega
  have h2 : n / 256 % 16 < 16 := by omega
  have h3 : n / 16 % 16 < 16 := by omega
  have h4 : n % 16 < 16 := by omega
  simp only [hex4, List.cons_append, List.nil_append, digits, hexVal_digit _ h1, hexVal_digit _ h2,
    hexVal_digit _ h3, hexVal_digit _ h4]
  have : 16 * (16 * (16 * (16 * acc + n / 4096) + n / 256 % 16) + n / 16 % 16) + n % 16 = 65536 * acc + n := by
    omega
  rw [this]

theorem escape_u (n : Nat) (s : Bytes) (hn : n < 65536) :
    escape (117 :: hex4 n ++ s) = some (utf8 n, 5) := by
  simp only [List.cons_append, escape]
  have h : digits hexVal 16 4 0 (hex4 n ++ s) = (n, 4) := by
    have := digits_hex4 0 n s 0 hn
    rw [Nat.zero_add] at this
    rw [this]
    simp [digits]
  rw [h]
  simp [simple, octVal]

theorem escape_U (n : Nat) (s : Bytes) (hn : n < 0x110000) :
    escape (85 :: hex8 n ++ s) = some (utf8 n, 9) := by
  simp only [List.cons_append, escape]
  have h : digits hexVal 16 8 0 (hex8 n ++ s) = (n, 8) := by
    unfold hex8
    rw [List.append_assoc]
    have h1 := digits_hex4 0 (n / 65536) (hex4 (n % 65536) ++ s) 4 (by omega)
    have h2 := digits_hex4 (65536 * 0 + n / 65536) (n % 65536) s 0 (by omega)
    rw [Nat.zero_add] at h2
    rw [h1, h2]
    simp only [digits]
    have : 65536 * (65536 * 0 + n / 65536) + n % 65536 = n := by omega
    rw [this]
  rw [h]
  have : n < 1114112 := hn
  simp [simple, octVal, this]

theorem body_special (c : Nat) (hc : c ≠ 34) (b s : Bytes) (h : special c = some b) :
    body 34 (b ++ s) = (body 34 s).map (c :: ·) := by
  have key : ∀ (e : Nat), simple e = some c → body 34 ([92, e] ++ s) = (body 34 s).map (c :: ·) := by
    intro e he
    have : escape (e :: s) = some ([c], 1) := by simp only [escape, he]
    exact body_escape (e :: s) [c] 1 (by decide) this
  unfold special at h
  split at h
  · cases h; subst c; exact key _ rfl
  · split at h
    · cases h; subst c; exact key _ rfl
    · split at h
      · cases h; subst c; exact key _ rfl
      · split at h
        · cases h; subst c; exact key _ rfl
        · cases h

theorem body_octEscape (c : Nat) (s : Bytes) (hc : c < 256) :
    body 34 (octEscape c ++ s) = (body 34 s).map (c :: ·) := by
  have h := body_escape (q := 34) _ _ _ (by decide) (escape_oct c s hc)
  exact h

theorem special_none {c : Nat} (h : special c = none) : c ≠ 10 ∧ c ≠ 34 ∧ c ≠ 92 := by
  unfold special at h
  refine ⟨?_, ?_, ?_⟩ <;> (intro hc; subst hc; simp at h)

theorem body_quoteByte (c : Nat) (hc : c ≠ 34) (hb : c < 256) (s : Bytes) :
    body 34 (quoteByte c ++ s) = (body 34 s).map (c :: ·) := by
  unfold quoteByte
  cases h : special c with
  | some b => exact body_special c hc b s h
  | none =>
    have hn := special_none h
    simp only
    split
    · exact body_plain s hc hn.1 (by omega) hn.2.2
    · exact body_octEscape c s hb

theorem body_flatMap (s t : Bytes) (hq : 34 ∉ s) (hb : ∀ c ∈ s, c < 256) :
    body 34 (s.flatMap quoteByte ++ t) = (body 34 t).map (s ++ ·) := by
  induction s with
  | nil =>
    simp
  | cons c s ih =>
    rw [List.flatMap_cons, List.append_assoc, body_quoteByte c (fun h => hq (h ▸ List.mem_cons_self))
      (hb c List.mem_cons_self), ih (fun h => hq (List.mem_cons_of_mem _ h))
      (fun d hd => hb d (List.mem_cons_of_mem _ hd)), Option.map_map]
    rfl

theorem body_end : body 34 [34] = some [] := by rw [body]; rfl

/-- **C32** (partial): the literal printed for a bytes value without a `"` denotes that value.
Missing: values with a `"`, for which the property fails (`C32_quote_violated`). -/
theorem C32_bytes_partial (s : Bytes) (hb : ∀ c ∈ s, c < 256) (hq : 34 ∉ s) :
    value (quotedBytes s) = some s := by
  unfold value quotedBytes
  simp only [List.cons_append]
  rw [if_pos (by decide), body_flatMap s [34] hq hb, body_end]
  simp

example : value (quotedBytes [104, 10, 92, 200, 39, 0]) = some [104, 10, 92, 200, 39, 0] :=
  C32_bytes_partial _ (by decide) (by decide)

theorem body_bytes (bs s : Bytes) (h : ∀ b ∈ bs, b ≠ 34 ∧ b ≠ 10 ∧ b ≠ 0 ∧ b ≠ 92) :
    body 34 (bs ++ s) = (body 34 s).map (bs ++ ·) := by
  induction bs with
  | nil => simp
  | cons b bs ih =>
    have hb := h b List.mem_cons_self
    rw [List.cons_append, body_plain _ hb.1 hb.2.1 hb.2.2.1 hb.2.2.2,
      ih (fun c hc => h c (List.mem_cons_of_mem _ hc)), Option.map_map]
    rfl

theorem utf8_high {r : Nat} (h : 0x80 ≤ r) : ∀ b ∈ utf8 r, 0x80 ≤ b := by
  intro b hb
  unfold utf8 at hb
  rw [if_neg (by omega)] at hb
  split at hb
  · simp only [List.mem_cons, List.not_mem_nil, or_false] at hb; omega
  · split at hb
    · simp only [List.mem_cons, List.not_mem_nil, or_false] at hb; omega
    · simp only [List.mem_cons, List.not_mem_nil, or_false] at hb; omega

theorem within_iff {lo hi b : Nat} : within lo hi b = true ↔ lo ≤ b ∧ b ≤ hi := by
  unfold within
  rw [Bool.and_eq_true, decide_eq_true_eq, decide_eq_true_eq]

theorem utf8_two {b0 b1 : Nat} (h0 : 0xC2 ≤ b0 ∧ b0 ≤ 0xDF) (h1 : 0x80 ≤ b1 ∧ b1 ≤ 0xBF) :
    utf8 ((b0 - 0xC0) * 64 + (b1 - 0x80)) = [b0, b1] := by
  generalize hr : (b0 - 0xC0) * 64 + (b1 - 0x80) = r
  unfold utf8
  rw [if_neg (by omega), if_pos (by omega)]
  have e0 : 0xC0 + r / 64 = b0 := by omega
  have e1 : 0x80 + r % 64 = b1 := by omega
  rw [e0, e1]

theorem utf8_three {b0 b1 b2 : Nat} (h0 : 0xE0 ≤ b0 ∧ b0 ≤ 0xEF) (h1 : 0x80 ≤ b1 ∧ b1 ≤ 0xBF)
    (h2 : 0x80 ≤ b2 ∧ b2 ≤ 0xBF) (hlo : b0 = 0xE0 → 0xA0 ≤ b1) :
    utf8 ((b0 - 0xE0) * 4096 + (b1 - 0x80) * 64 + (b2 - 0x80)) = [b0, b1, b2] := by
  generalize hr : (b0 - 0xE0) * 4096 + (b1 - 0x80) * 64 + (b2 - 0x80) = r
  have hge : 0x800 ≤ r := by
    by_cases h : b0 = 0xE0
    · have := hlo h; omega
    · omega
  unfold utf8
  rw [if_neg (by omega), if_neg (by omega), if_pos (by omega)]
  have e0 : 0xE0 + r / 4096 = b0 := by omega
  have e1 : 0x80 + r / 64 % 64 = b1 := by omega
  have e2 : 0x80 + r % 64 = b2 := by omega
  rw [e0, e1, e2]

theorem utf8_four {b0 b1 b2 b3 : Nat} (h0 : 0xF0 ≤ b0 ∧ b0 ≤ 0xF4) (h1 : 0x80 ≤ b1 ∧ b1 ≤ 0xBF)
    (h2 : 0x80 ≤ b2 ∧ b2 ≤ 0xBF) (h3 : 0x80 ≤ b3 ∧ b3 ≤ 0xBF) (hlo : b0 = 0xF0 → 0x90 ≤ b1) :
    utf8 ((b0 - 0xF0) * 262144 + (b1 - 0x80) * 4096 + (b2 - 0x80) * 64 + (b3 - 0x80)) = [b0, b1, b2, b3] := by
  generalize hr : (b0 - 0xF0) * 262144 + (b1 - 0x80) * 4096 + (b2 - 0x80) * 64 + (b3 - 0x80) = r
  have hge : 0x10000 ≤ r := by
    by_cases h : b0 = 0xF0
    · have := hlo h; omega
    · omega
  unfold utf8
  rw [if_neg (by omega), if_neg (by omega), if_neg (by omega)]
  have e0 : 0xF0 + r / 262144 = b0 := by omega
  have e1 : 0x80 + r / 4096 % 64 = b1 := by omega
  have e2 : 0x80 + r / 64 % 64 = b2 := by omega
  have e3 : 0x80 + r % 64 = b3 := by omega
  rw [e0, e1, e2, e3]

/-- A decoded rune is a code point, and its encoding are the bytes that were read. -/
theorem decodeRune_spec (b0 : Nat) (s : Bytes) (r n : Nat) (h : decodeRune b0 s = some (r, n)) :
    r < 0x110000 ∧ b0 :: s = utf8 r ++ s.drop (n - 1) := by
  unfold decodeRune at h
  by_cases h0 : b0 < 0x80
  · rw [if_pos h0] at h
    cases h
    refine ⟨by omega, ?_⟩
    unfold utf8
    rw [if_pos h0]
    rfl
  rw [if_neg h0] at h
  by_cases h2 : within 0xC2 0xDF b0 = true
  · rw [if_pos h2] at h
    rw [within_iff] at h2
    match s with
    | [] => cases h
    | b1 :: t =>
      simp only at h
      by_cases h3 : within 0x80 0xBF b1 = true
      · rw [if_pos h3] at h
        rw [within_iff] at h3
        obtain ⟨rfl, rfl⟩ := Prod.mk.inj (Option.some.inj h)
        exact ⟨by omega, by rw [utf8_two h2 h3]; rfl⟩
      · rw [if_neg h3] at h; cases h
  rw [if_neg h2] at h
  by_cases h4 : within 0xE0 0xEF b0 = true
  · rw [if_pos h4] at h
    rw [within_iff] at h4
    match s with
    | [] => cases h
    | [_] => cases h
    | b1 :: b2 :: t =>
      simp only at h
      generalize hl' : (if b0 = 0xE0 then 0xA0 else 0x80) = lo at h
      generalize hh' : (if b0 = 0xED then 0x9F else 0xBF) = hi at h
      split at h
      · rename_i h5
        rw [Bool.and_eq_true, within_iff, within_iff] at h5
        obtain ⟨⟨hl, hh⟩, h5⟩ := h5
        have h1 : 0x80 ≤ b1 ∧ b1 ≤ 0xBF := by
          split at hl' <;> split at hh' <;> omega
        have hlo : b0 = 0xE0 → 0xA0 ≤ b1 := by
          intro he; rw [if_pos he] at hl'; omega
        obtain ⟨rfl, rfl⟩ := Prod.mk.inj (Option.some.inj h)
        exact ⟨by omega, by rw [utf8_three h4 h1 h5 hlo]; rfl⟩
      · cases h
  rw [if_neg h4] at h
  by_cases h6 : within 0xF0 0xF4 b0 = true
  · rw [if_pos h6] at h
    rw [within_iff] at h6
    match s with
    | [] => cases h
    | [_] => cases h
    | [_, _] => cases h
    | b1 :: b2 :: b3 :: t =>
      simp only at h
      generalize hl' : (if b0 = 0xF0 then 0x90 else 0x80) = lo at h
      generalize hh' : (if b0 = 0xF4 then 0x8F else 0xBF) = hi at h
      split at h
      · rename_i h5
        rw [Bool.and_eq_true, Bool.and_eq_true, within_iff, within_iff, within_iff] at h5
        obtain ⟨⟨⟨hl, hh⟩, h5⟩, h7⟩ := h5
        have h1 : 0x80 ≤ b1 ∧ b1 ≤ 0xBF := by
          split at hl' <;> split at hh' <;> omega
        have hlo : b0 = 0xF0 → 0x90 ≤ b1 := by
          intro he; rw [if_pos he] at hl'; omega
        have hhi : b0 = 0xF4 → b1 ≤ 0x8F := by
          intro he; rw [if_pos he] at hh'; omega
        obtain ⟨rfl, rfl⟩ := Prod.mk.inj (Option.some.inj h)
        refine ⟨?_, by rw [utf8_four h6 h1 h5 h7 hlo]; rfl⟩
        by_cases h8 : b0 = 0xF4
        · have := hhi h8; omega
        · omega
      · cases h
  rw [if_neg h6] at h
  cases h

theorem body_quoteRune (isPrint : Nat → Bool) (h0 : isPrint 0 = false) (r : Nat) (hr : r < 0x110000)
    (hq : r ≠ 34) (s : Bytes) : body 34 (quoteRune isPrint r ++ s) = (body 34 s).map (utf8 r ++ ·) := by
  have hu : r < 0x80 → utf8 r = [r] := by
    intro h; unfold utf8; rw [if_pos h]
  unfold quoteRune
  cases h : special r with
  | some b =>
    have hlt : r < 0x80 := by
      unfold special at h
      by_cases hlt : r < 0x80
      · exact hlt
      · rw [if_neg (by omega), if_neg (by omega), if_neg (by omega), if_neg (by omega), if_neg (by omega)] at h
        cases h
    simp only
    rw [body_special r hq b s h, hu hlt]
    rfl
  | none =>
    have hn := special_none h
    simp only
    split
    · rename_i hp
      refine body_bytes _ _ ?_
      intro b hb
      by_cases hlt : r < 0x80
      · rw [hu hlt, List.mem_singleton] at hb
        subst hb
        refine ⟨hq, hn.1, ?_, hn.2.2⟩
        intro he
        rw [he, h0] at hp
        cases hp
      · have := utf8_high (by omega) b hb
        omega
    · split
      · exact body_escape (q := 34) _ _ _ (by decide) (escape_U r s hr)
      · split
        · exact body_escape (q := 34) _ _ _ (by decide) (escape_u r s (by omega))
        · rw [hu (by omega)]
          exact body_octEscape r s (by omega)

theorem body_quoteRunes (isPrint : Nat → Bool) (h0 : isPrint 0 = false) (t : Bytes) :
    ∀ (k : Nat) (s : Bytes), s.length ≤ k → (∀ c ∈ s, c < 256) → 34 ∉ s →
      body 34 (quoteRunes isPrint s ++ t) = (body 34 t).map (s ++ ·) := by
  intro k
  induction k with
  | zero =>
    intro s hs _ _
    rw [List.length_eq_zero_iff.1 (Nat.le_zero.1 hs), quoteRunes]
    simp
  | succ k ih =>
    intro s hs hb hq
    match s with
    | [] => rw [quoteRunes]; simp
    | b0 :: s =>
      rw [List.length_cons] at hs
      rw [quoteRunes]
      cases hd : decodeRune b0 s with
      | none =>
        simp only
        rw [List.append_assoc, body_octEscape b0 _ (hb b0 List.mem_cons_self),
          ih s (by omega) (fun c hc => hb c (List.mem_cons_of_mem _ hc)) (fun h => hq (List.mem_cons_of_mem _ h)),
          Option.map_map]
        rfl
      | some p =>
        obtain ⟨r, n⟩ := p
        obtain ⟨hr, heq⟩ := decodeRune_spec b0 s r n hd
        simp only
        have hsub : ∀ c ∈ s.drop (n - 1), c ∈ b0 :: s := fun c hc => List.mem_cons_of_mem _ (List.mem_of_mem_drop hc)
        have hr34 : r ≠ 34 := by
          intro h
          refine hq ?_
          rw [heq, h]
          exact List.mem_append_left _ (by decide)
        rw [List.append_assoc, body_quoteRune isPrint h0 r hr hr34,
          ih (s.drop (n - 1)) (by rw [List.length_drop]; omega) (fun c hc => hb c (hsub c hc))
            (fun h => hq (hsub _ h)), Option.map_map]
        conv => rhs; rw [heq]
        congr 1
        funext x
        simp [Function.comp]

/-- **C32** (partial): the literal printed for a string value (any bytes, valid UTF-8 or not) without
a `"` denotes that value, whatever the printable runes are, as long as U+0000 is not printable.
Missing: values with a `"`, for which the property fails (`C32_quote_violated`). -/
theorem C32_string_partial (isPrint : Nat → Bool) (h0 : isPrint 0 = false) (s : Bytes)
    (hb : ∀ c ∈ s, c < 256) (hq : 34 ∉ s) : value (quotedString isPrint s) = some s := by
  unfold value quotedString
  simp only [List.cons_append]
  rw [if_pos (by decide), body_quoteRunes isPrint h0 [34] s.length s (Nat.le_refl _) hb hq, body_end]
  simp

example : value (quotedString (fun r => decide (32 ≤ r)) [0xC3, 0xA4, 10, 0xFF, 92, 0xF0, 0x9F, 0x98, 0x80])
    = some [0xC3, 0xA4, 10, 0xFF, 92, 0xF0, 0x9F, 0x98, 0x80] :=
  C32_string_partial _ (by decide) _ (by decide) (by decide)

/-- The code violates C32: a value with a `"` is printed as an unterminated literal, or as a literal
with another value. -/
theorem C32_quote_violated :
    value (quotedBytes [34]) = none ∧ value (quotedString (fun _ => true) [34]) = none ∧
    value (quotedBytes [34, 110]) = some [10] := by
  have h1 : quotedBytes [34] = [34, 92, 34] := by decide
  have h2 : quotedString (fun _ => true) [34] = [34, 92, 34] := by
    unfold quotedString
    rw [quoteRunes]
    have : decodeRune 34 [] = some (34, 1) := by decide
    rw [this]
    simp only [Nat.sub_self, List.drop_zero]
    rw [quoteRunes]
    decide
  have h3 : quotedBytes [34, 110] = [34, 92, 110, 34] := by decide
  have h4 : value [34, 92, 34] = none := by
    show body 34 [92, 34] = none
    rw [body_escape (q := 34) [34] [34] 1 (by decide) (by decide)]
    simp [body]
  have h5 : value [34, 92, 110, 34] = some [10] := by
    show body 34 [92, 110, 34] = some [10]
    rw [body_escape (q := 34) [110, 34] [10] 1 (by decide) (by decide)]
    simp [body_end]
  exact ⟨h1 ▸ h4, h2 ▸ h4, h3 ▸ h5⟩

/-- **C32** (part): the quoted form of bytes consists of printable ASCII characters, and bytes that are printable and need no
escape are written as they are. -/
theorem C32_printable (s : Bytes) (hb : ∀ c ∈ s, c < 256) :
    (∀ c ∈ quotedBytes s, 0x20 ≤ c ∧ c ≤ 0x7e) ∧
    ((∀ c ∈ s, 0x20 ≤ c ∧ c ≤ 0x7e ∧ c ≠ 34 ∧ c ≠ 92) → quotedBytes s = [34] ++ s ++ [34]) := by
  have key : ∀ c < 256, ∀ d ∈ quoteByte c, 0x20 ≤ d ∧ d ≤ 0x7e := by decide +kernel
  constructor
  · intro c hc
    unfold quotedBytes at hc
    rcases List.mem_append.1 hc with hc | hc
    · rcases List.mem_cons.1 hc with rfl | hc
      · decide
      · obtain ⟨x, hx, hc⟩ := List.mem_flatMap.1 hc
        exact key x (hb x hx) c hc
    · rw [List.mem_singleton] at hc
      subst hc; decide
  · intro h
    unfold quotedBytes
    have : s.flatMap quoteByte = s := by
      clear hb
      induction s with
      | nil => rfl
      | cons c s ih =>
        obtain ⟨h1, h2, h3, h4⟩ := h c List.mem_cons_self
        have hs : quoteByte c = [c] := by
          unfold quoteByte special
          rw [if_neg (by omega), if_neg (by omega), if_neg (by omega), if_neg h3, if_neg h4]
          simp only
          rw [if_pos ⟨h1, by omega⟩]
        rw [List.flatMap_cons, hs, ih (fun x hx => h x (List.mem_cons_of_mem _ hx))]
        rfl
    rw [this]
    rfl

example : quotedBytes [104, 105] = [34, 104, 105, 34] := by decide

end Verif.Quote
