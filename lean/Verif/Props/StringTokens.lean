import Verif.Model.StringTokens
/-!
# Properties of the semantic tokens of a string literal with escapes: C65
-/
namespace Verif.StringTokens

/-- Specification: the tokens cover the columns from `a` up to `b`, each column once, in order. -/
def Tiles : List Tok → Nat → Nat → Prop
  | [], a, b => a = b
  | t :: ts, a, b => t.start = a ∧ 0 < t.len ∧ Tiles ts (a + t.len) b

/-- Specification: matches of a regular expression that does not match the empty text: in order, without
overlaps, within the text. -/
def Matches (i raw : Nat) : List (Nat × Nat) → Prop
  | [] => i ≤ raw
  | m :: ms => i ≤ m.1 ∧ m.1 < m.2 ∧ Matches m.2 raw ms

/-- Specification: where the last match ends. -/
def lastEnd (ms : List (Nat × Nat)) : Nat := (ms.getLast?.map (·.2)).getD 0

theorem tiles_append {l₁ l₂ : List Tok} {a b c : Nat} (h₁ : Tiles l₁ a b) (h₂ : Tiles l₂ b c) : Tiles (l₁ ++ l₂) a c := by
  induction l₁ generalizing a with
  | nil => cases h₁; exact h₂
  | cons t ts ih => exact ⟨h₁.1, h₁.2.1, ih h₁.2.2⟩

theorem tiles_unique {l : List Tok} {a b c : Nat} (h₁ : Tiles l a b) (h₂ : Tiles l a c) : b = c := by
  induction l generalizing a with
  | nil => cases h₁; exact h₂
  | cons t ts ih => exact ih h₁.2.2 h₂.2.2

theorem loop_spec (start raw : Nat) (ms : List (Nat × Nat)) : ∀ i, Matches i raw ms →
    Tiles (loop start i ms).1 (start + i) (start + (loop start i ms).2) ∧
    (loop start i ms).2 = (ms.getLast?.map (·.2)).getD i ∧ (loop start i ms).2 ≤ raw ∧
    ∀ m ∈ ms, (⟨start + m.1, m.2 - m.1, true⟩ : Tok) ∈ (loop start i ms).1 := by
  induction ms with
  | nil => intro i h; exact ⟨rfl, rfl, h, by simp⟩
  | cons m ms ih =>
    intro i h
    obtain ⟨h1, h2, h3⟩ := h
    obtain ⟨k1, k2, k3, k4⟩ := ih m.2 h3
    have hp : Tiles (plain start i m.1).1 (start + i) (start + m.1) ∧ (plain start i m.1).2 = m.1 := by
      unfold plain
      by_cases hi : i < m.1
      · rw [if_pos hi]
        refine ⟨⟨rfl, ?_, ?_⟩, rfl⟩
        · show 0 < m.1 - i; omega
        · show start + i + (m.1 - i) = start + m.1; omega
      · rw [if_neg hi]
        have : i = m.1 := by omega
        exact ⟨by rw [this]; rfl, this⟩
    have he : escaped start (plain start i m.1).2 m.1 m.2 = ([⟨start + m.1, m.2 - m.1, true⟩], m.2) := by
      unfold escaped; rw [hp.2, if_pos rfl]
    have hl : loop start i (m :: ms) =
        ((plain start i m.1).1 ++ [⟨start + m.1, m.2 - m.1, true⟩] ++ (loop start m.2 ms).1, (loop start m.2 ms).2) := by
      rw [loop, he]
    rw [hl]
    refine ⟨?_, ?_, k3, ?_⟩
    · refine tiles_append (tiles_append hp.1 ⟨rfl, ?_, ?_⟩) k1
      · show 0 < m.2 - m.1; omega
      · show start + m.1 + (m.2 - m.1) = start + m.2; omega
    · simp only
      rw [k2]
      cases ms with
      | nil => simp
      | cons x xs =>
        rw [List.getLast?_cons_cons]
        obtain ⟨y, hy⟩ : ∃ y, (x :: xs).getLast? = some y := ⟨_, List.getLast?_eq_some_getLast (by simp)⟩
        rw [hy]
        rfl
    · intro x hx
      rcases List.mem_cons.1 hx with rfl | hx
      · simp
      · exact List.mem_append_right _ (k4 x hx)

/-- C65: the tokens start at the opening quote, follow each other without gaps or overlaps, and each escape is a
token of its own at the right place. -/
theorem C65_contiguous (col raw : Nat) (ms : List (Nat × Nat)) (h : Matches 0 raw ms) :
    (∃ e, Tiles (tokens col raw ms) col e) ∧ ∀ m ∈ ms, (⟨col + 1 + m.1, m.2 - m.1, true⟩ : Tok) ∈ tokens col raw ms := by
  obtain ⟨k1, k2, k3, k4⟩ := loop_spec (col + 1) raw ms 0 h
  unfold tokens
  simp only
  constructor
  · refine ⟨col + 1 + (trailing (col + 1) (loop (col + 1) 0 ms).2 raw).2 + 1, rfl, Nat.one_pos, ?_⟩
    refine tiles_append (tiles_append k1 (b := col + 1 + (loop (col + 1) 0 ms).2)
      (c := col + 1 + (trailing (col + 1) (loop (col + 1) 0 ms).2 raw).2) ?_) ⟨rfl, Nat.one_pos, rfl⟩
    unfold trailing
    split
    · refine ⟨rfl, ?_, ?_⟩
      · show 0 < raw - 1 - _; omega
      · show col + 1 + _ + (raw - 1 - _) = col + 1 + (raw - 1); omega
    · rfl
  · intro m hm
    exact List.mem_cons_of_mem _ (List.mem_append_left _ (List.mem_append_left _ (k4 m hm)))

theorem loop_escapes (start : Nat) (ms : List (Nat × Nat)) : ∀ i, ∀ t ∈ (loop start i ms).1, t.escape = true →
    ∃ m ∈ ms, t = ⟨start + m.1, m.2 - m.1, true⟩ := by
  induction ms with
  | nil => intro i t ht; cases ht
  | cons m ms ih =>
    intro i t ht he
    simp only [loop, List.mem_append] at ht
    rcases ht with (ht | ht) | ht
    · unfold plain at ht
      split at ht
      · obtain rfl := List.mem_singleton.1 ht; cases he
      · cases ht
    · unfold escaped at ht
      split at ht
      · rename_i e
        obtain rfl := List.mem_singleton.1 ht
        exact ⟨m, List.mem_cons_self .., by rw [e]⟩
      · cases ht
    · obtain ⟨m', hm', e⟩ := ih _ t ht he
      exact ⟨m', List.mem_cons_of_mem _ hm', e⟩

/-- C65: the tokens of the type for escapes are exactly the escapes; the quotes and the text between them are not. -/
theorem C65_escapes (col raw : Nat) (ms : List (Nat × Nat)) (h : Matches 0 raw ms) (t : Tok) :
    t ∈ tokens col raw ms ∧ t.escape = true ↔ ∃ m ∈ ms, t = ⟨col + 1 + m.1, m.2 - m.1, true⟩ := by
  constructor
  · rintro ⟨ht, he⟩
    simp only [tokens, List.mem_cons, List.mem_append, List.not_mem_nil, or_false] at ht
    rcases ht with rfl | (ht | ht) | rfl
    · cases he
    · exact loop_escapes _ ms 0 t ht he
    · unfold trailing at ht
      split at ht
      · obtain rfl := List.mem_singleton.1 ht; cases he
      · cases ht
    · cases he
  · rintro ⟨m, hm, rfl⟩
    exact ⟨(C65_contiguous col raw ms h).2 m hm, rfl⟩

/-- C65: the column up to which the tokens reach. Of text after the last escape the last character has no token, and if
there are not more than two characters after it, none of them has. -/
theorem C65_reach (col raw : Nat) (ms : List (Nat × Nat)) (h : Matches 0 raw ms) (e : Nat) :
    Tiles (tokens col raw ms) col e ↔ e = col + 2 + (if lastEnd ms + 2 < raw then raw - 1 else lastEnd ms) := by
  obtain ⟨k1, k2, k3, k4⟩ := loop_spec (col + 1) raw ms 0 h
  have hle : lastEnd ms = (loop (col + 1) 0 ms).2 := by unfold lastEnd; rw [k2]
  have hend : Tiles (tokens col raw ms) col (col + 1 + (trailing (col + 1) (loop (col + 1) 0 ms).2 raw).2 + 1) := by
    unfold tokens
    simp only
    refine ⟨rfl, Nat.one_pos, ?_⟩
    refine tiles_append (tiles_append k1 (b := col + 1 + (loop (col + 1) 0 ms).2)
      (c := col + 1 + (trailing (col + 1) (loop (col + 1) 0 ms).2 raw).2) ?_) ⟨rfl, Nat.one_pos, rfl⟩
    unfold trailing
    split
    · refine ⟨rfl, ?_, ?_⟩
      · show 0 < raw - 1 - _; omega
      · show col + 1 + _ + (raw - 1 - _) = col + 1 + (raw - 1); omega
    · rfl
  rw [← hle] at hend
  have he : col + 1 + (trailing (col + 1) (lastEnd ms) raw).2 + 1 =
      col + 2 + (if lastEnd ms + 2 < raw then raw - 1 else lastEnd ms) := by
    unfold trailing
    by_cases hc : lastEnd ms + 2 < raw
    · rw [if_pos (by omega), if_pos hc]; simp only; omega
    · rw [if_neg (by omega), if_neg hc]; omega
  rw [he] at hend
  exact ⟨fun ht => tiles_unique ht hend, fun e' => e' ▸ hend⟩

/-- C65 (partial): the tokens cover the whole literal, quotes included, exactly when it ends with an escape.
Missing: literals with text after the last escape, see `C65_violated`. -/
theorem C65_partial (col raw : Nat) (ms : List (Nat × Nat)) (h : Matches 0 raw ms) :
    Tiles (tokens col raw ms) col (col + raw + 2) ↔ lastEnd ms = raw := by
  obtain ⟨k1, k2, k3, k4⟩ := loop_spec (col + 1) raw ms 0 h
  have hend : Tiles (tokens col raw ms) col (col + 1 + (trailing (col + 1) (loop (col + 1) 0 ms).2 raw).2 + 1) := by
    unfold tokens
    simp only
    refine ⟨rfl, Nat.one_pos, ?_⟩
    refine tiles_append (tiles_append k1 (b := col + 1 + (loop (col + 1) 0 ms).2)
      (c := col + 1 + (trailing (col + 1) (loop (col + 1) 0 ms).2 raw).2) ?_) ⟨rfl, Nat.one_pos, rfl⟩
    unfold trailing
    split
    · refine ⟨rfl, ?_, ?_⟩
      · show 0 < raw - 1 - _; omega
      · show col + 1 + _ + (raw - 1 - _) = col + 1 + (raw - 1); omega
    · rfl
  have hle : lastEnd ms = (loop (col + 1) 0 ms).2 := by unfold lastEnd; rw [k2]
  rw [hle]
  generalize (loop (col + 1) 0 ms).2 = i at hend k3
  unfold trailing at hend
  constructor
  · intro ht
    have := tiles_unique ht hend
    split at this
    · simp only at this; omega
    · simp only at this; omega
  · intro hi
    rw [if_neg (by omega)] at hend
    simp only at hend
    rw [hi, show col + 1 + raw + 1 = col + raw + 2 by omega] at hend
    exact hend

/-- C65 fails: `"\nabc"`: the token of the closing quote is one column too early, at the `c`. -/
theorem C65_violated : ∃ (col raw : Nat) (ms : List (Nat × Nat)), Matches 0 raw ms ∧ ¬ Tiles (tokens col raw ms) col (col + raw + 2) := by
  refine ⟨0, 5, [(0, 2)], by unfold Matches; simp [Matches], ?_⟩
  rw [C65_partial 0 5 [(0, 2)] (by unfold Matches; simp [Matches])]
  decide

example : tokens 0 5 [(0, 2)] = [⟨0, 1, false⟩, ⟨1, 2, true⟩, ⟨3, 2, false⟩, ⟨5, 1, false⟩] := by decide
/-- With two characters after the escape they have no token. -/
example : tokens 0 4 [(0, 2)] = [⟨0, 1, false⟩, ⟨1, 2, true⟩, ⟨3, 1, false⟩] := by decide
/-- `"ab\n\t"`: all columns are covered. -/
example : tokens 7 6 [(2, 4), (4, 6)] = [⟨7, 1, false⟩, ⟨8, 2, false⟩, ⟨10, 2, true⟩, ⟨12, 2, true⟩, ⟨14, 1, false⟩] := by decide
example : Matches 0 6 [(2, 4), (4, 6)] := by simp [Matches]

end Verif.StringTokens
