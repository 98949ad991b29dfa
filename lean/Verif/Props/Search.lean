import Verif.Model.Search

/-!
# C13: position lookup
-/
namespace Verif.Search

/-- Tokens a cursor can be on: proto tokens of positive length that stand for something
other than punctuation. -/
def Eligible (t : Token) : Prop := t.proto = true ∧ 0 < t.len.toNat ∧ t.node = .other

/-- The token covers the position; the position right behind the token counts. -/
def Covers (t : Token) (p : Pos) : Prop :=
  t.line = p.line ∧ t.start.toNat ≤ p.char.toNat ∧ p.char.toNat ≤ t.start.toNat + t.len.toNat

/-- Document order. -/
def Before (a b : Token) : Prop :=
  a.line.toNat < b.line.toNat ∨ (a.line = b.line ∧ a.start.toNat ≤ b.start.toNat)

/-- The token ends within the range of 32-bit columns. -/
def Fits (t : Token) : Prop := t.start.toNat + t.len.toNat < 2 ^ 32

theorem not_less_before {a b : Token} (h : less b a = false) : Before a b := by
  simp only [less] at h
  split at h
  · rename_i hne
    have h' : ¬ b.line < a.line := by simpa using h
    rw [UInt32.lt_iff_toNat_lt] at h'
    have : a.line.toNat ≠ b.line.toNat := fun e => hne (UInt32.toNat_inj.mp e).symm
    exact Or.inl (by omega)
  · rename_i he
    have he' : b.line = a.line := by simpa using he
    have h' : ¬ b.start < a.start := by simpa using h
    rw [UInt32.lt_iff_toNat_lt] at h'
    exact Or.inr ⟨he'.symm, by omega⟩

theorem end_toNat {t : Token} (h : Fits t) :
    (t.start + t.len).toNat = t.start.toNat + t.len.toNat := by
  rw [UInt32.toNat_add]; exact Nat.mod_eq_of_lt h

/-- Characterisation on sorted lists, at the first element. -/
theorem findToken_spec (p : Pos) (ts : List Token) (hs : ts.Pairwise Before)
    (hf : ∀ t ∈ ts, Fits t) :
    (findToken p ts = none ∧ ∀ t ∈ ts, ¬ (Eligible t ∧ Covers t p)) ∨
    (∃ a t b, ts = a ++ t :: b ∧ findToken p ts = some t ∧ Eligible t ∧ Covers t p ∧
      ∀ x ∈ a, ¬ (Eligible x ∧ Covers x p)) := by
  induction ts with
  | nil => exact Or.inl ⟨rfl, by simp⟩
  | cons t ts ih =>
    obtain ⟨hs1, hs2⟩ := List.pairwise_cons.mp hs
    have hft := hf t List.mem_cons_self
    have skip (hn : ¬ (Eligible t ∧ Covers t p)) (he : findToken p (t :: ts) = findToken p ts) :
        (findToken p (t :: ts) = none ∧ ∀ x ∈ t :: ts, ¬ (Eligible x ∧ Covers x p)) ∨
        (∃ a x b, t :: ts = a ++ x :: b ∧ findToken p (t :: ts) = some x ∧ Eligible x ∧
          Covers x p ∧ ∀ y ∈ a, ¬ (Eligible y ∧ Covers y p)) := by
      rcases ih hs2 (fun x hx => hf x (List.mem_cons_of_mem _ hx)) with
        ⟨h1, h2⟩ | ⟨a, x, b, h1, h2, h3, h4, h5⟩
      · refine Or.inl ⟨by rw [he, h1], fun x hx => ?_⟩
        rcases List.mem_cons.mp hx with rfl | hx
        · exact hn
        · exact h2 x hx
      · refine Or.inr ⟨t :: a, x, b, by rw [h1]; rfl, by rw [he, h2], h3, h4, fun y hy => ?_⟩
        rcases List.mem_cons.mp hy with rfl | hy
        · exact hn
        · exact h5 y hy
    by_cases c1 : t.proto = false
    · exact skip (fun ⟨e, _⟩ => by simp [e.1] at c1) (by simp [findToken, c1])
    by_cases c2 : p.line ≠ t.line
    · by_cases c3 : p.line < t.line
      · refine Or.inl ⟨by simp [findToken, c1, c2, c3], fun x hx => ?_⟩
        rw [UInt32.lt_iff_toNat_lt] at c3
        rintro ⟨_, hl, _⟩
        have hl' : x.line.toNat = p.line.toNat := by rw [hl]
        rcases List.mem_cons.mp hx with rfl | hx
        · omega
        · rcases hs1 x hx with h | ⟨h, _⟩
          · omega
          · rw [← h] at hl'; omega
      · exact skip (fun ⟨_, e, _⟩ => c2 e.symm) (by simp [findToken, c1, c2, c3])
    have c2' : p.line = t.line := by simpa using c2
    by_cases c4 : t.len = 0
    · exact skip (fun ⟨e, _⟩ => by simp [Eligible, c4] at e) (by simp [findToken, c1, c2', c4])
    by_cases c5 : t.start + t.len < p.char
    · refine skip (fun ⟨_, e⟩ => ?_) (by simp [findToken, c1, c2', c4, c5])
      rw [UInt32.lt_iff_toNat_lt, end_toNat hft] at c5
      have := e.2.2
      omega
    by_cases c6 : p.char < t.start
    · refine Or.inl ⟨by simp [findToken, c1, c2', c4, c5, c6], fun x hx => ?_⟩
      rw [UInt32.lt_iff_toNat_lt] at c6
      rintro ⟨_, hl, hst, _⟩
      rcases List.mem_cons.mp hx with rfl | hx
      · omega
      · rcases hs1 x hx with h | ⟨_, h⟩
        · rw [hl, c2'] at h; omega
        · omega
    by_cases c7 : t.node = .none
    · exact skip (fun ⟨e, _⟩ => by simp [Eligible, c7] at e)
        (by simp [findToken, c1, c2', c4, c5, c6, c7])
    by_cases c8 : t.node = .rune
    · exact skip (fun ⟨e, _⟩ => by simp [Eligible, c8] at e)
        (by simp [findToken, c1, c2', c4, c5, c6, c8])
    refine Or.inr ⟨[], t, ts, rfl, by simp [findToken, c1, c2', c4, c5, c6, c7, c8], ?_, ?_, by simp⟩
    · refine ⟨by simpa using c1, ?_, ?_⟩
      · have : t.len.toNat ≠ 0 := fun e => c4 (UInt32.toNat_inj.mp (by simpa using e))
        omega
      · cases hn : t.node <;> simp_all
    · rw [UInt32.lt_iff_toNat_lt, end_toNat hft] at c5
      rw [UInt32.lt_iff_toNat_lt] at c6
      exact ⟨c2'.symm, by omega, by omega⟩

/-- C13: for tokens produced in any order and sorted as the server does, the lookup finds
a token exactly if an eligible one covers the position. -/
theorem C13_found_iff (items sorted : List Token) (p : Pos) (hs : SortSlice less items sorted)
    (hf : ∀ t ∈ items, Fits t) :
    (findToken p sorted).isSome ↔ ∃ t ∈ items, Eligible t ∧ Covers t p := by
  have hs' : sorted.Pairwise Before := hs.sorted.imp not_less_before
  have hf' : ∀ t ∈ sorted, Fits t := fun t ht => hf t (hs.perm.mem_iff.mp ht)
  rcases findToken_spec p sorted hs' hf' with ⟨h1, h2⟩ | ⟨a, x, b, h1, h2, h3, h4, _⟩
  · rw [h1]
    simp only [Option.isSome_none, Bool.false_eq_true, false_iff]
    rintro ⟨t, ht, h⟩
    exact h2 t (hs.perm.mem_iff.mpr ht) h
  · rw [h2]
    simp only [Option.isSome_some, true_iff]
    exact ⟨x, hs.perm.mem_iff.mp (by rw [h1]; simp), h3, h4⟩

/-- C13: the token found is eligible, covers the position, and no eligible token before
it in the sorted list does; so every other covering eligible token starts at the same
column or later. -/
theorem C13_first (items sorted : List Token) (p : Pos) (hs : SortSlice less items sorted)
    (hf : ∀ t ∈ items, Fits t) (t : Token) (ht : findToken p sorted = some t) :
    Eligible t ∧ Covers t p ∧
    (∃ a b, sorted = a ++ t :: b ∧ ∀ x ∈ a, ¬ (Eligible x ∧ Covers x p)) ∧
    (∀ x ∈ items, Eligible x → Covers x p → t.start.toNat ≤ x.start.toNat) := by
  have hs' : sorted.Pairwise Before := hs.sorted.imp not_less_before
  have hf' : ∀ t ∈ sorted, Fits t := fun t ht => hf t (hs.perm.mem_iff.mp ht)
  rcases findToken_spec p sorted hs' hf' with ⟨h1, _⟩ | ⟨a, x, b, h1, h2, h3, h4, h5⟩
  · rw [h1] at ht; cases ht
  · rw [h2] at ht
    obtain rfl := Option.some.inj ht
    refine ⟨h3, h4, ⟨a, b, h1, h5⟩, fun y hy hye hyc => ?_⟩
    have hy' := hs.perm.mem_iff.mpr hy
    rw [h1] at hy' hs'
    rcases List.mem_append.mp hy' with hy' | hy'
    · exact absurd ⟨hye, hyc⟩ (h5 y hy')
    · rcases List.mem_cons.mp hy' with rfl | hy'
      · exact Nat.le_refl _
      · have hp := (List.pairwise_append.mp hs').2.1
        rcases (List.pairwise_cons.mp hp).1 y hy' with h | ⟨_, h⟩
        · rw [h4.1, hyc.1] at h; omega
        · exact h

/-- Non-trivial case: three tokens on a line out of order, the cursor right behind the
first one; punctuation and an empty token are skipped. -/
example :
    let ts : List Token := [⟨true, 3, 9, 2, .other, 1⟩, ⟨true, 3, 4, 0, .other, 2⟩,
      ⟨true, 3, 4, 5, .other, 3⟩, ⟨true, 3, 4, 1, .rune, 4⟩]
    (∀ t ∈ ts, Fits t) ∧ SortSlice less ts (isort (fun a b => !less b a) ts) ∧
    (findToken ⟨3, 9⟩ (isort (fun a b => !less b a) ts)).map Token.ident = some 3 := by
  refine ⟨?_, ⟨isort_perm _ _, ?_⟩, by decide⟩
  · unfold Fits; decide
  · decide

end Verif.Search
