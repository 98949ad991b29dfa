import Verif.Util.Str

/-!
# Decimal notation of natural numbers (Go's `%d` and `strconv.Itoa`)
-/
namespace Verif

/-- The character of a digit. -/
def digitChar (d : Nat) : Char := Char.ofNat (48 + d)

/-- Decimal digits of a number, most significant first. -/
def dec (n : Nat) : Str := if n < 10 then [digitChar n] else dec (n / 10) ++ [digitChar (n % 10)]
termination_by n

/-- `c` is an ASCII digit. -/
def isDigit (c : Char) : Bool := decide (48 ≤ c.toNat) && decide (c.toNat ≤ 57)

/-- The number a list of digits stands for. -/
def decVal (s : Str) : Nat := s.foldl (fun a c => 10 * a + (c.toNat - 48)) 0

theorem digitChar_toNat : ∀ d < 10, (digitChar d).toNat = 48 + d := by decide

theorem dec_pos (n : Nat) : 0 < (dec n).length := by
  rw [dec]; split <;> simp

theorem dec_ne_nil (n : Nat) : dec n ≠ [] := List.length_pos_iff.mp (dec_pos n)

theorem dec_digits (n : Nat) : ∀ c ∈ dec n, isDigit c = true := by
  induction n using Nat.strongRecOn with
  | ind n ih =>
    rw [dec]
    split
    · rename_i h
      simp [isDigit, digitChar_toNat n h]; omega
    · intro c hc
      rcases List.mem_append.mp hc with h | h
      · exact ih (n / 10) (by omega) c h
      · have hm : n % 10 < 10 := Nat.mod_lt _ (by decide)
        simp only [List.mem_singleton] at h
        subst h
        simp [isDigit, digitChar_toNat _ hm]; omega

theorem decVal_dec (n : Nat) : decVal (dec n) = n := by
  induction n using Nat.strongRecOn with
  | ind n ih =>
    rw [dec]
    split
    · rename_i h
      simp [decVal, digitChar_toNat n h]
    · have h1 := ih (n / 10) (by omega)
      have hm : n % 10 < 10 := Nat.mod_lt _ (by decide)
      unfold decVal at h1 ⊢
      rw [List.foldl_append, h1]
      simp [digitChar_toNat _ hm]
      omega

/-- There are no leading zeros. -/
theorem dec_no_zero (n : Nat) (h : 0 < n) : (dec n).head? ≠ some '0' := by
  induction n using Nat.strongRecOn with
  | ind n ih =>
    rw [dec]
    split
    · rename_i hn
      intro e
      have e := congrArg Char.toNat (Option.some.inj e)
      rw [digitChar_toNat n hn] at e
      have : ('0' : Char).toNat = 48 := rfl
      omega
    · have := ih (n / 10) (by omega) (by omega)
      obtain ⟨c, t, e⟩ := List.exists_cons_of_ne_nil (dec_ne_nil (n / 10))
      rw [e] at this ⊢
      exact this

theorem dec_inj {m n : Nat} (h : dec m = dec n) : m = n := by
  rw [← decVal_dec m, ← decVal_dec n, h]

end Verif
