/-!
Go's `sort.Search`.
-/
namespace Verif

/-- The loop of `sort.Search`; `fuel` bounds the number of rounds. -/
def searchLoop (f : Nat → Bool) : Nat → Nat → Nat → Nat
  | 0, i, _ => i
  | fuel + 1, i, j =>
    if i < j then
      if f ((i + j) / 2) then searchLoop f fuel i ((i + j) / 2)
      else searchLoop f fuel ((i + j) / 2 + 1) j
    else i

/-- `sort.Search(n, f)`. -/
def sortSearch (n : Nat) (f : Nat → Bool) : Nat := searchLoop f n 0 n

theorem searchLoop_spec (f : Nat → Bool) (n : Nat)
    (mono : ∀ a b, a ≤ b → b < n → f a = true → f b = true) (fuel i j : Nat)
    (hf : j - i ≤ fuel) (hij : i ≤ j) (hj : j ≤ n)
    (lo : ∀ x < i, f x = false) (hi : ∀ x, j ≤ x → x < n → f x = true) :
    searchLoop f fuel i j ≤ n ∧ (∀ x < searchLoop f fuel i j, f x = false) ∧
      ∀ x, searchLoop f fuel i j ≤ x → x < n → f x = true := by
  induction fuel generalizing i j with
  | zero =>
    simp only [searchLoop]
    have : i = j := by omega
    subst this
    exact ⟨hj, lo, hi⟩
  | succ fuel ih =>
    simp only [searchLoop]
    split
    · rename_i hlt
      split
      · rename_i hm
        refine ih i _ (by omega) (by omega) (by omega) lo (fun x hx hxn => ?_)
        exact mono _ x hx hxn hm
      · rename_i hm
        refine ih _ j (by omega) (by omega) hj (fun x hx => ?_) hi
        cases hfx : f x with
        | false => rfl
        | true => exact absurd (mono x ((i + j) / 2) (by omega) (by omega) hfx) hm
    · have : i = j := by omega
      subst this
      exact ⟨hj, lo, hi⟩

theorem sortSearch_spec (f : Nat → Bool) (n : Nat)
    (mono : ∀ a b, a ≤ b → b < n → f a = true → f b = true) :
    sortSearch n f ≤ n ∧ (∀ x < sortSearch n f, f x = false) ∧
      ∀ x, sortSearch n f ≤ x → x < n → f x = true :=
  searchLoop_spec f n mono n 0 n (by omega) (by omega) (Nat.le_refl _)
    (fun x hx => absurd hx (by omega)) (fun x h1 h2 => absurd h2 (by omega))

end Verif
