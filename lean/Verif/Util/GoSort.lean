import Verif.Util.Sort
/-!
The insertion sort that `sort.Slice` uses for at most 12 elements (Go standard library,
`insertionSort_func`): every element is moved to the left as long as it is less than its left neighbour.
-/
namespace Verif

/-- Move `x` into the sorted part, given in reverse order. -/
def goInsert {α : Type} (less : α → α → Bool) (x : α) : List α → List α
  | [] => [x]
  | p :: rest => if less x p then p :: goInsert less x rest else x :: p :: rest

/-- The loop over the elements; `acc` is the sorted part in reverse order. -/
def goSortLoop {α : Type} (less : α → α → Bool) : List α → List α → List α
  | acc, [] => acc
  | acc, x :: xs => goSortLoop less (goInsert less x acc) xs

/-- The insertion sort. -/
def goInsertionSort {α : Type} (less : α → α → Bool) (l : List α) : List α := (goSortLoop less [] l).reverse

theorem goInsert_perm {α : Type} (less : α → α → Bool) (x : α) (l : List α) : (goInsert less x l).Perm (x :: l) := by
  induction l with
  | nil => exact .refl _
  | cons p rest ih =>
    unfold goInsert
    split
    · exact (ih.cons p).trans (.swap x p rest)
    · exact .refl _

theorem goSortLoop_perm {α : Type} (less : α → α → Bool) (l : List α) : ∀ acc, (goSortLoop less acc l).Perm (acc ++ l) := by
  induction l with
  | nil => intro acc; rw [List.append_nil]; exact .refl _
  | cons x xs ih =>
    intro acc
    unfold goSortLoop
    refine (ih _).trans ?_
    refine ((goInsert_perm less x acc).append_right xs).trans ?_
    exact List.perm_middle.symm

theorem goInsertionSort_perm {α : Type} (less : α → α → Bool) (l : List α) : (goInsertionSort less l).Perm l :=
  (List.reverse_perm _).trans (goSortLoop_perm less l [])

/-- The sort puts a list in the order of `key`, a relation that is decided by `less` up to elements that
are equal in it. -/
theorem goInsert_sorted {α : Type} (less : α → α → Bool) (lt : α → α → Prop)
    (h1 : ∀ a b, lt a b → less a b = true) (h2 : ∀ a b, less a b = true → ¬ lt b a)
    (h3 : ∀ a b c, ¬ lt b a → ¬ lt c b → ¬ lt c a)
    (x : α) (l : List α) (hl : l.Pairwise (fun a b => ¬ lt a b)) : (goInsert less x l).Pairwise (fun a b => ¬ lt a b) := by
  induction l with
  | nil => simp [goInsert]
  | cons p rest ih =>
    rw [List.pairwise_cons] at hl
    unfold goInsert
    split
    · rename_i h
      rw [List.pairwise_cons]
      refine ⟨?_, ih hl.2⟩
      intro b hb
      rcases List.mem_cons.1 ((goInsert_perm less x rest).mem_iff.1 hb) with rfl | hb
      · exact h2 _ _ h
      · exact hl.1 b hb
    · rename_i h
      have hx : ¬ lt x p := fun hlt => h (h1 _ _ hlt)
      rw [List.pairwise_cons]
      refine ⟨?_, List.pairwise_cons.2 hl⟩
      intro b hb
      rcases List.mem_cons.1 hb with rfl | hb
      · exact hx
      · exact h3 b p x (hl.1 b hb) hx

theorem goInsertionSort_sorted {α : Type} (less : α → α → Bool) (lt : α → α → Prop)
    (h1 : ∀ a b, lt a b → less a b = true) (h2 : ∀ a b, less a b = true → ¬ lt b a)
    (h3 : ∀ a b c, ¬ lt b a → ¬ lt c b → ¬ lt c a) (l : List α) :
    (goInsertionSort less l).Pairwise (fun a b => ¬ lt b a) := by
  unfold goInsertionSort
  rw [List.pairwise_reverse]
  have : ∀ (l acc : List α), acc.Pairwise (fun a b => ¬ lt a b) →
      (goSortLoop less acc l).Pairwise (fun a b => ¬ lt a b) := by
    intro l
    induction l with
    | nil => intro acc h; exact h
    | cons x xs ih => intro acc h; exact ih _ (goInsert_sorted less lt h1 h2 h3 x acc h)
  exact this l [] List.Pairwise.nil

/-- The sort does not change the order of elements none of which is less than another. -/
theorem goInsertionSort_stable {α : Type} (less : α → α → Bool) (p : α → Bool)
    (hp : ∀ a b, p a = true → p b = true → less a b = false) (l : List α) :
    (goInsertionSort less l).filter p = l.filter p := by
  have key : ∀ (x : α) (l : List α), (goInsert less x l).filter p = (x :: l).filter p := by
    intro x l
    induction l with
    | nil => rfl
    | cons q rest ih =>
      unfold goInsert
      split
      · rename_i h
        cases hx : p x with
        | false => simp only [List.filter_cons, ih, hx]; simp
        | true =>
          cases hq : p q with
          | false => simp [ih, hx, hq]
          | true => rw [hp x q hx hq] at h; cases h
      · rfl
  have loop : ∀ (l acc : List α), (goSortLoop less acc l).filter p = (l.reverse ++ acc).filter p := by
    intro l
    induction l with
    | nil => intro acc; rfl
    | cons x xs ih =>
      intro acc
      unfold goSortLoop
      rw [ih, List.filter_append, key, List.reverse_cons, List.append_assoc, List.filter_append]
      rfl
  unfold goInsertionSort
  rw [List.filter_reverse, loop, List.append_nil, ← List.filter_reverse, List.reverse_reverse]

end Verif
