/-!
A stable insertion sort by a Boolean `le`; used as the model of Go's stable sorts.
It is structurally recursive, so that concrete cases can be evaluated.
-/
namespace Verif

/-- Insert before the first element that is not smaller. -/
def insertBy {α : Type} (le : α → α → Bool) (a : α) : List α → List α
  | [] => [a]
  | b :: t => if le a b then a :: b :: t else b :: insertBy le a t

/-- Stable sort. -/
def isort {α : Type} (le : α → α → Bool) : List α → List α
  | [] => []
  | a :: t => insertBy le a (isort le t)

theorem insertBy_perm {α : Type} (le : α → α → Bool) (a : α) (l : List α) :
    (insertBy le a l).Perm (a :: l) := by
  induction l with
  | nil => exact List.Perm.refl _
  | cons b t ih =>
    simp only [insertBy]
    split
    · exact List.Perm.refl _
    · exact (ih.cons b).trans (List.Perm.swap a b t)

theorem isort_perm {α : Type} (le : α → α → Bool) (l : List α) : (isort le l).Perm l := by
  induction l with
  | nil => exact List.Perm.refl _
  | cons a t ih => exact (insertBy_perm le a _).trans (ih.cons a)

theorem insertBy_pairwise {α : Type} {le : α → α → Bool}
    (total : ∀ a b, le a b = true ∨ le b a = true)
    (trans : ∀ a b c, le a b = true → le b c = true → le a c = true)
    (a : α) (l : List α) (h : l.Pairwise (fun x y => le x y = true)) :
    (insertBy le a l).Pairwise (fun x y => le x y = true) := by
  induction l with
  | nil => simp [insertBy]
  | cons b t ih =>
    simp only [insertBy]
    obtain ⟨h1, h2⟩ := List.pairwise_cons.mp h
    split
    · rename_i hab
      refine List.pairwise_cons.mpr ⟨?_, h⟩
      intro x hx
      rcases List.mem_cons.mp hx with rfl | hx
      · exact hab
      · exact trans _ _ _ hab (h1 x hx)
    · rename_i hab
      refine List.pairwise_cons.mpr ⟨?_, ih h2⟩
      intro x hx
      have hx' := (insertBy_perm le a t).mem_iff.mp hx
      rcases List.mem_cons.mp hx' with rfl | hx'
      · rcases total x b with h | h
        · exact absurd h hab
        · exact h
      · exact h1 x hx'

theorem isort_pairwise {α : Type} {le : α → α → Bool}
    (total : ∀ a b, le a b = true ∨ le b a = true)
    (trans : ∀ a b c, le a b = true → le b c = true → le a c = true)
    (l : List α) : (isort le l).Pairwise (fun x y => le x y = true) := by
  induction l with
  | nil => simp [isort]
  | cons a t ih => exact insertBy_pairwise total trans a _ ih

/-- On an already sorted list the sort does nothing. -/
theorem isort_of_pairwise {α : Type} {le : α → α → Bool} (l : List α)
    (h : l.Pairwise (fun x y => le x y = true)) : isort le l = l := by
  induction l with
  | nil => rfl
  | cons a t ih =>
    obtain ⟨h1, h2⟩ := List.pairwise_cons.mp h
    simp only [isort, ih h2]
    cases t with
    | nil => rfl
    | cons b t => simp [insertBy, h1 b (by simp)]

/-- Stability: elements of any class on which `le` is always true keep their order. -/
theorem isort_stable {α : Type} {le : α → α → Bool} (p : α → Bool)
    (hp : ∀ a b, p a = true → p b = true → le a b = true) (l : List α) :
    (isort le l).filter p = l.filter p := by
  induction l with
  | nil => rfl
  | cons a t ih =>
    have key : ∀ l : List α, (insertBy le a l).filter p = (a :: l).filter p := by
      intro l
      induction l with
      | nil => rfl
      | cons b t ih =>
        simp only [insertBy]
        split
        · rfl
        · rename_i hab
          cases ha : p a with
          | false => simp only [List.filter_cons, ih, ha]; simp
          | true =>
            cases hb : p b with
            | false => simp [ih, ha, hb]
            | true => exact absurd (hp a b ha hb) hab
    simp only [isort]
    rw [key, List.filter_cons, ih, List.filter_cons]

/-- What `sort.Slice(xs, less)` guarantees (trusted; the sort is not stable, so
the result is not a function of the input): `ys` is a permutation of `xs` and no
element is less than an earlier one. -/
structure SortSlice {α : Type} (less : α → α → Bool) (xs ys : List α) : Prop where
  perm : ys.Perm xs
  sorted : ys.Pairwise (fun a b => less b a = false)

end Verif
