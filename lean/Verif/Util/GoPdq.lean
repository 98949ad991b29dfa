import Verif.Util.GoSort
/-!
`sort.Slice` of the Go standard library (`pdqsort_func` in sort/zsortfunc.go, Go 1.19 and later) for short slices: the insertion sort for
at most 12 elements; for 13 to 49 elements, the first partition, if both parts have at most 12 elements. The result is `none` for slices
that take another way; they are not modelled.
-/
namespace Verif

/-- `data.Less(i, j)` for indices. -/
def lessAt {α : Type} (less : α → α → Bool) (l : List α) (i j : Nat) : Bool :=
  match l[i]?, l[j]? with
  | some x, some y => less x y
  | _, _ => false

/-- `data.Swap(i, j)`. -/
def swapAt {α : Type} (l : List α) (i j : Nat) : List α :=
  match l[i]?, l[j]? with
  | some x, some y => (l.set i y).set j x
  | _, _ => l

/-- `for i <= j && data.Less(i, a) { i++ }` with `a = 0`. -/
def scanUp {α : Type} (less : α → α → Bool) (l : List α) : Nat → Nat → Nat → Nat
  | 0, i, _ => i
  | n + 1, i, j => if i ≤ j && lessAt less l i 0 then scanUp less l n (i + 1) j else i

/-- `for i <= j && !data.Less(j, a) { j-- }` with `a = 0`; `i` is at least 1. -/
def scanDown {α : Type} (less : α → α → Bool) (l : List α) : Nat → Nat → Nat → Nat
  | 0, _, j => j
  | n + 1, i, j => if i ≤ j && !lessAt less l j 0 then scanDown less l n i (j - 1) else j

/-- The loop of `partition_func`. -/
def partitionLoop {α : Type} (less : α → α → Bool) : Nat → List α → Nat → Nat → List α × Nat
  | 0, l, _, j => (l, j)
  | n + 1, l, i, j =>
    let i := scanUp less l l.length i j
    let j := scanDown less l l.length i j
    if i > j then (l, j) else partitionLoop less n (swapAt l i j) (i + 1) (j - 1)

/-- `partition_func` of the whole slice: the new slice and the place of the pivot. -/
def partition {α : Type} (less : α → α → Bool) (l : List α) (pivot : Nat) : List α × Nat :=
  let l := swapAt l 0 pivot
  let (l, j) := partitionLoop less l.length l 1 (l.length - 1)
  (swapAt l j 0, j)

/-- `order2_func`: the indices in order, and how many swaps there have been. -/
def order2 {α : Type} (less : α → α → Bool) (l : List α) (a b swaps : Nat) : Nat × Nat × Nat :=
  if lessAt less l b a then (b, a, swaps + 1) else (a, b, swaps)

/-- `choosePivot_func` for 8 to 49 elements: the pivot and whether it gives the hint that the slice is in order. -/
def choosePivot {α : Type} (less : α → α → Bool) (l : List α) : Nat × Bool :=
  let q := l.length / 4
  let (a, b, s) := order2 less l q (q * 2) 0
  let (b, _, s) := order2 less l b (q * 3) s
  let (_, b, s) := order2 less l a b s
  (b, s = 0)

/-- Whether `partialInsertionSort_func` finds nothing to do. -/
def inOrder {α : Type} (less : α → α → Bool) : List α → Bool
  | a :: b :: l => !less b a && inOrder less (b :: l)
  | _ => true

/-- `sort.Slice` for the slices described above. -/
def goSlice {α : Type} (less : α → α → Bool) (l : List α) : Option (List α) :=
  if l.length ≤ 12 then some (goInsertionSort less l)
  else if 50 ≤ l.length then none
  else
    let (pivot, hint) := choosePivot less l
    if hint && inOrder less l then some l
    else
      let (l', mid) := partition less l pivot
      if mid ≤ 12 ∧ l.length - (mid + 1) ≤ 12 then
        some (goInsertionSort less (l'.take mid) ++ (l'.drop mid).take 1 ++ goInsertionSort less (l'.drop (mid + 1)))
      else none

end Verif
