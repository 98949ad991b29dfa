import Verif.Lemmas.PrintOrder

/-!
# C76: the order of the printed elements
-/
namespace Verif.PrintOrder

/-- The elements `l` are elements of the scope, each with the address the printer gives it. -/
def Elements (scope : Scope) (l : List Elem) : Prop :=
  ∀ e ∈ l, ∃ i, elemOf scope i e.val = some e

/-- C76. The elements of a scope that have source locations are printed in the documented order:
package, imports by name, builtin options, custom options, then everything else by the list of
the descriptor it is in, numbered elements by number; elements that this does not tell apart
keep their order. `sort.Stable` is a stable sort.

Full statement: this for all descriptors. Missing: descriptors with incomplete source
information, see `C76_mixed_violated` and `C76_bare_partial`. -/
theorem C76_located_partial (scope : Scope) (info : List Int → Option (List Int)) (pre : List Int)
    (l : List Elem) (hl : Elements scope l) (hloc : ∀ e ∈ l, Free scope e ∨ Located scope info pre e) :
    let out := isort (fun a b => !printLess scope info pre b a) l
    out.Perm l ∧ out.Pairwise (fun a b => key scope a ≤ key scope b) ∧
      ∀ k, out.filter (fun e => key scope e == k) = l.filter (fun e => key scope e == k) := by
  have hiff : ∀ a ∈ l, ∀ b ∈ l, (!printLess scope info pre b a) = decide (key scope a ≤ key scope b) := by
    intro a ha b hb
    obtain ⟨i, hi⟩ := hl a ha
    obtain ⟨j, hj⟩ := hl b hb
    have := printLess_iff hj hi (hloc b hb) (hloc a ha)
    by_cases h : key scope b < key scope a
    · rw [this.mpr h]
      simp [not_le.mpr h]
    · rw [Bool.eq_false_iff.mpr (fun h' => h (this.mp h'))]
      simp [not_lt.mp h]
  intro out
  have hout : out = isort (fun a b => decide (key scope a ≤ key scope b)) l := isort_congr l hiff
  rw [hout]
  refine ⟨isort_perm _ l, ?_, ?_⟩
  · have := isort_pairwise (le := fun a b => decide (key scope a ≤ key scope b))
      (fun a b => by simpa using le_total (key scope a) (key scope b))
      (fun a b c h1 h2 => by
        simp only [decide_eq_true_eq] at h1 h2 ⊢
        exact le_trans h1 h2) l
    exact this.imp (fun h => by simpa using h)
  · intro k
    apply isort_stable
    intro a b ha hb
    simp only [beq_iff_eq] at ha hb
    simp [ha, hb]

/-- C76. The canonical order (`Printer.SortElements`) of the elements of a scope is the
documented one. -/
theorem C76_canonical (scope : Scope) (l : List Elem) (hl : Elements scope l) :
    let out := isort (fun a b => !canonicalLess b a) l
    out.Perm l ∧ out.Pairwise (fun a b => docKey scope a ≤ docKey scope b) := by
  have hiff : ∀ a ∈ l, ∀ b ∈ l,
      (!canonicalLess b a) = decide (docKey scope a ≤ docKey scope b) := by
    intro a ha b hb
    obtain ⟨i, hi⟩ := hl a ha
    obtain ⟨j, hj⟩ := hl b hb
    have := canonicalLess_iff hj hi
    by_cases h : docKey scope b < docKey scope a
    · rw [this.mpr h]
      simp [not_le.mpr h]
    · rw [Bool.eq_false_iff.mpr (fun h' => h (this.mp h'))]
      simp [not_lt.mp h]
  intro out
  have hout : out = isort (fun a b => decide (docKey scope a ≤ docKey scope b)) l :=
    isort_congr l hiff
  rw [hout]
  refine ⟨isort_perm _ l, ?_⟩
  have := isort_pairwise (le := fun a b => decide (docKey scope a ≤ docKey scope b))
    (fun a b => by simpa using le_total (docKey scope a) (docKey scope b))
    (fun a b c h1 h2 => by
      simp only [decide_eq_true_eq] at h1 h2 ⊢
      exact le_trans h1 h2) l
  exact this.imp (fun h => by simpa using h)

/-- C76. Without source locations, and for as many elements as `sort.Stable` sorts by insertion
(20), the elements are printed in the documented order, too, the kinds in the order in which the
printer lists them.

Full statement: this for any number of elements. Missing: more than 20 elements; the comparison
is not a strict weak order then (`C76_bare_violated`), so that nothing follows from the
documentation of `sort.Stable`. -/
theorem C76_bare_partial (scope : Scope) (pre : List Int) (l : List Elem) (hl : Elements scope l)
    (hblocks : l.Pairwise (fun a b => block scope (kind a.val) ≤ block scope (kind b.val)))
    (_hlen : l.length ≤ 20) :
    let out := goInsertionSort (printLess scope (fun _ => none) pre) l
    out.Perm l ∧ out.Pairwise (fun a b => bareKey scope a ≤ bareKey scope b) ∧
      ∀ k, out.filter (fun e => bareKey scope e == k) = l.filter (fun e => bareKey scope e == k) := by
  have hcong : goInsertionSort (printLess scope (fun _ => none) pre) l =
      goInsertionSort (fun a b => decide (bareKey scope a < bareKey scope b)) l := by
    apply goInsertionSort_congr
    refine hblocks.imp_of_mem ?_
    intro a b ha hb hab
    obtain ⟨i, hi⟩ := hl a ha
    obtain ⟨j, hj⟩ := hl b hb
    have := printLess_bare (pre := pre) hi hj hab
    by_cases h : bareKey scope b < bareKey scope a
    · rw [this.mpr h]; simp [h]
    · rw [Bool.eq_false_iff.mpr (fun h' => h (this.mp h'))]; simp [h]
  intro out
  have hout : out = goInsertionSort (fun a b => decide (bareKey scope a < bareKey scope b)) l := hcong
  rw [hout]
  refine ⟨goInsertionSort_perm _ l, ?_, ?_⟩
  · have := goInsertionSort_sorted (fun a b => decide (bareKey scope a < bareKey scope b))
      (fun a b => bareKey scope a < bareKey scope b)
      (fun a b h => by simpa using h) (fun a b h => by
        simp only [decide_eq_true_eq] at h
        exact not_lt.mpr (le_of_lt h))
      (fun a b c h1 h2 => by
        rw [not_lt] at h1 h2 ⊢
        exact le_trans h1 h2) l
    exact this.imp (fun h => not_lt.mp h)
  · intro k
    apply goInsertionSort_stable
    intro a b ha hb
    simp only [beq_iff_eq] at ha hb
    simp [ha, hb]

/-- C76. The order by source location (`elementSrcOrder`), which decides where `SortElements`
leaves the order open: elements the source info knows are ordered by the path of their location;
elements it does not know are not told apart and go after those it knows, except that the package,
imports and options go first, in this order. -/
theorem C76_source_order (scope : Scope) (info : List Int → Option (List Int)) (pre : List Int)
    (a b : Elem) (hl : Elements scope [a, b]) :
    (Located scope info pre a → Located scope info pre b →
      (srcLess scope info pre a b = true ↔
        [listNumber scope (kind a.val), a.index] < [listNumber scope (kind b.val), b.index])) ∧
    (Unlocated scope info pre a → Located scope info pre b →
      (srcLess scope info pre a b = true ↔ unknownGoesFirst scope (kind a.val) (kind b.val)) ∧
      (srcLess scope info pre b a = true ↔ ¬ unknownGoesFirst scope (kind a.val) (kind b.val))) ∧
    (Unlocated scope info pre a → Unlocated scope info pre b →
      srcLess scope info pre a b = false) := by
  obtain ⟨i, ea⟩ := hl a (by simp)
  obtain ⟨j, eb⟩ := hl b (by simp)
  refine ⟨fun ha hb => ?_, fun ha hb => ?_, fun ha hb => ?_⟩
  · rw [srcLess_located ea eb ha hb, elemOf_tag ea, elemOf_tag eb]
  · obtain ⟨rest, hb'⟩ := srcLoc_located eb hb
    have ha' : srcLoc info pre a = none := by rw [srcLoc_tag ea ha.1 ha.2.1, ha.2.2]
    have := unknownFirst_iff ea eb
    unfold srcLess
    rw [ha', hb']
    simp only
    refine ⟨this, ?_⟩
    rw [← this]
    simp
  · unfold srcLess
    rw [srcLoc_tag ea ha.1 ha.2.1, ha.2.2, srcLoc_tag eb hb.1 hb.2.1, hb.2.2]

/-! ### Examples -/

/-- `message M { N b = 2; string a = 1; message N {} }`. -/
def f2 : Elem := ⟨2, 0, 0, .field 2 none⟩
def f1 : Elem := ⟨2, 1, 0, .field 1 none⟩
def nested : Elem := ⟨3, 0, 0, .message ['N']⟩

/-- Source info that knows everything. -/
def allInfo : List Int → Option (List Int) := fun p => some p

example : Elements .message [f2, f1, nested] := by
  intro e he
  simp only [List.mem_cons, List.not_mem_nil, or_false] at he
  rcases he with rfl | rfl | rfl
  · exact ⟨0, rfl⟩
  · exact ⟨1, rfl⟩
  · exact ⟨0, rfl⟩

example : ∀ e ∈ [f2, f1, nested], Free .message e ∨ Located .message allInfo [4, 0] e := by
  intro e he
  right
  simp only [List.mem_cons, List.not_mem_nil, or_false] at he
  rcases he with rfl | rfl | rfl <;> exact ⟨by decide, by decide, [], by decide⟩

example : isort (fun a b => !printLess .message allInfo [4, 0] b a) [nested, f2, f1] =
    [f1, f2, nested] := by decide +kernel

/-- A field without location goes after a nested message with one, an option before it. -/
example : Elements .message [f1, nested] ∧ Elements .message [⟨7, 3, -1, .options ['d']⟩, nested] ∧
    Located .message (fun p => if p = [4, 0, 3, 0] then some p else none) [4, 0] nested ∧
    Unlocated .message (fun p => if p = [4, 0, 3, 0] then some p else none) [4, 0] f1 ∧
    ¬ unknownGoesFirst .message .field .message ∧ unknownGoesFirst .message .option .message := by
  refine ⟨?_, ?_, ⟨by decide, by decide, [], by decide⟩, ⟨by decide, by decide, by decide⟩,
    by simp [unknownGoesFirst, rank], by simp [unknownGoesFirst, rank]⟩
  · intro e he
    simp only [List.mem_cons, List.not_mem_nil, or_false] at he
    rcases he with rfl | rfl
    · exact ⟨1, rfl⟩
    · exact ⟨0, rfl⟩
  · intro e he
    simp only [List.mem_cons, List.not_mem_nil, or_false] at he
    rcases he with rfl | rfl
    · exact ⟨3, rfl⟩
    · exact ⟨0, rfl⟩

/-- Imports are sorted by name, custom options follow builtin ones. -/
example : isort (fun a b => !printLess .file allInfo [] b a)
    [⟨8, 50000, -1, .options ['(', 'x', ')']⟩, ⟨8, 11, -1, .options ['g']⟩, ⟨3, 0, -2, .imp ['b']⟩,
      ⟨3, 1, -2, .imp ['a']⟩, ⟨2, 0, -3, .pkg ['p']⟩] =
    [⟨2, 0, -3, .pkg ['p']⟩, ⟨3, 1, -2, .imp ['a']⟩, ⟨3, 0, -2, .imp ['b']⟩,
      ⟨8, 11, -1, .options ['g']⟩, ⟨8, 50000, -1, .options ['(', 'x', ')']⟩] := by decide +kernel

example : isort (fun a b => !canonicalLess b a) [nested, f2, f1] = [f1, f2, nested] := by
  decide +kernel

example : goInsertionSort (printLess .message (fun _ => none) [4, 0]) [f2, f1, nested] =
    [f1, f2, nested] := by decide +kernel

/-- C76: without source locations the comparison is not a strict weak order: neither field can be
told apart from the nested message, but they can from each other. -/
theorem C76_bare_violated :
    let less := printLess .message (fun _ => none) [4, 0]
    (less f1 nested = false ∧ less nested f1 = false) ∧
      (less f2 nested = false ∧ less nested f2 = false) ∧ less f1 f2 = true := by
  decide

/-- C76: if only some of the elements have a location, the comparison can have cycles; then the
order of the output is not determined by it. -/
theorem C76_mixed_violated :
    let info : List Int → Option (List Int) := fun p => if p = [4, 0, 2, 1] then none else some p
    let less := printLess .message info [4, 0]
    less f1 f2 = true ∧ less f2 nested = true ∧ less nested f1 = true := by
  decide

end Verif.PrintOrder
