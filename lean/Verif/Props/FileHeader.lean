import Verif.Model.FileHeader
/-!
# Properties of the formatted file header: C41, C42
-/
namespace Verif.FileHeader

theorem strLt_irrefl (a : Str) : ¬ a < a := List.lt_irrefl a
theorem strLt_trans {a b c : Str} (h1 : a < b) (h2 : b < c) : a < c := List.lt_trans h1 h2
theorem strLt_asymm {a b : Str} (h1 : a < b) : ¬ b < a := List.lt_asymm h1
theorem strLt_tri {a b : Str} (h1 : ¬ a < b) (h2 : ¬ b < a) : a = b :=
  List.le_antisymm (List.not_lt.1 h2) (List.not_lt.1 h1)

/-! ## C41 -/

/-- Specification: the order of modifiers: a plain import is stronger than a public one, and that is
stronger than a weak one. -/
inductive Stronger : Modifier → Modifier → Prop where
  | plainPublic : Stronger .plain .public
  | plainWeak : Stronger .plain .weak
  | publicWeak : Stronger .public .weak

theorem stronger_iff (a b : Modifier) : Stronger a b ↔ sortOrder b < sortOrder a := by
  cases a <;> cases b <;> simp only [sortOrder] <;> constructor <;> intro h <;>
    first | (cases h; done) | (cases h; decide) | constructor | (exact absurd h (by decide))

/-- Specification: the order in which imports are sorted: by path, then by modifier. -/
def Before (i j : Import) : Prop :=
  i.path < j.path ∨ (i.path = j.path ∧ Stronger i.modifier j.modifier)

/-- Specification: a list of imports in order. -/
structure Sorted (xs ys : List Import) : Prop where
  perm : ys.Perm xs
  order : ys.Pairwise fun a b => ¬ Before b a

theorem before_less (a b : Import) (h : Before a b) : importLess a b = true := by
  unfold importLess
  rcases h with h | ⟨h, h'⟩
  · rw [if_pos h]
  · rw [stronger_iff] at h'
    rw [h, if_neg (strLt_irrefl _), if_neg (strLt_irrefl _), if_pos h']

theorem less_not_before (a b : Import) (h : importLess a b = true) : ¬ Before b a := by
  unfold importLess at h
  rintro (h' | ⟨h', h''⟩)
  · rw [if_neg (strLt_asymm h'), if_pos h'] at h
    cases h
  · rw [stronger_iff] at h''
    rw [h', if_neg (strLt_irrefl _), if_neg (strLt_irrefl _), if_neg (by omega), if_pos h''] at h
    cases h

theorem not_before_trans (a b c : Import) (h1 : ¬ Before b a) (h2 : ¬ Before c b) : ¬ Before c a := by
  rintro (h | ⟨h, h'⟩)
  · by_cases hcb : c.path < b.path
    · exact h2 (.inl hcb)
    · by_cases hbc : b.path < c.path
      · exact h1 (.inl (strLt_trans hbc h))
      · have := strLt_tri hcb hbc
        exact h1 (.inl (this ▸ h))
  · by_cases hcb : c.path < b.path
    · exact h2 (.inl hcb)
    · by_cases hbc : b.path < c.path
      · exact h1 (.inl (h ▸ hbc))
      · have hp := strLt_tri hcb hbc
        have h1' : ¬ Stronger b.modifier a.modifier := fun hs => h1 (.inr ⟨hp ▸ h, hs⟩)
        have h2' : ¬ Stronger c.modifier b.modifier := fun hs => h2 (.inr ⟨hp, hs⟩)
        rw [stronger_iff] at h1' h2' h'
        omega

/-- **C41** (part): the imports are sorted by path and modifier, although the comparison function is not
a strict order for imports of the same path and modifier. For at most 12 imports; for more imports the
theorems below take it as a hypothesis. -/
theorem C41_sorted (xs : List Import) : Sorted xs (goInsertionSort importLess xs) where
  perm := goInsertionSort_perm importLess xs
  order := goInsertionSort_sorted importLess Before before_less less_not_before not_before_trans xs

theorem writeLoop_sublist (is : List Import) : ∀ prev, (writeLoop prev is).Sublist is := by
  induction is with
  | nil => intro prev; exact .slnil
  | cons i is ih =>
    intro prev
    unfold writeLoop
    split
    · exact (ih _).cons i
    · exact (ih _).cons_cons i

theorem writeLoop_commented (is : List Import) : ∀ prev,
    (writeLoop prev is).filter (·.commented) = is.filter (·.commented) := by
  induction is with
  | nil => intro prev; rfl
  | cons i is ih =>
    intro prev
    unfold writeLoop
    split
    · rename_i h
      rw [ih, List.filter_cons, h.2]
      rfl
    · rw [List.filter_cons, ih, ← List.filter_cons]

theorem writeLoop_kept (is : List Import) : ∀ prev, is.Pairwise (fun a b => ¬ Before b a) → ∀ i ∈ is,
    (∃ w ∈ writeLoop prev is, w.path = i.path ∧ (w.modifier = i.modifier ∨ Stronger w.modifier i.modifier)) ∨
      prev = some i.path := by
  induction is with
  | nil => intro prev _ i hi; cases hi
  | cons a is ih =>
    intro prev hp i hi
    rw [List.pairwise_cons] at hp
    rcases List.mem_cons.1 hi with rfl | hi
    · unfold writeLoop
      by_cases h : prev = some i.path ∧ i.commented = false
      · exact .inr h.1
      · rw [if_neg h]
        exact .inl ⟨i, List.mem_cons_self, rfl, .inl rfl⟩
    · have := ih (some a.path) hp.2 i hi
      unfold writeLoop
      by_cases h : prev = some a.path ∧ a.commented = false
      · rw [if_pos h]
        rcases this with this | this
        · exact .inl this
        · exact .inr (h.1.trans this)
      · rw [if_neg h]
        rcases this with ⟨w, hw, hw'⟩ | this
        · exact .inl ⟨w, List.mem_cons_of_mem _ hw, hw'⟩
        · left
          have hpath := Option.some.inj this
          refine ⟨a, List.mem_cons_self, hpath, ?_⟩
          have hnb := hp.1 i hi
          have : ¬ Stronger i.modifier a.modifier := fun hs => hnb (.inr ⟨hpath.symm, hs⟩)
          rw [stronger_iff] at this ⊢
          revert this
          cases a.modifier <;> cases i.modifier <;> simp [sortOrder]

/-- **C41** (part): only imports of the file are written, no more often than they occur. -/
theorem C41_sound (xs ys : List Import) (h : Sorted xs ys) (i : Import) :
    (writeImports ys).count i ≤ xs.count i := by
  rw [← h.perm.count_eq]
  exact (writeLoop_sublist ys none).count_le i

/-- **C41** (part): the written imports are in order. -/
theorem C41_order (xs ys : List Import) (h : Sorted xs ys) :
    (writeImports ys).Pairwise fun a b => ¬ Before b a :=
  h.order.sublist (writeLoop_sublist ys none)

/-- **C41** (part): every imported path is still imported, with the strongest modifier it had. -/
theorem C41_paths (xs ys : List Import) (h : Sorted xs ys) (i : Import) (hi : i ∈ xs) :
    ∃ w ∈ writeImports ys, w.path = i.path ∧ (w.modifier = i.modifier ∨ Stronger w.modifier i.modifier) := by
  rcases writeLoop_kept ys none h.order i (h.perm.mem_iff.2 hi) with h | h
  · exact h
  · cases h

/-- **C41** (part): no import with a comment is removed. -/
theorem C41_commented (xs ys : List Import) (h : Sorted xs ys) :
    ((writeImports ys).filter (·.commented)).Perm (xs.filter (·.commented)) := by
  unfold writeImports
  rw [writeLoop_commented]
  exact h.perm.filter _

/-- **C41** (partial): if all imports of the same path have the same modifier, every import is kept with
its modifier. Missing: files that import a path with different modifiers, for which the property fails
(`C41_violated`). -/
theorem C41_kept_partial (xs ys : List Import) (h : Sorted xs ys)
    (hm : ∀ i ∈ xs, ∀ j ∈ xs, i.path = j.path → i.modifier = j.modifier) (i : Import) (hi : i ∈ xs) :
    ∃ w ∈ writeImports ys, w.path = i.path ∧ w.modifier = i.modifier := by
  obtain ⟨w, hw, hp, _⟩ := C41_paths xs ys h i hi
  exact ⟨w, hw, hp, hm w (h.perm.mem_iff.1 ((writeLoop_sublist ys none).subset hw)) i hi hp⟩

theorem writeLoop_once (is : List Import) : ∀ prev, is.Pairwise (fun a b => ¬ Before b a) →
    (∀ p, prev = some p → ∀ i ∈ is, ¬ i.path < p) →
    (writeLoop prev is).Pairwise (fun a b => a.path = b.path → b.commented = true) ∧
    (∀ p, prev = some p → ∀ i ∈ writeLoop prev is, i.path = p → i.commented = true) := by
  induction is with
  | nil =>
    intro prev _ _
    exact ⟨.nil, fun p _ i hi => by cases hi⟩
  | cons a is ih =>
    intro prev hp hprev
    rw [List.pairwise_cons] at hp
    have hle : ∀ i ∈ is, ¬ i.path < a.path := fun i hi h => hp.1 i hi (.inl h)
    obtain ⟨h1, h2⟩ := ih (some a.path) hp.2 (by rintro p hpe i hi; cases hpe; exact hle i hi)
    unfold writeLoop
    by_cases h : prev = some a.path ∧ a.commented = false
    · rw [if_pos h]
      refine ⟨h1, ?_⟩
      intro p hpe
      rw [h.1] at hpe
      cases hpe
      exact h2 a.path rfl
    · rw [if_neg h]
      refine ⟨List.pairwise_cons.2 ⟨fun b hb he => h2 a.path rfl b hb he.symm, h1⟩, ?_⟩
      intro p hpe i hi hip
      rcases List.mem_cons.1 hi with rfl | hi
      · cases hc : i.commented with
        | true => rfl
        | false => exact absurd ⟨hpe.trans (by rw [hip]), hc⟩ h
      · by_cases hap : a.path = p
        · exact h2 a.path rfl i hi (hip.trans hap.symm)
        · exfalso
          have h3 := hprev p hpe a List.mem_cons_self
          have h4 := hle i ((writeLoop_sublist is _).subset hi)
          rw [hip] at h4
          exact hap (strLt_tri h3 h4)

/-- **C41** (part): repetitions without comments are removed: a path is written again only for the
sake of a comment. -/
theorem C41_once (xs ys : List Import) (h : Sorted xs ys) :
    (writeImports ys).Pairwise fun a b => a.path = b.path → b.commented = true :=
  (writeLoop_once ys none h.order (by intro p hp; cases hp)).1

/-- Specification: the order in which imports are sorted, where of those with the same path and modifier the ones with
comments come first. -/
def BeforeC (i j : Import) : Prop :=
  Before i j ∨ (i.path = j.path ∧ i.modifier = j.modifier ∧ i.commented = true ∧ j.commented = false)

theorem importLess_tie {a b : Import} (h1 : a.path = b.path) (h2 : a.modifier = b.modifier) : importLess a b = !b.commented := by
  unfold importLess
  rw [h1, h2, if_neg (strLt_irrefl _), if_neg (strLt_irrefl _), if_neg (Nat.lt_irrefl _), if_neg (Nat.lt_irrefl _)]

theorem stronger_tri {a b : Modifier} (h1 : ¬ Stronger a b) (h2 : ¬ Stronger b a) : a = b := by
  rw [stronger_iff] at h1 h2
  revert h1 h2
  cases a <;> cases b <;> simp [sortOrder]

/-- **C41** (part): of the imports with the same path and modifier, the ones with comments come first. -/
theorem C41_comments_first (xs : List Import) : (goInsertionSort importLess xs).Pairwise fun a b => ¬ BeforeC b a := by
  refine goInsertionSort_sorted importLess BeforeC ?_ ?_ ?_ xs
  · rintro a b (h | ⟨h1, h2, h3, h4⟩)
    · exact before_less a b h
    · rw [importLess_tie h1 h2, h4]; rfl
  · rintro a b h (h' | ⟨h1, h2, h3, h4⟩)
    · exact less_not_before a b h h'
    · rw [importLess_tie h1.symm h2.symm, h3] at h; cases h
  · rintro a b c h1 h2 (h | ⟨k1, k2, k3, k4⟩)
    · exact not_before_trans a b c (fun h => h1 (.inl h)) (fun h => h2 (.inl h)) h
    · have n1 : ¬ Before b a := fun h => h1 (.inl h)
      have n2 : ¬ Before c b := fun h => h2 (.inl h)
      have hp : c.path = b.path :=
        strLt_tri (fun h => n2 (.inl h)) (fun h => n1 (.inl (by rw [← k1]; exact h)))
      have hm : c.modifier = b.modifier :=
        stronger_tri (fun h => n2 (.inr ⟨hp, h⟩)) (fun h => n1 (.inr ⟨by rw [← hp, k1], by rw [← k2]; exact h⟩))
      cases hb : b.commented with
      | true => exact h1 (.inr ⟨by rw [← hp, k1], by rw [← hm, k2], hb, k4⟩)
      | false => exact h2 (.inr ⟨hp, hm, k3, hb⟩)

/-- **C41** (part): of two written imports with the same path and modifier, both have a comment: there is no import that could
be removed. -/
theorem C41_no_duplicates (xs : List Import) :
    (formatImports xs).Pairwise fun a b => a.path = b.path → a.modifier = b.modifier → a.commented = true ∧ b.commented = true := by
  have h1 := (C41_comments_first xs).sublist (writeLoop_sublist _ none)
  refine List.Pairwise.imp ?_ (h1.and (C41_once xs _ (C41_sorted xs)))
  rintro a b ⟨h, h'⟩ hp hm
  refine ⟨?_, h' hp⟩
  cases hc : a.commented with
  | true => rfl
  | false => exact absurd (.inr ⟨hp.symm, hm.symm, h' hp, hc⟩) h

example : formatImports [⟨['b'], .plain, false⟩, ⟨['a'], .public, false⟩, ⟨['b'], .plain, false⟩, ⟨['b'], .plain, true⟩] =
    [⟨['a'], .public, false⟩, ⟨['b'], .plain, true⟩] := by decide

/-- The code violates C41: when a file imports a path and also imports it publicly, the public import is
removed, and with it the visibility of the path for the importers of the file. -/
theorem C41_violated :
    formatImports [⟨['a'], .public, false⟩, ⟨['a'], .plain, false⟩] = [⟨['a'], .plain, false⟩] := by decide

/-! ## C42 -/

/-- Specification: an option whose name starts with a part in parentheses. -/
def Custom (o : Opt) : Prop := ∃ p ps, o.name = p :: ps ∧ p.custom = true

/-- Specification: the parts of an option name: identifiers. -/
def WfOpt (o : Opt) : Prop := ∀ p ∈ o.name, ∃ c t, p.name = c :: t ∧ c ≠ '('

theorem isCustom_iff (o : Opt) (h : WfOpt o) : isCustom o = true ↔ Custom o := by
  have pre : ∀ s : Str, ['('].isPrefixOf s = true ↔ ∃ t, s = '(' :: t := by
    intro s
    rw [List.isPrefixOf_iff_prefix]
    exact ⟨fun ⟨t, ht⟩ => ⟨t, ht.symm⟩, fun ⟨t, ht⟩ => ⟨t, ht.symm⟩⟩
  unfold isCustom
  rw [pre]
  unfold nameString Custom
  cases hn : o.name with
  | nil =>
    constructor
    · rintro ⟨t, ht⟩; simp [joinWith] at ht
    · rintro ⟨p, ps, he, _⟩; cases he
  | cons p ps =>
    obtain ⟨c, t, hc, hc'⟩ := h p (by rw [hn]; exact List.mem_cons_self)
    have hhead : ∃ t', joinWith '.' ((p :: ps).map partString) = partString p ++ t' := by
      cases ps with
      | nil => exact ⟨[], by simp [joinWith]⟩
      | cons q qs =>
        rw [List.map_cons, joinWith_cons _ _ _ (by simp)]
        exact ⟨_, rfl⟩
    obtain ⟨t', ht'⟩ := hhead
    rw [ht']
    constructor
    · rintro ⟨u, hu⟩
      refine ⟨p, ps, rfl, ?_⟩
      cases hpc : p.custom with
      | true => rfl
      | false =>
        rw [partString, hpc, hc] at hu
        simp only [Bool.false_eq_true, if_false, List.cons_append, List.cons.injEq] at hu
        exact absurd hu.1 hc'
    · rintro ⟨q, qs, he, hq⟩
      obtain ⟨rfl, _⟩ := List.cons.inj he
      rw [partString, if_pos hq]
      exact ⟨_, rfl⟩

/-- Specification: the printed name of an option. -/
def printed : List NamePart → Str
  | [] => []
  | [p] => if p.custom then '(' :: p.name ++ [')'] else p.name
  | p :: q :: ps => (if p.custom then '(' :: p.name ++ [')'] else p.name) ++ '.' :: printed (q :: ps)

theorem nameString_printed (ps : List NamePart) : nameString ps = printed ps := by
  induction ps with
  | nil => rfl
  | cons p ps ih =>
    cases ps with
    | nil => simp [nameString, joinWith, printed, partString]
    | cons q qs =>
      unfold nameString at ih ⊢
      rw [List.map_cons, joinWith_cons _ _ _ (by simp), ih]
      simp [printed, partString]

/-- Specification: the order of options: built-in ones first, then alphabetically. -/
def OptBefore (a b : Opt) : Prop :=
  (¬ Custom a ∧ Custom b) ∨ ((Custom a ↔ Custom b) ∧ printed a.name < printed b.name)

theorem optionLess_iff (a b : Opt) (ha : WfOpt a) (hb : WfOpt b) : optionLess a b = true ↔ OptBefore a b := by
  unfold optionLess OptBefore
  rw [← isCustom_iff a ha, ← isCustom_iff b hb, nameString_printed, nameString_printed]
  cases isCustom a <;> cases isCustom b <;> simp

/-- **C42** (part): every sort that satisfies the contract of `sort.Slice` writes every option exactly
once, the built-in options before the custom ones, in alphabetical order. -/
theorem C42_order (xs ys : List Opt) (hw : ∀ o ∈ xs, WfOpt o) (h : SortSlice optionLess xs ys) :
    ys.Perm xs ∧ ys.Pairwise fun a b => ¬ OptBefore b a := by
  refine ⟨h.perm, ?_⟩
  refine List.Pairwise.imp_of_mem ?_ h.sorted
  intro a b ha hb hab
  rw [← optionLess_iff b a (hw b (h.perm.mem_iff.1 hb)) (hw a (h.perm.mem_iff.1 ha)), hab]
  simp

theorem less_irrefl (a : Opt) : optionLess a a = false := by
  unfold optionLess
  cases isCustom a <;> simp [strLt_irrefl]

theorem less_not (a b : Opt) (h : optionLess a b = true) : ¬ optionLess b a = true := by
  unfold optionLess at h ⊢
  cases h1 : isCustom a <;> cases h2 : isCustom b <;> simp [h1, h2] at h ⊢
  · exact List.not_lt.1 (strLt_asymm h)
  · exact List.not_lt.1 (strLt_asymm h)

theorem not_less_trans (a b c : Opt) (h1 : ¬ optionLess b a = true) (h2 : ¬ optionLess c b = true) :
    ¬ optionLess c a = true := by
  unfold optionLess at *
  cases ha : isCustom a <;> cases hb : isCustom b <;> cases hc : isCustom c <;>
    simp [ha, hb, hc] at h1 h2 ⊢
  · exact List.le_trans h1 h2
  · exact List.le_trans h1 h2

/-- The contract of `sort.Slice` holds for the insertion sort, so that `C42_order` applies to it. -/
theorem formatOptions_slice (xs ys : List Opt) (hl : xs.length ≤ 12) (h : formatOptions xs = some ys) : SortSlice optionLess xs ys := by
  unfold formatOptions goSlice at h
  rw [if_pos hl, Option.some.injEq] at h
  subst h
  refine ⟨goInsertionSort_perm optionLess xs, ?_⟩
  refine (goInsertionSort_sorted optionLess (fun a b => optionLess a b = true) (fun _ _ h => h) less_not
    not_less_trans xs).imp ?_
  intro a b h
  exact Bool.eq_false_iff.2 h

/-- **C42** (partial): with at most 12 options, options of the same name keep their order. Missing: files
with more options, see the violation. -/
theorem C42_stable_partial (xs : List Opt) (hl : xs.length ≤ 12) :
    ∃ ys, formatOptions xs = some ys ∧ ys.Perm xs ∧
      ∀ n, ys.filter (fun o => decide (o.name = n)) = xs.filter (fun o => decide (o.name = n)) := by
  refine ⟨goInsertionSort optionLess xs, if_pos hl, goInsertionSort_perm optionLess xs, fun n => ?_⟩
  refine goInsertionSort_stable optionLess _ ?_ xs
  intro a b ha hb
  have ha := of_decide_eq_true ha
  have hb := of_decide_eq_true hb
  unfold optionLess isCustom
  rw [ha, hb]
  cases ['('].isPrefixOf (nameString n) <;> simp [strLt_irrefl]

/-- Twelve values of a repeated custom option `(a)`, and the built-in option `g`. -/
def manyOpts : List Opt :=
  (['a', 'b', 'c', 'd', 'e', 'f', 'g', 'h', 'i', 'j', 'k', 'l'].map fun v => ⟨[⟨['a'], true⟩], [v]⟩) ++ [⟨[⟨['g'], false⟩], ['x']⟩]

/-- **C42** (violated): with 13 options, the values of a repeated option are written in another order, by a result that meets the
contract of `sort.Slice`. -/
theorem C42_stable_violated : ∃ ys, formatOptions manyOpts = some ys ∧ SortSlice optionLess manyOpts ys ∧
    (ys.filter fun o => decide (o.name = [⟨['a'], true⟩])).map (·.value) =
      [['g'], ['c'], ['d'], ['e'], ['f'], ['a'], ['h'], ['i'], ['j'], ['k'], ['l'], ['b']] ∧
    (manyOpts.filter fun o => decide (o.name = [⟨['a'], true⟩])).map (·.value) =
      [['a'], ['b'], ['c'], ['d'], ['e'], ['f'], ['g'], ['h'], ['i'], ['j'], ['k'], ['l']] := by
  refine ⟨[⟨[⟨['g'], false⟩], ['x']⟩] ++ (['g', 'c', 'd', 'e', 'f', 'a', 'h', 'i', 'j', 'k', 'l', 'b'].map fun v => ⟨[⟨['a'], true⟩], [v]⟩),
    by decide +kernel, ⟨?_, ?_⟩, by decide +kernel, by decide +kernel⟩
  · decide +kernel
  · decide +kernel

/-- Two custom options of the same name and a built-in one. -/
def sampleOpts : List Opt :=
  [⟨[⟨['a'], true⟩, ⟨['z'], false⟩], ['2']⟩, ⟨[⟨['g'], false⟩], ['3']⟩, ⟨[⟨['a'], true⟩, ⟨['z'], false⟩], ['1']⟩]

example : formatOptions sampleOpts = some [⟨[⟨['g'], false⟩], ['3']⟩, ⟨[⟨['a'], true⟩, ⟨['z'], false⟩], ['2']⟩,
    ⟨[⟨['a'], true⟩, ⟨['z'], false⟩], ['1']⟩] ∧
    ∀ ys, formatOptions sampleOpts = some ys → SortSlice optionLess sampleOpts ys :=
  ⟨by decide +kernel, fun _ h => formatOptions_slice sampleOpts _ (by decide) h⟩

example : ∀ o ∈ sampleOpts, WfOpt o := by
  intro o ho p hp
  simp only [sampleOpts, List.mem_cons, List.not_mem_nil, or_false] at ho
  rcases ho with rfl | rfl | rfl <;> simp only [List.mem_cons, List.not_mem_nil, or_false] at hp
  · rcases hp with rfl | rfl
    · exact ⟨_, _, rfl, by decide⟩
    · exact ⟨_, _, rfl, by decide⟩
  · subst hp; exact ⟨_, _, rfl, by decide⟩
  · rcases hp with rfl | rfl
    · exact ⟨_, _, rfl, by decide⟩
    · exact ⟨_, _, rfl, by decide⟩

end Verif.FileHeader
