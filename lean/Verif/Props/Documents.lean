import Verif.Lemmas.Documents

/-! # C05, C06: document changes -/
namespace Verif.Documents

/-- The answer the protocol asks for. -/
def expected (text : List Char) (cs : List Change) : Res (List Char) :=
  match applyChanges text cs with
  | some t => .ok t
  | none => .err

/-- **C05** An empty change set is rejected. -/
theorem C05_empty_rejected (content : Option (List Char)) : changedText content [] = .err := rfl

/-- Specification: the offset `n` is the place in front of the character `k` (counted from 0) of the line `l` of the
text, or at the end of that line. -/
def IsPos (text : List Char) (l k n : Nat) : Prop :=
  ∃ before inLine after, text = before ++ inLine ++ after ∧ before.count '\n' = l ∧
    (before = [] ∨ before.getLast? = some '\n') ∧ '\n' ∉ inLine ∧ inLine.length = k ∧ n = before.length + k

/-- **C05** (part): the positions of changes, in the specification and in the server, are meant as the protocol says:
line and character, counted from zero. -/
theorem C05_position (text : List Char) (l k n : Nat) : offset text l k = some n ↔ IsPos text l k n := by
  constructor
  · induction text generalizing l k n with
    | nil =>
      intro h
      cases l with
      | zero =>
        cases k with
        | zero => simp only [offset, Option.some.injEq] at h; exact ⟨[], [], [], rfl, rfl, .inl rfl, by simp, rfl, by simp [← h]⟩
        | succ k => simp [offset] at h
      | succ l => simp [offset] at h
    | cons c t ih =>
      intro h
      cases l with
      | zero =>
        cases k with
        | zero =>
          simp only [offset, Option.some.injEq] at h
          exact ⟨[], [], c :: t, rfl, rfl, .inl rfl, by simp, rfl, by simp [← h]⟩
        | succ k =>
          rw [offset] at h
          split at h
          · cases h
          · rename_i hc
            obtain ⟨m, hm, rfl⟩ := Option.map_eq_some_iff.1 h
            obtain ⟨b, i, a, h1, h2, h3, h4, h5, h6⟩ := ih 0 k m hm
            have hb : b = [] := by
              rcases h3 with h3 | h3
              · exact h3
              · have := List.count_pos_iff.2 (List.mem_of_getLast? h3)
                omega
            subst hb
            refine ⟨[], c :: i, a, by rw [h1]; rfl, rfl, .inl rfl, ?_, by simp [h5], by simp at h6; simp [h6]⟩
            simp [h4, Ne.symm hc]
      | succ l =>
        rw [offset] at h
        split at h
        · rename_i hc
          subst hc
          obtain ⟨m, hm, rfl⟩ := Option.map_eq_some_iff.1 h
          obtain ⟨b, i, a, h1, h2, h3, h4, h5, h6⟩ := ih l k m hm
          refine ⟨'\n' :: b, i, a, by rw [h1]; rfl, by simp [h2], .inr ?_, h4, h5, by simp [h6]; omega⟩
          rcases h3 with h3 | h3
          · subst h3; rfl
          · rw [List.getLast?_cons, h3]; rfl
        · rename_i hc
          obtain ⟨m, hm, rfl⟩ := Option.map_eq_some_iff.1 h
          obtain ⟨b, i, a, h1, h2, h3, h4, h5, h6⟩ := ih (l + 1) k m hm
          refine ⟨c :: b, i, a, by rw [h1]; rfl, by rw [List.count_cons_of_ne hc, h2], .inr ?_, h4, h5, by simp [h6]; omega⟩
          rcases h3 with h3 | h3
          · subst h3; simp at h2
          · rw [List.getLast?_cons, h3]; rfl
  · rintro ⟨b, i, a, rfl, rfl, h3, h4, rfl, rfl⟩
    have inl : ∀ i : List Char, '\n' ∉ i → offset (i ++ a) 0 i.length = some i.length := by
      intro i
      induction i with
      | nil => intro _; cases a <;> rfl
      | cons c i ih =>
        intro h
        simp only [List.mem_cons, not_or] at h
        simp only [List.cons_append, List.length_cons, offset]
        rw [if_neg (Ne.symm h.1), ih h.2]
        rfl
    induction b with
    | nil => simpa using inl i h4
    | cons c b ih =>
      have ih' : offset (b ++ i ++ a) (b.count '\n') i.length = some (b.length + i.length) := by
        refine ih ?_
        rcases h3 with h3 | h3
        · cases h3
        · cases b with
          | nil => exact .inl rfl
          | cons d b => exact .inr (by rwa [List.getLast?_cons_cons] at h3)
      by_cases hc : c = '\n'
      · subst hc
        simp only [List.cons_append, List.count_cons_self, offset, if_pos]
        rw [ih']
        simp; omega
      · have hpos : 0 < b.count '\n' := by
          rcases h3 with h3 | h3
          · cases h3
          · cases b with
            | nil => simp at h3; exact absurd h3 hc
            | cons d b => exact List.count_pos_iff.2 (List.mem_of_getLast? (by rwa [List.getLast?_cons_cons] at h3))
        obtain ⟨m, hm⟩ : ∃ m, b.count '\n' = m + 1 := ⟨b.count '\n' - 1, by omega⟩
        rw [List.count_cons_of_ne hc]
        rw [hm] at ih' ⊢
        simp only [List.cons_append, offset]
        rw [if_neg hc, ih']
        simp; omega

example : IsPos "ab\ncd".toList 1 1 4 := ⟨"ab\n".toList, ['c'], ['d'], by decide, by decide, by decide, by decide, rfl, by decide⟩

/-- **C05** A single change (full text or incremental; inside or outside the text) is
applied as the protocol prescribes. -/
theorem C05_single_change (src : List Char) (c : Change)
    (hfull : c.range = none → c.rangeLength = 0) :
    changedText (some src) [c] = expected src [c] := by
  obtain ⟨range, rl, text⟩ := c
  cases range with
  | none =>
    have : rl = 0 := hfull rfl
    subst this
    rfl
  | some r =>
    obtain ⟨a, b⟩ := r
    simp only [changedText, expected, applyChanges, applyChange, toEdits, toEdit]
    simp only [List.any_cons, List.any_nil, Option.isNone_some, Bool.or_self]
    rw [if_neg (by simp)]
    cases ha : offset src a.line a.char with
    | none => simp
    | some x =>
      cases hb : offset src b.line b.char with
      | none => simp
      | some y =>
        have hy := offset_le_length hb
        simp only [apply, isort, insertBy, validate, Nat.zero_le, decide_true, Bool.and_true]
        by_cases hxy : x ≤ y
        · simp [hxy, hy, applyLoop]
        · simp [hxy]

/-- `rs` are the ranges of the changes, as offsets into `src`. -/
inductive Ranges (src : List Char) : List Change → List (Nat × Nat) → Prop
  | nil : Ranges src [] []
  | cons {c : Change} {cs : List Change} {rs : List (Nat × Nat)} {a b : Pos} {x y : Nat} :
      c.range = some (a, b) → offset src a.line a.char = some x →
      offset src b.line b.char = some y → x ≤ y → Ranges src cs rs →
      Ranges src (c :: cs) ((x, y) :: rs)

theorem ranges_toEdits {src : List Char} {cs : List Change} {rs : List (Nat × Nat)}
    (h : Ranges src cs rs) : ∃ es, toEdits src cs = some es ∧
      es.map (fun e => (e.start, e.stop)) = rs ∧ (∀ e ∈ es, e.start ≤ e.stop ∧ e.stop ≤ src.length)
      ∧ cs.any (fun c => c.range.isNone) = false := by
  induction h with
  | nil => exact ⟨[], rfl, rfl, by simp, rfl⟩
  | @cons c cs rs a b x y hr hx hy hle _ ih =>
    obtain ⟨es, h1, h2, h3, h4⟩ := ih
    refine ⟨⟨x, y, c.text⟩ :: es, ?_, ?_, ?_, ?_⟩
    · simp only [toEdits, toEdit, hr, hx, hy, h1]
    · simp [h2]
    · intro e he
      rcases List.mem_cons.mp he with rfl | he
      · exact ⟨hle, offset_le_length hy⟩
      · exact h3 e he
    · simp [List.any_cons, hr, h4]

theorem ranges_prefix {src : List Char} {cs : List Change} {rs : List (Nat × Nat)}
    (h : Ranges src cs rs) (n : Nat) (rest : List Char)
    (hn : ∀ r ∈ rs, r.2 ≤ n) : Ranges (src.take n ++ rest) cs rs := by
  induction h with
  | nil => exact .nil
  | @cons c cs rs a b x y hr hx hy hle _ ih =>
    have := hn (x, y) (by simp)
    exact .cons hr (offset_prefix hx _ _ (by simp at this; omega))
      (offset_prefix hy _ _ (by simpa using this)) hle
      (ih (fun r hr => hn r (by simp [hr])))

theorem toEdits_prefix {src : List Char} {cs : List Change} {rs : List (Nat × Nat)}
    (h : Ranges src cs rs) (n : Nat) (rest : List Char)
    (hn : ∀ r ∈ rs, r.2 ≤ n) : toEdits (src.take n ++ rest) cs = toEdits src cs := by
  induction h with
  | nil => rfl
  | @cons c cs rs a b x y hr hx hy hle _ ih =>
    have := hn (x, y) (by simp)
    have e1 := offset_prefix hx rest n (by simp at this; omega)
    have e2 := offset_prefix hy rest n (by simpa using this)
    simp only [toEdits, toEdit, hr, hx, hy, e1, e2, ih (fun r hr => hn r (by simp [hr]))]

theorem applyLoop_descending {cs : List Change} {rs : List (Nat × Nat)} (src : List Char)
    (h : Ranges src cs rs)
    (hd : rs.Pairwise (fun r r' => r'.2 ≤ r.1 ∧ r'.1 < r.1)) :
    ∃ es, toEdits src cs = some es ∧ applyChanges src cs = some (applyLoop src 0 es.reverse) := by
  induction cs generalizing rs src with
  | nil => exact ⟨[], rfl, by simp [applyChanges, applyLoop_nil]⟩
  | cons c cs ih =>
    cases h with
    | @cons _ _ rs a b x y hr hx hy hle h =>
      obtain ⟨hd1, hd2⟩ := List.pairwise_cons.mp hd
      have hyl := offset_le_length hy
      -- the text after the first change
      have hn : ∀ r ∈ rs, r.2 ≤ x := fun r hr => (hd1 r hr).1
      have h' := ranges_prefix h x (c.text ++ src.drop y) hn
      obtain ⟨es, he1, he2⟩ := ih _ h' hd2
      rw [toEdits_prefix h x _ hn] at he1
      obtain ⟨es', he1', hes2, hes3, _⟩ := ranges_toEdits h
      rw [he1] at he1'
      cases he1'
      refine ⟨⟨x, y, c.text⟩ :: es, ?_, ?_⟩
      · simp only [toEdits, toEdit, hr, hx, hy, he1]
      · simp only [applyChanges, applyChange, hr, hx, hy, if_pos hle, Option.bind_some]
        rw [List.append_assoc, he2, List.reverse_cons]
        rw [applyLoop_snoc src es.reverse ⟨x, y, c.text⟩ 0 hle hyl (Nat.zero_le _)]
        · simp
        · intro e he
          have he := List.mem_reverse.mp he
          refine ⟨(hes3 e he).1, ?_⟩
          have : (e.start, e.stop) ∈ rs := by rw [← hes2]; exact List.mem_map_of_mem he
          exact hn _ this

theorem validate_ascending (len : Nat) (es : List Edit) (lastEnd : Nat)
    (h1 : ∀ e ∈ es, e.start ≤ e.stop ∧ e.stop ≤ len ∧ lastEnd ≤ e.start)
    (h2 : es.Pairwise (fun e e' => e.stop ≤ e'.start)) : validate len lastEnd es = true := by
  induction es generalizing lastEnd with
  | nil => rfl
  | cons e t ih =>
    obtain ⟨p1, p2⟩ := List.pairwise_cons.mp h2
    obtain ⟨a, b, c⟩ := h1 e (by simp)
    simp only [validate, a, b, c, decide_true, Bool.and_self, Bool.true_and]
    refine ih e.stop ?_ p2
    intro x hx
    obtain ⟨a', b', _⟩ := h1 x (by simp [hx])
    exact ⟨a', b', p1 x hx⟩

/-- **C05, partial** Several incremental changes are applied as the protocol prescribes
*if* they are listed from the end of the document towards its start and do not overlap
(the order many editors use for multi-cursor edits). Missing: any other order, see
`C05_sequential_violated`. -/
theorem C05_descending_changes_partial (src : List Char) (cs : List Change)
    (rs : List (Nat × Nat)) (hne : cs ≠ []) (h : Ranges src cs rs)
    (hd : rs.Pairwise (fun r r' => r'.2 ≤ r.1 ∧ r'.1 < r.1)) :
    changedText (some src) cs = expected src cs := by
  obtain ⟨es, he, happ⟩ := applyLoop_descending src h hd
  obtain ⟨es', he', h2, h3, hany⟩ := ranges_toEdits h
  rw [he] at he'; cases he'
  have hpw : es.Pairwise (fun e e' => e'.stop ≤ e.start ∧ e'.start < e.start) := by
    rw [← h2, List.pairwise_map] at hd
    exact hd
  have hsort : isort Edit.le es = es.reverse := by
    have hle : ∀ a b : Edit, Edit.le a b = true ↔
        a.start < b.start ∨ (a.start = b.start ∧ a.stop ≤ b.stop) := by
      intro a b; simp [Edit.le]
    have hrev : es.reverse.Pairwise (fun x y => Edit.le x y = true) := by
      rw [List.pairwise_reverse]
      refine hpw.imp ?_
      intro a b hab
      exact (hle _ _).mpr (Or.inl hab.2)
    refine List.Perm.eq_of_pairwise (le := fun x y => Edit.le x y = true) ?_ ?_ hrev ?_
    · intro a b ha hb hab hba
      have ha' : a ∈ es.reverse := List.mem_reverse.mpr ((isort_perm _ _).mem_iff.mp ha)
      have hinj : ∀ a ∈ es.reverse, ∀ b ∈ es.reverse, a.start = b.start → a = b := by
        have hp : es.reverse.Pairwise (fun e e' => e.start < e'.start) := by
          rw [List.pairwise_reverse]; exact hpw.imp (fun h => h.2)
        intro a ha b hb hab
        by_cases hx : a = b
        · exact hx
        · exfalso
          have hp2 : es.reverse.Pairwise (fun e e' => e.start ≠ e'.start) :=
            hp.imp (fun h => by omega)
          have q1 : es.reverse.Pairwise (fun e e' : Edit => e ≠ e' → e.start ≠ e'.start) := by
            refine hp2.imp ?_; intro _ _ h _; exact h
          have q2 : es.reverse.Pairwise (fun e e' : Edit => e' ≠ e → e'.start ≠ e.start) := by
            refine hp2.imp ?_; intro _ _ h _ he; exact h he.symm
          exact (List.Pairwise.forall_of_forall_of_flip
            (R := fun e e' : Edit => e ≠ e' → e.start ≠ e'.start)
            (by intro x _ hx; exact absurd rfl hx) q1 q2 ha hb) hx hab
      apply hinj a ha' b hb
      have h1 := (hle _ _).mp hab
      have h2 := (hle _ _).mp hba
      omega
    · refine isort_pairwise ?_ ?_ _
      · intro a b
        rw [hle, hle]; omega
      · intro a b c
        rw [hle, hle, hle]; omega
    · exact (isort_perm _ _).trans (List.reverse_perm _).symm
  have hval : validate src.length 0 es.reverse = true := by
    refine validate_ascending _ _ _ ?_ ?_
    · intro e he
      have := h3 e (List.mem_reverse.mp he)
      exact ⟨this.1, this.2, Nat.zero_le _⟩
    · rw [List.pairwise_reverse]
      exact hpw.imp (fun h => h.1)
  unfold expected
  rw [happ]
  have hcs : ∀ text, cs ≠ [⟨none, 0, text⟩] := by
    intro text hc
    rw [hc] at hany
    simp at hany
  unfold changedText
  rw [if_neg hne]
  split
  · exact absurd rfl (hcs _)
  · simp only [hany, he]
    simp [apply, hsort, hval]

/-- **C05 is violated** by two consecutive insertions in reading order: typing `x` at
the start and then `y` behind it turns `ab` into `xayb` instead of `xyab`. -/
theorem C05_sequential_violated :
    ∃ (src : List Char) (cs : List Change) (r : List Char),
      (∀ c ∈ cs, c.range ≠ none) ∧ changedText (some src) cs = .ok r ∧
      ∃ r', applyChanges src cs = some r' ∧ r ≠ r' :=
  ⟨"ab".toList, [⟨some (⟨0, 0⟩, ⟨0, 0⟩), 0, ['x']⟩, ⟨some (⟨0, 1⟩, ⟨0, 1⟩), 0, ['y']⟩],
    "xayb".toList, by decide, by decide, "xyab".toList, by decide, by decide⟩

/-- **C05 is violated** by a full-text change that is not alone: the server panics. -/
theorem C05_full_text_in_batch_violated :
    ∃ (src : List Char) (cs : List Change),
      changedText (some src) cs = .panic ∧ applyChanges src cs ≠ none :=
  ⟨[], [⟨none, 0, ['x']⟩, ⟨none, 0, ['y']⟩], by decide, by decide⟩

/-- Non-trivial instance of the partial theorem: three lines, changes on lines 2 and 1. -/
example : Ranges "ab\ncd\nef".toList
    [⟨some (⟨2, 0⟩, ⟨2, 1⟩), 0, "XX\n".toList⟩, ⟨some (⟨0, 1⟩, ⟨1, 1⟩), 0, "Y".toList⟩]
    [(6, 7), (1, 4)] :=
  .cons rfl (by decide) (by decide) (by decide)
    (.cons rfl (by decide) (by decide) (by decide) .nil)

example : changedText (some "ab\ncd\nef".toList)
    [⟨some (⟨2, 0⟩, ⟨2, 1⟩), 0, "XX\n".toList⟩, ⟨some (⟨0, 1⟩, ⟨1, 1⟩), 0, "Y".toList⟩] =
    .ok "aYd\nXX\nf".toList := by decide

/-! ## C06 -/

theorem toDelete_none {resolves : String → Bool} {ms : List Modification} (i : Nat)
    (h : ∀ m ∈ ms, isDropped resolves m = false) : toDelete resolves i ms = [] := by
  induction ms generalizing i with
  | nil => rfl
  | cons m t ih =>
    simp only [toDelete, h m (by simp)]
    simpa using ih (i + 1) (fun x hx => h x (by simp [hx]))

theorem toDelete_one {resolves : String → Bool} {pre post : List Modification} {m : Modification}
    (i : Nat) (hpre : ∀ m ∈ pre, isDropped resolves m = false)
    (hm : isDropped resolves m = true) (hpost : ∀ m ∈ post, isDropped resolves m = false) :
    toDelete resolves i (pre ++ m :: post) = [i + pre.length] := by
  induction pre generalizing i with
  | nil => simp [toDelete, hm, toDelete_none (i + 1) hpost]
  | cons a t ih =>
    simp only [List.cons_append, toDelete, hpre a (by simp)]
    simp only [Bool.false_eq_true, if_false, List.length_cons]
    rw [ih (i + 1) (fun x hx => hpre x (by simp [hx]))]
    simp; omega

/-- Specification: a modification that is to be dropped: its document has no path. Opening a document of another
language is not concerned (nothing is known about its path, `/repo/pkg/lsp/documents.go:66-71`). -/
def Unresolvable (resolves : String → Bool) (m : Modification) : Prop :=
  resolves m.uri = false ∧ (m.action = .open → m.languageID = "protobuf")

instance (resolves : String → Bool) (m : Modification) : Decidable (Unresolvable resolves m) := by
  unfold Unresolvable; infer_instance

theorem isDropped_iff (resolves : String → Bool) (m : Modification) :
    isDropped resolves m = decide (Unresolvable resolves m) := by
  have : isDropped resolves m = true ↔ Unresolvable resolves m := by
    unfold isDropped Unresolvable
    by_cases h1 : m.action = .open <;> by_cases h2 : m.languageID = "protobuf" <;> simp [h1, h2]
  cases h : isDropped resolves m
  · have : ¬ Unresolvable resolves m := fun hu => by rw [this.2 hu] at h; cases h
    simp [this]
  · simp [this.1 h]

/-- **C06, partial** If at most one modification of the batch is unresolvable, exactly
the others are processed, in order. Missing: two or more, see
`C06_drop_violated` and `C06_crash_violated`. -/
theorem C06_drop_at_most_one_partial (resolves : String → Bool) (ms : List Modification)
    (h : (ms.filter (fun m => decide (Unresolvable resolves m))).length ≤ 1) :
    processedBatch resolves ms = .ok (ms.filter (fun m => !decide (Unresolvable resolves m))) := by
  have e : (fun m => decide (Unresolvable resolves m)) = isDropped resolves := by
    funext m; rw [isDropped_iff]
  have e' : (fun m => !decide (Unresolvable resolves m)) = fun m => !isDropped resolves m := by
    funext m; rw [isDropped_iff]
  rw [e] at h
  rw [e']
  unfold processedBatch
  by_cases hex : ∃ m ∈ ms, isDropped resolves m = true
  · obtain ⟨m, hm, hd⟩ := hex
    obtain ⟨pre, post, rfl⟩ := List.append_of_mem hm
    rw [List.filter_append, List.filter_cons, if_pos hd] at h
    simp only [List.length_append, List.length_cons] at h
    have hpre : pre.filter (isDropped resolves) = [] := List.length_eq_zero_iff.mp (by omega)
    have hpost : post.filter (isDropped resolves) = [] := List.length_eq_zero_iff.mp (by omega)
    have hpre' : ∀ x ∈ pre, isDropped resolves x = false := by
      intro x hx
      simpa using (List.filter_eq_nil_iff.mp hpre) x hx
    have hpost' : ∀ x ∈ post, isDropped resolves x = false := by
      intro x hx
      simpa using (List.filter_eq_nil_iff.mp hpost) x hx
    rw [toDelete_one 0 hpre' hd hpost', Nat.zero_add]
    simp only [deleteAll, sliceDelete_mid]
    congr 1
    rw [List.filter_append, List.filter_cons, hd]
    simp only [Bool.not_true, Bool.false_eq_true, if_false]
    rw [List.filter_eq_self.mpr (fun a ha => by simp [hpre' a ha]),
      List.filter_eq_self.mpr (fun a ha => by simp [hpost' a ha])]
  · have hall : ∀ m ∈ ms, isDropped resolves m = false := by
      intro m hm
      cases hd : isDropped resolves m with
      | false => rfl
      | true => exact absurd ⟨m, hm, hd⟩ hex
    rw [toDelete_none 0 hall]
    simp only [deleteAll]
    rw [List.filter_eq_self.mpr (fun a ha => by simp [hall a ha])]

/-- **C06 is violated**: with two unresolvable documents a resolvable one is dropped and
an unresolvable one processed. -/
theorem C06_drop_violated :
    ∃ (resolves : String → Bool) (ms r : List Modification),
      processedBatch resolves ms = .ok r ∧
      r ≠ ms.filter (fun m => resolves m.uri) :=
  ⟨fun u => u == "good", [⟨"bad1", .change, 1, ""⟩, ⟨"bad2", .change, 1, ""⟩, ⟨"good", .change, 1, ""⟩],
    [⟨"bad2", .change, 1, ""⟩], by decide, by decide⟩

/-- **C06 is violated**: two unresolvable documents, the second one last in the batch,
crash the server. -/
theorem C06_crash_violated :
    ∃ (resolves : String → Bool) (ms : List Modification),
      processedBatch resolves ms = .panic :=
  ⟨fun u => u == "good", [⟨"bad1", .change, 1, ""⟩, ⟨"good", .change, 1, ""⟩, ⟨"bad2", .change, 1, ""⟩],
    by decide⟩

/-- Instance of the partial theorem with something dropped in the middle. -/
example : processedBatch (fun u => u == "a" || u == "c")
    [⟨"a", .change, 1, ""⟩, ⟨"b", .save, 1, ""⟩, ⟨"c", .delete, 1, ""⟩] =
    .ok [⟨"a", .change, 1, ""⟩, ⟨"c", .delete, 1, ""⟩] := by decide

end Verif.Documents
