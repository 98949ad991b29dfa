import Mathlib.Data.List.Chain
import Verif.Props.ColumnFormat
/-!
# Properties of the alignment of fields: which fields are aligned with each other (C47, C48)
-/
namespace Verif.ColumnFormat

/-! ### Groups -/

/-- Specification: the declaration `b`, directly after `a`, belongs to the columns of `a`: both are of the same
kind, which can be aligned, `b` is complete and written on one line, and either it starts on the line of `a`
or on the next one and has no comment before it, or it directly follows the end of `a`, which allows it. -/
def Close (a b : Elem) : Prop :=
  a.kind = b.kind ∧ b.kind ≠ none ∧ b.incomplete = false ∧ b.alone = false ∧
  (((b.startLine = a.startLine ∨ b.startLine = a.startLine + 1) ∧ b.commented = false) ∨
   (b.startLine ≠ a.startLine ∧ b.startLine ≠ a.startLine + 1 ∧ b.startLine = a.endLine + 1 ∧ a.flex = true))

/-- Specification: the group `x` ends before the group `y`: their neighbours are not close, or `x` is a single
declaration that is written on several lines. -/
def Ends (x y : List Elem) : Prop :=
  ∀ a, x.getLast? = some a → ∀ b, y.head? = some b → ¬ Close a b ∨ (x = [a] ∧ a.alone = true)

structure J (g : Groups) : Prop where
  chain : ∀ x ∈ g.groups, x.IsChain Close
  cur : g.current.IsChain Close
  ends : g.groups.IsChain Ends
  last : ∀ x, g.groups.getLast? = some x → g.current ≠ [] → Ends x g.current

theorem J_startNew {g : Groups} (h : J g) : J (startNew g) := by
  by_cases hc : g.current = []
  · have : startNew g = { g with current := [] } := by simp [startNew, hc]
    rw [this]
    exact ⟨h.chain, .nil, h.ends, fun _ _ hn => absurd rfl hn⟩
  · have : startNew g = { groups := g.groups ++ [g.current], current := [] } := by simp [startNew, hc]
    rw [this]
    refine ⟨?_, .nil, ?_, fun _ _ hn => absurd rfl hn⟩
    · intro x hx
      rcases List.mem_append.1 hx with hx | hx
      · exact h.chain x hx
      · rw [List.mem_singleton.1 hx]; exact h.cur
    · refine List.isChain_append.2 ⟨h.ends, List.isChain_singleton _, ?_⟩
      intro x hx y hy
      have hy : y = g.current := by simpa using hy.symm
      subst hy
      exact h.last x hx hc

theorem J_first {g : Groups} {e : Elem} (h : J g) (hc : g.current = [])
    (he : ∀ x, g.groups.getLast? = some x → Ends x [e]) : J (add g e) := by
  refine ⟨h.chain, ?_, h.ends, ?_⟩
  · simp only [add, hc, List.nil_append]; exact List.isChain_singleton _
  · intro x hx _
    simp only [add, hc, List.nil_append]
    exact he x hx

theorem J_next {g : Groups} {e p : Elem} (h : J g) (hp : g.current.getLast? = some p) (hpe : Close p e) : J (add g e) := by
  have hne : g.current ≠ [] := by rintro hn; rw [hn] at hp; cases hp
  refine ⟨h.chain, ?_, h.ends, ?_⟩
  · refine List.isChain_append.2 ⟨h.cur, List.isChain_singleton _, ?_⟩
    intro x hx y hy
    rw [hp] at hx
    cases hx
    cases hy
    exact hpe
  · intro x hx _ a ha b hb
    refine h.last x hx hne a ha b ?_
    have hb : (g.current ++ [e]).head? = some b := hb
    rwa [List.head?_append_of_ne_nil _ hne] at hb

/-- What is known after `prev` was placed. -/
structure L (g : Groups) (prev : Elem) : Prop where
  closed : ∀ x, (startNew g).groups.getLast? = some x → x.getLast? = some prev
  open_ : ∀ p, g.current.getLast? = some p → p = prev
  empty : g.current = [] → ∀ x, g.groups.getLast? = some x → prev.kind = none ∨ (x = [prev] ∧ prev.alone = true)

theorem getLast?_startNew_add (g : Groups) (e : Elem) :
    (startNew (add g e)).groups = g.groups ++ [g.current ++ [e]] := by
  simp [startNew, add]

theorem L_add (g : Groups) (e : Elem) : L (add g e) e := by
  refine ⟨?_, ?_, ?_⟩
  · intro x hx
    rw [getLast?_startNew_add] at hx
    simp only [List.getLast?_append, List.getLast?_singleton, Option.some_or, Option.some.injEq] at hx
    rw [← hx]; simp
  · intro p hp
    have hp : (g.current ++ [e]).getLast? = some p := hp
    simpa using hp.symm
  · intro h
    have h : g.current ++ [e] = [] := h
    simp at h

theorem L_single (g : Groups) (e : Elem) (h : e.kind = none ∨ e.alone = true) : L (startNew (add (startNew g) e)) e := by
  have hg : (startNew (add (startNew g) e)).groups = (startNew g).groups ++ [[e]] := by
    rw [getLast?_startNew_add]; rfl
  refine ⟨?_, ?_, ?_⟩
  · intro x hx
    have : startNew (startNew (add (startNew g) e)) = startNew (add (startNew g) e) := by simp [startNew]
    rw [this, hg] at hx
    simp only [List.getLast?_append, List.getLast?_singleton, Option.some_or, Option.some.injEq] at hx
    rw [← hx]; rfl
  · intro p hp; cases hp
  · intro _ x hx
    rw [hg] at hx
    simp only [List.getLast?_append, List.getLast?_singleton, Option.some_or, Option.some.injEq] at hx
    rcases h with h | h
    · exact .inl h
    · exact .inr ⟨hx.symm, h⟩

theorem L_place (g : Groups) (e : Elem) : L (place g e) e := by
  unfold place
  split
  · rename_i h; exact L_single g e (.inl h)
  · split
    · exact L_add _ _
    · split
      · exact L_add _ _
      · split
        · rename_i h; exact L_single g e (.inr h)
        · split
          · exact L_add _ _
          · split
            · exact L_add _ _
            · exact L_add _ _

theorem J_place {g : Groups} {prev e : Elem} (hJ : J g) (hL : L g prev) :
    J (place (if e.kind ≠ prev.kind then startNew g else g) e) := by
  have hS := J_startNew hJ
  -- starting a new group before `e` is right if `e` is not close to `prev`
  have start : ¬ Close prev e → J (add (startNew g) e) := by
    intro hn
    refine J_first hS rfl ?_
    intro x hx a ha b hb
    cases hb
    have := hL.closed x hx
    rw [ha] at this
    cases this
    exact .inl hn
  by_cases hk : e.kind = prev.kind
  · rw [if_neg (by simpa using hk)]
    cases hek : e.kind with
    | none =>
      have : place g e = startNew (add (startNew g) e) := by simp [place, hek]
      rw [this]
      exact J_startNew (start (fun hc => hc.2.1 hek))
    | some k =>
      have hkn : e.kind ≠ none := by rw [hek]; simp
      cases hl : g.current.getLast? with
      | none =>
        have : place g e = add g e := by simp [place, hek, hl]
        rw [this]
        have hc : g.current = [] := List.getLast?_eq_none_iff.1 hl
        refine J_first hJ hc ?_
        intro x hx a ha b hb
        cases hb
        rcases hL.empty hc x hx with h | ⟨h1, h2⟩
        · exact absurd (hk.trans h) hkn
        · subst h1
          cases ha
          exact .inr ⟨rfl, h2⟩
      | some p =>
        have hp := hL.open_ p hl
        subst hp
        have : place g e = (if e.incomplete then add (startNew g) e
            else if e.alone then startNew (add (startNew g) e)
            else if e.startLine = p.startLine ∨ e.startLine = p.startLine + 1 then
              add (if e.commented then startNew g else g) e
            else if e.startLine = p.endLine + 1 ∧ p.flex then add g e
            else add (startNew g) e) := by simp [place, hek, hl]
        rw [this]
        by_cases h1 : e.incomplete = true
        · rw [if_pos h1]
          exact start (fun hc => by rw [hc.2.2.1] at h1; cases h1)
        · rw [if_neg h1]
          by_cases h2 : e.alone = true
          · rw [if_pos h2]
            exact J_startNew (start (fun hc => by rw [hc.2.2.2.1] at h2; cases h2))
          · rw [if_neg h2]
            have h1 : e.incomplete = false := by simpa using h1
            have h2 : e.alone = false := by simpa using h2
            by_cases h3 : e.startLine = p.startLine ∨ e.startLine = p.startLine + 1
            · rw [if_pos h3]
              by_cases h4 : e.commented = true
              · rw [if_pos h4]
                refine start ?_
                rintro ⟨_, _, _, _, h | h⟩
                · rw [h.2] at h4; cases h4
                · rcases h3 with h3 | h3
                  · exact h.1 h3
                  · exact h.2.1 h3
              · rw [if_neg h4]
                exact J_next hJ hl ⟨hk.symm, hkn, h1, h2, .inl ⟨h3, by simpa using h4⟩⟩
            · rw [if_neg h3]
              by_cases h4 : e.startLine = p.endLine + 1 ∧ p.flex = true
              · rw [if_pos h4]
                exact J_next hJ hl ⟨hk.symm, hkn, h1, h2, .inr ⟨fun h => h3 (.inl h), fun h => h3 (.inr h), h4.1, h4.2⟩⟩
              · rw [if_neg h4]
                refine start ?_
                rintro ⟨_, _, _, _, h | h⟩
                · exact h3 h.1
                · exact h4 ⟨h.2.2.1, h.2.2.2⟩
  · rw [if_pos hk]
    have hn : ¬ Close prev e := fun hc => hk hc.1.symm
    cases hek : e.kind with
    | none =>
      have : place (startNew g) e = startNew (add (startNew (startNew g)) e) := by simp [place, hek]
      rw [this]
      have : startNew (startNew g) = startNew g := by simp [startNew]
      rw [this]
      exact J_startNew (start hn)
    | some k =>
      have : place (startNew g) e = add (startNew g) e := by simp [place, hek, startNew]
      rw [this]
      exact start hn

theorem J_groupLoop (es : List Elem) : ∀ (g : Groups) (prev : Elem), J g → L g prev → J (groupLoop g prev.kind es) := by
  induction es with
  | nil => intro g prev h _; exact h
  | cons e es ih =>
    intro g prev hJ hL
    unfold groupLoop
    exact ih _ e (J_place hJ hL) (L_place _ _)

theorem J_init (e : Elem) : J (place {} e) := by
  have h0 : J {} := ⟨by simp, .nil, .nil, by simp⟩
  have h1 : J (add {} e) := J_first h0 rfl (by simp)
  cases hek : e.kind with
  | none =>
    have : place {} e = startNew (add {} e) := by simp [place, hek, startNew]
    rw [this]; exact J_startNew h1
  | some k =>
    have : place {} e = add {} e := by simp [place, hek]
    rw [this]; exact h1

/-- **C48** (part): exactly which declarations are aligned with each other: neighbours in a group are close, and where a
group ends its last declaration is not close to the first one of the next group, except after a declaration
that is written on several lines. -/
theorem C48_close (es : List Elem) : (∀ g ∈ groups es, g.IsChain Close) ∧ (groups es).IsChain Ends := by
  cases es with
  | nil => exact ⟨by simp [groups], .nil⟩
  | cons e es =>
    have := J_startNew (J_groupLoop es (place {} e) e (J_init e) (L_place _ _))
    exact ⟨this.chain, this.ends⟩

/-! ### Blocks -/

/-- Specification: the number of bytes of the type and the name. -/
def width (f : Field) : Nat := f.typeName.length + f.fieldName.length

/-- The size of a field lies between two thirds of its width and its width. -/
theorem C47_size (f : Field) : size f ≤ width f ∧ 2 * width f ≤ 3 * size f + 2 ∧ (f.fieldName.length ≤ 3 → size f = width f) := by
  unfold size width
  split
  · omega
  · rename_i h
    refine ⟨by omega, by omega, fun h3 => absurd (.inl h3) h⟩

/-- **C47** (part): fields of at most 40 bytes (type and name) are all aligned with each other. -/
theorem C47_short (far : List Nat → Nat → Bool) (fs : List Field) (h : ∀ f ∈ fs, width f ≤ 40) : blocks far fs = [fs] :=
  C47_small far fs (fun f hf => Nat.le_trans (C47_size f).1 (h f hf))

/-- Specification: a block before which the field `f` starts a new one: `f` and the last field of the block have a positive
size, one of them has more than 40, and `f` is far from the positive sizes of the block. -/
def Break (far : List Nat → Nat → Bool) (block : List Field) (f : Field) : Prop :=
  ∃ l, block.getLast? = some l ∧ 0 < size f ∧ 0 < size l ∧ (40 < size l ∨ 40 < size f) ∧
    far ((block.map size).filter (0 < ·)) (size f) = true

theorem break_iff (far : List Nat → Nat → Bool) (cur : List Field) (f : Field) (p : Nat)
    (hp : p = ((cur.getLast?).map size).getD 0) :
    (size f > 0 ∧ p > 0 ∧ (cur.map size).filter (0 < ·) ≠ [] ∧ (p > 40 ∨ size f > 40) ∧
      far ((cur.map size).filter (0 < ·)) (size f) = true) ↔ Break far cur f := by
  unfold Break
  cases hl : cur.getLast? with
  | none =>
    rw [hl] at hp
    simp only [Option.map_none, Option.getD_none] at hp
    subst hp
    simp
  | some l =>
    rw [hl] at hp
    simp only [Option.map_some, Option.getD_some] at hp
    subst hp
    simp only [Option.some.injEq, exists_eq_left']
    constructor
    · rintro ⟨h1, h2, _, h3, h4⟩; exact ⟨h1, h2, h3, h4⟩
    · rintro ⟨h1, h2, h3, h4⟩
      refine ⟨h1, h2, ?_, h3, h4⟩
      have hm : l ∈ cur := List.mem_of_getLast? hl
      intro hn
      have := List.filter_eq_nil_iff.1 hn (size l) (List.mem_map_of_mem hm)
      simp at this
      omega

/-- Specification: a list of blocks is split right: a new block starts with a field exactly if there is a break. -/
def Split (far : List Nat → Nat → Bool) (bs : List (List Field)) : Prop :=
  (∀ b ∈ bs, ∀ p f q, b = p ++ f :: q → ¬ Break far p f) ∧
  bs.IsChain (fun x y => ∀ f, y.head? = some f → Break far x f)

theorem splitLoop_split (far : List Nat → Nat → Bool) (fs : List Field) : ∀ (cur : List Field),
    (∀ p f q, cur = p ++ f :: q → ¬ Break far p f) →
    Split far (splitLoop far ((cur.getLast?.map size).getD 0) ((cur.map size).filter (0 < ·)) cur fs) ∧
    (cur ≠ [] → ∀ x, (splitLoop far ((cur.getLast?.map size).getD 0) ((cur.map size).filter (0 < ·)) cur fs).head? = some x →
      x.head? = cur.head?) := by
  induction fs with
  | nil =>
    intro cur h
    simp only [splitLoop]
    exact ⟨⟨by intro b hb; rw [List.mem_singleton.1 hb]; exact h, List.isChain_singleton _⟩, by
      intro _ x hx; cases hx; rfl⟩
  | cons f fs ih =>
    intro cur h
    unfold splitLoop
    by_cases hb : Break far cur f
    · rw [if_pos ((break_iff far cur f _ rfl).2 hb)]
      have h1 : ∀ p g q, [f] = p ++ g :: q → ¬ Break far p g := by
        intro p g q hpq
        cases p with
        | nil => rintro ⟨l, hl, _⟩; cases hl
        | cons x xs =>
          simp at hpq
      have h2 := ih [f] h1
      have e : (if size f > 0 then [size f] else []) = (([f].map size).filter (0 < ·)) := by
        by_cases hs : size f > 0
        · rw [if_pos hs]; simp [hs]
        · rw [if_neg hs]; simp [hs]
      rw [e]
      have h2 : Split far (splitLoop far (size f) ((([f].map size).filter (0 < ·))) [f] fs) ∧
        ([f] ≠ [] → ∀ x, (splitLoop far (size f) ((([f].map size).filter (0 < ·))) [f] fs).head? = some x → x.head? = [f].head?) := h2
      refine ⟨⟨?_, ?_⟩, ?_⟩
      · intro b hb'
        rcases List.mem_cons.1 hb' with rfl | hb'
        · exact h
        · exact h2.1.1 b hb'
      · refine List.IsChain.cons h2.1.2 ?_
        intro y hy g hg
        have := h2.2 (by simp) y hy
        rw [hg] at this
        cases this
        exact hb
      · intro _ x hx; cases hx; rfl
    · rw [if_neg (fun h' => hb ((break_iff far cur f _ rfl).1 h'))]
      have e1 : size f = (((cur ++ [f]).getLast?).map size).getD 0 := by simp
      have e2 : (if size f > 0 then (cur.map size).filter (0 < ·) ++ [size f] else (cur.map size).filter (0 < ·)) =
          ((cur ++ [f]).map size).filter (0 < ·) := by
        by_cases hs : size f > 0
        · rw [if_pos hs]; simp [hs, List.filter_append]
        · rw [if_neg hs]
          have h0 : size f = 0 := by omega
          simp [h0, List.filter_append]
      rw [e2]
      have h1 : ∀ p g q, cur ++ [f] = p ++ g :: q → ¬ Break far p g := by
        intro p g q hpq
        rcases List.append_eq_append_iff.1 hpq with ⟨a, h1, h2⟩ | ⟨a, h1, h2⟩
        · cases a with
          | nil =>
            simp only [List.append_nil] at h1
            subst h1
            cases h2
            exact hb
          | cons c cs =>
            simp at h2
        · cases a with
          | nil =>
            simp only [List.append_nil, List.nil_append] at h1 h2
            subst h1
            cases h2
            exact hb
          | cons c cs =>
            cases h2
            exact h p g cs h1
      have h2 := ih (cur ++ [f]) h1
      rw [← e1] at h2
      refine ⟨h2.1, ?_⟩
      intro hne x hx
      rw [h2.2 (by simp) x hx, List.head?_append_of_ne_nil _ hne]

/-- **C47** (part): exactly which fields of a group are aligned with each other: a field starts a new block if and
only if there is a break before it. -/
theorem C47_blocks (far : List Nat → Nat → Bool) (fs : List Field) : Split far (blocks far fs) := by
  refine (splitLoop_split far fs [] ?_).1
  intro p f q h
  cases p <;> cases h

/-- **C47** (part): a new block is only started next to a field of more than 40 bytes. -/
theorem C47_break_long (far : List Nat → Nat → Bool) (b : List Field) (f : Field) (h : Break far b f) :
    ∃ l, b.getLast? = some l ∧ (40 < width l ∨ 40 < width f) := by
  obtain ⟨l, hl, _, _, h40, _⟩ := h
  refine ⟨l, hl, ?_⟩
  have h1 := (C47_size l).1
  have h2 := (C47_size f).1
  omega

/-! ### Absent parts -/

/-- **C47** (part): a part that no field has takes no room: if no field has a type, nothing is put between the
context and the name; if no field has a name, nothing between it and the sign `=`. -/
theorem C47_absent (b : List Field) : ∃ lines : List Str, writeBlock b = lines.flatten ∧ lines.length = b.length ∧
    ∀ (i : Nat) (f : Field) (s : Str), b[i]? = some f → lines[i]? = some s → ∃ p1 p2 p3, Laid f s p1 p2 p3 ∧
      ((∀ x ∈ b, x.typeName = []) → p1 = 0) ∧ ((∀ x ∈ b, x.fieldName = []) → p2 = 0) := by
  refine ⟨(b.map strip).map (writeField (column Field.typeName b) (column Field.fieldName b) (column Field.equalsTag b)), ?_, by simp, ?_⟩
  · unfold writeBlock
    rw [List.flatMap_def]
  · intro i f s hf hs
    have hmem : f ∈ b := List.mem_of_getElem? hf
    rw [List.getElem?_map, List.getElem?_map, hf] at hs
    simp only [Option.map_some, Option.some.injEq] at hs
    obtain ⟨h1, h2, h3, h4, h5⟩ := strip_parts f
    have zero : ∀ part : Field → Str, (∀ x ∈ b, part x = []) → column part b - (part f).length + gap (part f) = 0 := by
      intro part hp
      obtain ⟨x, hx, hc⟩ := column_attained part b (List.ne_nil_of_mem hmem)
      rw [← hc, hp x hx, hp f hmem]
      rfl
    unfold writeField at hs
    rw [h1, h2, h3, h4] at hs
    split at hs
    · exact ⟨_, _, 0, ⟨(strip f).lineEnd, h5, by rw [← hs]; simp [spaces]⟩, zero Field.typeName, zero Field.fieldName⟩
    · exact ⟨_, _, column Field.equalsTag b - f.equalsTag.length + gap f.equalsTag,
        ⟨(strip f).lineEnd, h5, by rw [← hs]; simp [spaces]⟩, zero Field.typeName, zero Field.fieldName⟩

/-! ### Examples -/

example : Close (elem 0 1) (elem 1 2) := by unfold Close elem; simp
example : ¬ Close (elem 4 6) (elem 5 8) := by unfold Close elem; simp
example : width fieldB = 8 := rfl

def longField : Field := ⟨[], List.replicate 60 't', ['a'], [], [';']⟩

example : blocks (fun _ n => decide (n = 61)) [fieldA, longField] = [[fieldA], [longField]] := by decide +kernel
example : Break (fun _ n => decide (n = 61)) [fieldA] longField := ⟨fieldA, rfl, by decide +kernel, by decide +kernel, by decide +kernel, by decide +kernel⟩
example : ∀ x ∈ [{ fieldA with typeName := [] }], x.typeName = [] := by simp

end Verif.ColumnFormat
