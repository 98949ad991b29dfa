import Verif.Model.ColumnFormat
/-!
# Properties of the alignment of fields: C47, C48
-/
namespace Verif.ColumnFormat

/-! ### Groups: C48 -/

/-- All elements that are in a group so far. -/
def Groups.all (g : Groups) : List Elem := g.groups.flatten ++ g.current

/-- Invariant of the groups. -/
structure Inv (g : Groups) (kind : Option Nat) : Prop where
  nonempty : ∀ x ∈ g.groups, x ≠ []
  same : ∀ x ∈ g.groups, ∀ a ∈ x, ∀ b ∈ x, a.kind = b.kind
  alone : ∀ x ∈ g.groups, (∃ a ∈ x, a.kind = none) → x.length = 1
  first : ∀ x ∈ g.groups, ∀ a ∈ x.tail, a.incomplete = false
  current : ∀ a ∈ g.current, a.kind = kind ∧ a.kind ≠ none
  currentFirst : ∀ a ∈ g.current.tail, a.incomplete = false

theorem all_startNew (g : Groups) : (startNew g).all = g.all := by
  unfold startNew Groups.all
  simp only
  split
  · rename_i h; rw [h]
  · simp

theorem all_add (g : Groups) (e : Elem) : (add g e).all = g.all ++ [e] := by
  simp [add, Groups.all]

theorem all_place (g : Groups) (e : Elem) : (place g e).all = g.all ++ [e] := by
  unfold place
  split
  · rw [all_startNew, all_add, all_startNew]
  · split
    · rw [all_add]
    · split
      · rw [all_add, all_startNew]
      · split
        · rw [all_startNew, all_add, all_startNew]
        · split
          · rw [all_add]
            split
            · rw [all_startNew]
            · rfl
          · split
            · rw [all_add]
            · rw [all_add, all_startNew]

theorem all_groupLoop (es : List Elem) : ∀ (g : Groups) (k : Option Nat), (groupLoop g k es).all = g.all ++ es := by
  induction es with
  | nil => intro g k; simp [groupLoop]
  | cons e es ih =>
    intro g k
    unfold groupLoop
    rw [ih, all_place]
    split
    · rw [all_startNew]; simp
    · simp

theorem inv_startNew {g : Groups} {k : Option Nat} (h : Inv g k) (k' : Option Nat) : Inv (startNew g) k' := by
  have mem : ∀ x ∈ (startNew g).groups, x ∈ g.groups ∨ (x = g.current ∧ g.current ≠ []) := by
    intro x hx
    unfold startNew at hx
    simp only at hx
    split at hx
    · exact .inl hx
    · rename_i hne
      rcases List.mem_append.1 hx with hx | hx
      · exact .inl hx
      · exact .inr ⟨List.mem_singleton.1 hx, hne⟩
  constructor
  · intro x hx
    rcases mem x hx with hx | ⟨rfl, hne⟩
    · exact h.nonempty x hx
    · exact hne
  · intro x hx a ha b hb
    rcases mem x hx with hx | ⟨rfl, hx⟩
    · exact h.same x hx a ha b hb
    · rw [(h.current a ha).1, (h.current b hb).1]
  · intro x hx ha
    rcases mem x hx with hx | ⟨rfl, hx⟩
    · exact h.alone x hx ha
    · obtain ⟨a, ha, hn⟩ := ha
      exact absurd hn (h.current a ha).2
  · intro x hx a ha
    rcases mem x hx with hx | ⟨rfl, hx⟩
    · exact h.first x hx a ha
    · exact h.currentFirst a ha
  · intro a ha; cases ha
  · intro a ha; cases ha

theorem startNew_current (g : Groups) : (startNew g).current = [] := rfl

theorem inv_add {g : Groups} {k : Option Nat} (h : Inv g k) (e : Elem) (he : e.kind = k) (hn : e.kind ≠ none)
    (hc : g.current = [] ∨ e.incomplete = false) : Inv (add g e) k := by
  refine ⟨h.nonempty, h.same, h.alone, h.first, ?_, ?_⟩
  · intro a ha
    rcases List.mem_append.1 ha with ha | ha
    · exact h.current a ha
    · rw [List.mem_singleton.1 ha]; exact ⟨he, hn⟩
  · intro a ha
    have ha : a ∈ (g.current ++ [e]).tail := ha
    cases hcur : g.current with
    | nil => rw [hcur] at ha; cases ha
    | cons c cs =>
      rw [hcur] at ha
      have ha : a ∈ cs ++ [e] := ha
      rcases List.mem_append.1 ha with ha | ha
      · exact h.currentFirst a (by rw [hcur]; exact ha)
      · rw [List.mem_singleton.1 ha]
        rcases hc with hc | hc
        · rw [hcur] at hc; cases hc
        · exact hc

/-- A node that is not grouped. -/
theorem inv_single {g : Groups} {k : Option Nat} (h : Inv g k) (e : Elem) (k' : Option Nat) :
    Inv (startNew (add (startNew g) e)) k' := by
  have h1 := inv_startNew h k'
  have e1 : (startNew (add (startNew g) e)).groups = (startNew g).groups ++ [[e]] := by
    simp [startNew, add]
  constructor
  · intro x hx
    rw [e1] at hx
    rcases List.mem_append.1 hx with hx | hx
    · exact h1.nonempty x hx
    · rw [List.mem_singleton.1 hx]; simp
  · intro x hx a ha b hb
    rw [e1] at hx
    rcases List.mem_append.1 hx with hx | hx
    · exact h1.same x hx a ha b hb
    · rw [List.mem_singleton.1 hx] at ha hb
      rw [List.mem_singleton.1 ha, List.mem_singleton.1 hb]
  · intro x hx ha
    rw [e1] at hx
    rcases List.mem_append.1 hx with hx | hx
    · exact h1.alone x hx ha
    · rw [List.mem_singleton.1 hx]; rfl
  · intro x hx a ha
    rw [e1] at hx
    rcases List.mem_append.1 hx with hx | hx
    · exact h1.first x hx a ha
    · rw [List.mem_singleton.1 hx] at ha; cases ha
  · intro a ha; cases ha
  · intro a ha; cases ha

theorem inv_place {g : Groups} {e : Elem} (h : Inv g e.kind) : Inv (place g e) e.kind := by
  unfold place
  cases hk : e.kind with
  | none => exact inv_single h e none
  | some k =>
    rw [hk] at h
    have hn : e.kind ≠ none := by rw [hk]; simp
    simp only
    cases hl : g.current.getLast? with
    | none => exact inv_add h e hk hn (.inl (List.getLast?_eq_none_iff.1 hl))
    | some prev =>
      simp only
      by_cases hi : e.incomplete = true
      · rw [if_pos hi]
        exact inv_add (inv_startNew h _) e hk hn (.inl rfl)
      · have hi' : e.incomplete = false := by simpa using hi
        rw [if_neg hi]
        split
        · exact inv_single h e _
        · split
          · split
            · exact inv_add (inv_startNew h _) e hk hn (.inl rfl)
            · exact inv_add h e hk hn (.inr hi')
          · split
            · exact inv_add h e hk hn (.inr hi')
            · exact inv_add (inv_startNew h _) e hk hn (.inl rfl)

theorem inv_groupLoop (es : List Elem) : ∀ (g : Groups) (k : Option Nat), Inv g k → ∃ k', Inv (groupLoop g k es) k' := by
  induction es with
  | nil => intro g k h; exact ⟨k, h⟩
  | cons e es ih =>
    intro g k h
    unfold groupLoop
    refine ih _ _ ?_
    by_cases hk : e.kind ≠ k
    · rw [if_pos hk]; exact inv_place (inv_startNew h _)
    · rw [if_neg hk]
      have hk : e.kind = k := Classical.not_not.1 hk
      subst hk
      exact inv_place h

theorem inv_empty (k : Option Nat) : Inv {} k := by
  constructor <;> intro x hx <;> cases hx

theorem inv_groups (es : List Elem) (hne : es ≠ []) : ∃ g k, groups es = (startNew g).groups ∧ Inv g k ∧ g.all = es := by
  cases es with
  | nil => exact absurd rfl hne
  | cons e es =>
    obtain ⟨k', hk'⟩ := inv_groupLoop es (place {} e) e.kind (inv_place (inv_empty _))
    refine ⟨_, k', rfl, hk', ?_⟩
    rw [all_groupLoop, all_place]
    rfl

/-- **C48** (part): the groups contain every declaration exactly once and in order, and no group is empty. -/
theorem C48_groups (es : List Elem) : (groups es).flatten = es ∧ ∀ g ∈ groups es, g ≠ [] := by
  by_cases hne : es = []
  · subst hne; exact ⟨rfl, by intro g hg; cases hg⟩
  · obtain ⟨g, k, h1, h2, h3⟩ := inv_groups es hne
    rw [h1]
    refine ⟨?_, (inv_startNew h2 k).nonempty⟩
    have := all_startNew g
    unfold Groups.all at this
    rw [startNew_current, List.append_nil] at this
    rw [this]
    exact h3

/-- **C48** (part): a group contains declarations of one kind, and a node that cannot be aligned is in a
group of its own; so the writer of a group never meets a node that it cannot write. -/
theorem C48_kinds (es : List Elem) (g : List Elem) (hg : g ∈ groups es) :
    (∀ a ∈ g, ∀ b ∈ g, a.kind = b.kind) ∧ ((∃ a ∈ g, a.kind = none) → g.length = 1) := by
  by_cases hne : es = []
  · subst hne; cases hg
  · obtain ⟨g0, k, h1, h2, h3⟩ := inv_groups es hne
    rw [h1] at hg
    exact ⟨(inv_startNew h2 k).same g hg, (inv_startNew h2 k).alone g hg⟩

/-- **C48** (part): an incomplete field is always the first one of its group. -/
theorem C48_incomplete (es : List Elem) (g : List Elem) (hg : g ∈ groups es) : ∀ a ∈ g.tail, a.incomplete = false := by
  by_cases hne : es = []
  · subst hne; cases hg
  · obtain ⟨g0, k, h1, h2, h3⟩ := inv_groups es hne
    rw [h1] at hg
    exact (inv_startNew h2 k).first g hg

theorem startIndexes_get (gs : List (List Elem)) : ∀ (start j i s : Nat) (g : List Elem) (a : Elem), gs[j]? = some g →
    (startIndexes start gs)[j]? = some s → g[i]? = some a → start ≤ s ∧ gs.flatten[s - start + i]? = some a := by
  induction gs with
  | nil => intro start j i s g a h; simp at h
  | cons x xs ih =>
    intro start j i s g a h1 h2 h3
    cases j with
    | zero =>
      simp only [List.getElem?_cons_zero, Option.some.injEq, startIndexes] at h1 h2
      subst h1 h2
      refine ⟨Nat.le_refl _, ?_⟩
      have hi : i < x.length := by
        obtain ⟨h, _⟩ := List.getElem?_eq_some_iff.1 h3
        exact h
      rw [List.flatten_cons, List.getElem?_append_left (by omega), show start - start + i = i by omega]
      exact h3
    | succ j =>
      simp only [List.getElem?_cons_succ, startIndexes] at h1 h2
      obtain ⟨k1, k2⟩ := ih _ j i s g a h1 h2 h3
      refine ⟨by omega, ?_⟩
      rw [List.flatten_cons, List.getElem?_append_right (by omega), show s - start + i - x.length = s - (start + x.length) + i by omega]
      exact k2

/-- **C48** (part): the index computed for an element of a group is its index in the list of
declarations. -/
theorem C48_index (es : List Elem) (j i s : Nat) (g : List Elem) (a : Elem) (h1 : (groups es)[j]? = some g)
    (h2 : (startIndexes 0 (groups es))[j]? = some s) (h3 : g[i]? = some a) : es[s + i]? = some a := by
  have := (startIndexes_get (groups es) 0 j i s g a h1 h2 h3).2
  rw [(C48_groups es).1] at this
  exact this

/-! ### Blocks: C48 -/

theorem splitLoop_flatten (far : List Nat → Nat → Bool) (fs : List Field) : ∀ (p : Nat) (sizes : List Nat) (cur : List Field),
    (splitLoop far p sizes cur fs).flatten = cur ++ fs := by
  induction fs with
  | nil => intro p sizes cur; simp [splitLoop]
  | cons f fs ih =>
    intro p sizes cur
    unfold splitLoop
    split
    · rw [List.flatten_cons, ih]; simp
    · rw [ih]; simp

theorem splitLoop_nonempty (far : List Nat → Nat → Bool) (fs : List Field) : ∀ (p : Nat) (sizes : List Nat) (cur : List Field),
    (sizes ≠ [] → cur ≠ []) → (cur ≠ [] ∨ fs ≠ []) → ∀ b ∈ splitLoop far p sizes cur fs, b ≠ [] := by
  induction fs with
  | nil =>
    intro p sizes cur _ h b hb
    rw [splitLoop, List.mem_singleton] at hb
    rw [hb]
    rcases h with h | h
    · exact h
    · exact absurd rfl h
  | cons f fs ih =>
    intro p sizes cur h _ b hb
    unfold splitLoop at hb
    split at hb
    · rename_i hc
      rcases List.mem_cons.1 hb with rfl | hb
      · exact h hc.2.2.1
      · exact ih _ _ _ (by intro _; simp) (.inl (by simp)) b hb
    · exact ih _ _ _ (by intro _; simp) (.inl (by simp)) b hb

/-- **C48** (part): the blocks contain every field exactly once and in order, and no block is empty. -/
theorem C48_blocks (far : List Nat → Nat → Bool) (fs : List Field) :
    (blocks far fs).flatten = fs ∧ (fs ≠ [] → ∀ b ∈ blocks far fs, b ≠ []) := by
  constructor
  · exact splitLoop_flatten far fs 0 [] []
  · intro h
    exact splitLoop_nonempty far fs 0 [] [] (fun h => absurd rfl h) (.inr h)

theorem splitLoop_small (far : List Nat → Nat → Bool) (fs : List Field) (h : ∀ f ∈ fs, size f ≤ 40) :
    ∀ (p : Nat) (sizes : List Nat) (cur : List Field), p ≤ 40 → splitLoop far p sizes cur fs = [cur ++ fs] := by
  induction fs with
  | nil => intro p sizes cur _; simp [splitLoop]
  | cons f fs ih =>
    intro p sizes cur hp
    have hf := h f (by simp)
    unfold splitLoop
    rw [if_neg (by omega), ih (fun x hx => h x (List.mem_cons_of_mem _ hx)) _ _ _ hf]
    simp

/-- **C47** (part): fields that are not long are all aligned with each other. -/
theorem C47_small (far : List Nat → Nat → Bool) (fs : List Field) (h : ∀ f ∈ fs, size f ≤ 40) : blocks far fs = [fs] :=
  splitLoop_small far fs h 0 [] [] (by omega)

/-! ### Columns: C47 -/

theorem foldl_max_ge (part : Field → Str) (fs : List Field) : ∀ m, m ≤ fs.foldl (fun m f => max m (part f).length) m ∧
    ∀ f ∈ fs, (part f).length ≤ fs.foldl (fun m f => max m (part f).length) m := by
  induction fs with
  | nil => intro m; exact ⟨Nat.le_refl _, by intro f hf; cases hf⟩
  | cons f fs ih =>
    intro m
    obtain ⟨h1, h2⟩ := ih (max m (part f).length)
    rw [List.foldl_cons]
    refine ⟨by omega, ?_⟩
    intro x hx
    rcases List.mem_cons.1 hx with rfl | hx
    · omega
    · exact h2 x hx

theorem foldl_max_attained (part : Field → Str) (fs : List Field) : ∀ m, fs.foldl (fun m f => max m (part f).length) m = m ∨
    ∃ f ∈ fs, (part f).length = fs.foldl (fun m f => max m (part f).length) m := by
  induction fs with
  | nil => intro m; exact .inl rfl
  | cons f fs ih =>
    intro m
    rw [List.foldl_cons]
    rcases ih (max m (part f).length) with h | ⟨x, hx, h⟩
    · rw [h]
      by_cases hm : (part f).length ≤ m
      · exact .inl (by omega)
      · exact .inr ⟨f, by simp, by omega⟩
    · exact .inr ⟨x, List.mem_cons_of_mem _ hx, h⟩

theorem column_ge (part : Field → Str) (fs : List Field) : ∀ f ∈ fs, (part f).length ≤ column part fs :=
  (foldl_max_ge part fs 0).2

theorem column_attained (part : Field → Str) (fs : List Field) (hne : fs ≠ []) :
    ∃ f ∈ fs, (part f).length = column part fs := by
  rcases foldl_max_attained part fs 0 with h | h
  · obtain ⟨f, fs', rfl⟩ := List.exists_cons_of_ne_nil hne
    refine ⟨f, by simp, ?_⟩
    have := column_ge part (f :: fs') f (by simp)
    unfold column at this ⊢
    omega
  · exact h

/-- Specification: the end of a field, without the one leading space that may be left from the writer of an
option list. -/
def IsEnd (lineEnd e : Str) : Prop := (lineEnd = e ∧ e.head? ≠ some ' ') ∨ lineEnd = ' ' :: e

/-- Specification: a field written with the given numbers of blanks between its parts. -/
structure Laid (f : Field) (s : Str) (p1 p2 p3 : Nat) : Prop where
  text : ∃ e, IsEnd f.lineEnd e ∧
    s = f.ctx ++ f.typeName ++ spaces p1 ++ f.fieldName ++ spaces p2 ++ f.equalsTag ++ spaces p3 ++ e

theorem strip_parts (f : Field) : (strip f).ctx = f.ctx ∧ (strip f).typeName = f.typeName ∧ (strip f).fieldName = f.fieldName ∧
    (strip f).equalsTag = f.equalsTag ∧ IsEnd f.lineEnd (strip f).lineEnd := by
  unfold strip
  split
  · rename_i t h
    exact ⟨rfl, rfl, rfl, rfl, .inr h⟩
  · rename_i h
    refine ⟨rfl, rfl, rfl, rfl, .inl ⟨rfl, ?_⟩⟩
    intro hh
    cases hl : f.lineEnd with
    | nil => rw [hl] at hh; cases hh
    | cons c t =>
      rw [hl] at hh
      cases hh
      exact h t hl

/-- Specification: the ends of the parts are aligned: no text in the part, or one blank after the longest. -/
def endOf (t : Nat) (s : Str) : Nat := t + gap s

theorem pad_length (t : Nat) (s : Str) (h : s.length ≤ t) : s.length + (t - s.length + gap s) = endOf t s := by
  unfold endOf
  omega

/-- **C47** (part): aligning a block only adds blanks between the parts of each field, and removes at most
one blank before the end of the field; fields stay in order. -/
theorem C47_content (b : List Field) : ∃ lines : List Str, writeBlock b = lines.flatten ∧
    lines.length = b.length ∧ ∀ (i : Nat) (f : Field) (s : Str), b[i]? = some f → lines[i]? = some s → ∃ p1 p2 p3, Laid f s p1 p2 p3 := by
  refine ⟨(b.map strip).map (writeField (column Field.typeName b) (column Field.fieldName b) (column Field.equalsTag b)), ?_, by simp, ?_⟩
  · unfold writeBlock
    rw [List.flatMap_def]
  · intro i f s hf hs
    rw [List.getElem?_map, List.getElem?_map, hf] at hs
    simp only [Option.map_some, Option.some.injEq] at hs
    obtain ⟨h1, h2, h3, h4, h5⟩ := strip_parts f
    unfold writeField at hs
    rw [h1, h2, h3, h4] at hs
    split at hs
    · exact ⟨column Field.typeName b - f.typeName.length + gap f.typeName, column Field.fieldName b - f.fieldName.length + gap f.fieldName, 0,
        ⟨(strip f).lineEnd, h5, by rw [← hs]; simp [spaces]⟩⟩
    · exact ⟨column Field.typeName b - f.typeName.length + gap f.typeName, column Field.fieldName b - f.fieldName.length + gap f.fieldName,
        column Field.equalsTag b - f.equalsTag.length + gap f.equalsTag, ⟨(strip f).lineEnd, h5, by rw [← hs]; simp [spaces]⟩⟩

/-- Specification: the part is present in all fields or in none. -/
def Uniform (part : Field → Str) (b : List Field) : Prop := (∀ f ∈ b, part f = []) ∨ ∀ f ∈ b, part f ≠ []

theorem uniform_gap {part : Field → Str} {b : List Field} (h : Uniform part b) : ∀ f ∈ b, ∀ f' ∈ b, gap (part f) = gap (part f') := by
  intro f hf f' hf'
  unfold gap
  rcases h with h | h
  · rw [h f hf, h f' hf']
  · rw [if_neg (by simpa using h f hf), if_neg (by simpa using h f' hf')]

/-- **C47** (part): in a block, all names start in the same column, all signs `=` start in the same column,
and so do all ends of fields that do not start with a semicolon. Columns are counted from the start of the
first part; a part is present in all fields of the block or in none. -/
theorem C47_aligned (b : List Field) (ht : Uniform Field.typeName b) (hn : Uniform Field.fieldName b)
    (hq : Uniform Field.equalsTag b) : ∃ (lines : List Str) (c1 c2 c3 : Nat), writeBlock b = lines.flatten ∧
    lines.length = b.length ∧ ∀ (i : Nat) (f : Field) (s : Str), b[i]? = some f → lines[i]? = some s →
      ∃ x y z e, s = f.ctx ++ x ++ y ++ z ++ e ∧ IsEnd f.lineEnd e ∧
        (∃ p, x = f.typeName ++ spaces p) ∧ x.length = c1 ∧
        (∃ p, y = f.fieldName ++ spaces p) ∧ (x ++ y).length = c2 ∧
        (∃ p, z = f.equalsTag ++ spaces p) ∧ (e.head? = some ';' → z = f.equalsTag) ∧
        (e.head? ≠ some ';' → (x ++ y ++ z).length = c3) := by
  cases b with
  | nil =>
    refine ⟨[], 0, 0, 0, rfl, rfl, ?_⟩
    intro i f s hf
    simp at hf
  | cons f0 b0 =>
    have hf0 : f0 ∈ f0 :: b0 := by simp
    generalize hb : f0 :: b0 = b at *
    refine ⟨(b.map strip).map (writeField (column Field.typeName b) (column Field.fieldName b) (column Field.equalsTag b)),
      endOf (column Field.typeName b) f0.typeName,
      endOf (column Field.typeName b) f0.typeName + endOf (column Field.fieldName b) f0.fieldName,
      endOf (column Field.typeName b) f0.typeName + endOf (column Field.fieldName b) f0.fieldName +
        endOf (column Field.equalsTag b) f0.equalsTag, ?_, by simp, ?_⟩
    · unfold writeBlock
      rw [List.flatMap_def]
    intro i f s hf hs
    have hmem : f ∈ b := List.mem_of_getElem? hf
    rw [List.getElem?_map, List.getElem?_map, hf] at hs
    simp only [Option.map_some, Option.some.injEq] at hs
    obtain ⟨h1, h2, h3, h4, h5⟩ := strip_parts f
    unfold writeField at hs
    rw [h1, h2, h3, h4] at hs
    have g1 := uniform_gap ht f hmem f0 hf0
    have g2 := uniform_gap hn f hmem f0 hf0
    have g3 := uniform_gap hq f hmem f0 hf0
    have k1 := column_ge Field.typeName b f hmem
    have k2 := column_ge Field.fieldName b f hmem
    have k3 := column_ge Field.equalsTag b f hmem
    have hx : (f.typeName ++ spaces (column Field.typeName b - f.typeName.length + gap f.typeName)).length =
        endOf (column Field.typeName b) f0.typeName := by
      simp only [List.length_append, spaces, List.length_replicate, endOf]
      omega
    have hy : (f.fieldName ++ spaces (column Field.fieldName b - f.fieldName.length + gap f.fieldName)).length =
        endOf (column Field.fieldName b) f0.fieldName := by
      simp only [List.length_append, spaces, List.length_replicate, endOf]
      omega
    by_cases hsemi : (strip f).lineEnd.head? = some ';'
    · refine ⟨f.typeName ++ spaces (column Field.typeName b - f.typeName.length + gap f.typeName),
        f.fieldName ++ spaces (column Field.fieldName b - f.fieldName.length + gap f.fieldName), f.equalsTag,
        (strip f).lineEnd, ?_, h5, ⟨_, rfl⟩, hx, ⟨_, rfl⟩, by rw [List.length_append, hx, hy], ⟨0, by simp [spaces]⟩, fun _ => rfl,
        fun h => absurd hsemi h⟩
      rw [← hs]
      cases hl : (strip f).lineEnd with
      | nil => rw [hl] at hsemi; cases hsemi
      | cons c t =>
        rw [hl] at hsemi
        cases hsemi
        simp
    · refine ⟨f.typeName ++ spaces (column Field.typeName b - f.typeName.length + gap f.typeName),
        f.fieldName ++ spaces (column Field.fieldName b - f.fieldName.length + gap f.fieldName),
        f.equalsTag ++ spaces (column Field.equalsTag b - f.equalsTag.length + gap f.equalsTag),
        (strip f).lineEnd, ?_, h5, ⟨_, rfl⟩, hx, ⟨_, rfl⟩, by rw [List.length_append, hx, hy], ⟨_, rfl⟩, fun h => absurd h hsemi, ?_⟩
      · rw [← hs]
        split
        · rename_i t hl
          rw [hl] at hsemi
          exact absurd rfl hsemi
        · simp
      · intro _
        rw [List.length_append, List.length_append, hx, hy]
        simp only [List.length_append, spaces, List.length_replicate, endOf]
        omega

/-- **C47** (part): the columns are as narrow as possible: there is at least one blank after every type that
is present, and after the longest one there is exactly one; the same for names. -/
theorem C47_narrow (b : List Field) (hne : b ≠ []) (ht : ∀ f ∈ b, f.typeName ≠ []) (hn : ∀ f ∈ b, f.fieldName ≠ []) :
    (∃ lines : List Str, writeBlock b = lines.flatten ∧ lines.length = b.length ∧
      (∀ (i : Nat) (f : Field) (s : Str), b[i]? = some f → lines[i]? = some s → ∃ p1 p2 p3, Laid f s p1 p2 p3 ∧ 1 ≤ p1 ∧ 1 ≤ p2) ∧
      (∃ (i : Nat) (f : Field) (s : Str), b[i]? = some f ∧ lines[i]? = some s ∧ ∃ p2 p3, Laid f s 1 p2 p3) ∧
      (∃ (i : Nat) (f : Field) (s : Str), b[i]? = some f ∧ lines[i]? = some s ∧ ∃ p1 p3, Laid f s p1 1 p3)) := by
  have lay : ∀ (f : Field), ∃ p3, Laid f (writeField (column Field.typeName b) (column Field.fieldName b) (column Field.equalsTag b) (strip f))
      (column Field.typeName b - f.typeName.length + gap f.typeName)
      (column Field.fieldName b - f.fieldName.length + gap f.fieldName) p3 := by
    intro f
    obtain ⟨h1, h2, h3, h4, h5⟩ := strip_parts f
    unfold writeField
    rw [h1, h2, h3, h4]
    split
    · exact ⟨0, ⟨(strip f).lineEnd, h5, by simp [spaces]⟩⟩
    · exact ⟨column Field.equalsTag b - f.equalsTag.length + gap f.equalsTag, ⟨(strip f).lineEnd, h5, by simp [spaces]⟩⟩
  have gp : ∀ s : Str, s ≠ [] → gap s = 1 := by
    intro s hs
    unfold gap
    rw [if_neg (by simpa using hs)]
  refine ⟨(b.map strip).map (writeField (column Field.typeName b) (column Field.fieldName b) (column Field.equalsTag b)),
    by unfold writeBlock; rw [List.flatMap_def], by simp, ?_, ?_, ?_⟩
  · intro i f s hf hs
    have hmem : f ∈ b := List.mem_of_getElem? hf
    rw [List.getElem?_map, List.getElem?_map, hf] at hs
    simp only [Option.map_some, Option.some.injEq] at hs
    obtain ⟨p3, hp⟩ := lay f
    rw [hs] at hp
    refine ⟨_, _, p3, hp, ?_, ?_⟩
    · rw [gp _ (ht f hmem)]; omega
    · rw [gp _ (hn f hmem)]; omega
  · obtain ⟨f, hf, hc⟩ := column_attained Field.typeName b hne
    obtain ⟨i, hi⟩ := List.getElem?_of_mem hf
    obtain ⟨p3, hp⟩ := lay f
    refine ⟨i, f, _, hi, by rw [List.getElem?_map, List.getElem?_map, hi]; rfl, column Field.fieldName b - f.fieldName.length + gap f.fieldName, p3, ?_⟩
    rw [gp _ (ht f hf), hc, show column Field.typeName b - column Field.typeName b + 1 = 1 by omega] at hp
    exact hp
  · obtain ⟨f, hf, hc⟩ := column_attained Field.fieldName b hne
    obtain ⟨i, hi⟩ := List.getElem?_of_mem hf
    obtain ⟨p3, hp⟩ := lay f
    refine ⟨i, f, _, hi, by rw [List.getElem?_map, List.getElem?_map, hi]; rfl, column Field.typeName b - f.typeName.length + gap f.typeName, p3, ?_⟩
    rw [gp _ (hn f hf), hc, show column Field.fieldName b - column Field.fieldName b + 1 = 1 by omega] at hp
    exact hp

/-! ### A whole group: C48 -/

/-- Specification: an element as it is written. -/
def Written : Item → Str → Prop
  | .whole t, s => s = t
  | .field f, s => ∃ p1 p2 p3, Laid f s p1 p2 p3

/-- Specification: elements written in order. -/
inductive InOrder : List Item → Str → Prop where
  | nil : InOrder [] []
  | cons (i : Item) (s : Str) (is : List Item) (r : Str) : Written i s → InOrder is r → InOrder (i :: is) (s ++ r)

theorem bufferLoop_fields (fs : List Field) : ∀ (acc : List Field),
    bufferLoop [] acc (fs.map Item.field) = ([], acc ++ fs) := by
  induction fs with
  | nil => intro acc; simp [bufferLoop]
  | cons f fs ih =>
    intro acc
    simp only [List.map_cons, bufferLoop, List.nil_append]
    rw [ih]
    simp

theorem inOrder_fields (fs : List Field) (lines : List Str) (hl : lines.length = fs.length)
    (h : ∀ (i : Nat) (f : Field) (s : Str), fs[i]? = some f → lines[i]? = some s → ∃ p1 p2 p3, Laid f s p1 p2 p3) :
    InOrder (fs.map Item.field) lines.flatten := by
  induction fs generalizing lines with
  | nil =>
    cases lines with
    | nil => exact .nil
    | cons _ _ => cases hl
  | cons f fs ih =>
    cases lines with
    | nil => cases hl
    | cons s lines =>
      refine .cons (.field f) s _ _ (h 0 f s rfl rfl) (ih lines (by simpa using hl) ?_)
      intro i f' s' hf hs
      exact h (i + 1) f' s' hf hs

theorem inOrder_append {a b : List Item} {s r : Str} (h1 : InOrder a s) (h2 : InOrder b r) : InOrder (a ++ b) (s ++ r) := by
  induction h1 with
  | nil => exact h2
  | cons i s is r' hw _ ih => rw [List.append_assoc]; exact .cons i s _ _ hw ih

theorem inOrder_blocks (bs : List (List Field)) : InOrder (bs.flatten.map Item.field) (bs.flatMap writeBlock) := by
  induction bs with
  | nil => exact .nil
  | cons b bs ih =>
    rw [List.flatten_cons, List.map_append, List.flatMap_cons]
    refine inOrder_append ?_ ih
    obtain ⟨lines, h1, h2, h3⟩ := C47_content b
    rw [h1]
    exact inOrder_fields b lines h2 h3

/-- **C48** (part): the declarations of a group in which only the first one may be incomplete (which is
always so, `C48_incomplete`) are all written, once and in order. -/
theorem C48_written (far : List Nat → Nat → Bool) (items : List Item) (h : ∀ t, Item.whole t ∉ items.tail) :
    InOrder items (writeGroup far items) := by
  have hfields : ∀ is : List Item, (∀ t, Item.whole t ∉ is) → ∃ fs : List Field, is = fs.map Item.field := by
    intro is
    induction is with
    | nil => intro _; exact ⟨[], rfl⟩
    | cons i is ih =>
      intro hi
      obtain ⟨fs, rfl⟩ := ih (fun t ht => hi t (List.mem_cons_of_mem _ ht))
      cases i with
      | whole t => exact absurd (by simp) (hi t)
      | field f => exact ⟨f :: fs, rfl⟩
  have hblocks : ∀ fs : List Field, InOrder (fs.map Item.field) ((blocks far fs).flatMap writeBlock) := by
    intro fs
    have := inOrder_blocks (blocks far fs)
    rw [(C48_blocks far fs).1] at this
    exact this
  cases items with
  | nil => exact hblocks []
  | cons i is =>
    obtain ⟨fs, hfs⟩ := hfields is h
    subst hfs
    cases i with
    | field f =>
      unfold writeGroup
      have : bufferLoop [] [] (Item.field f :: fs.map Item.field) = ([], f :: fs) := bufferLoop_fields (f :: fs) []
      simp only [this, List.nil_append]
      exact hblocks (f :: fs)
    | whole t =>
      unfold writeGroup
      cases fs with
      | nil =>
        simp only [List.map_nil, bufferLoop, List.nil_append]
        have : (blocks far []).flatMap writeBlock = [] := rfl
        rw [this, List.append_nil]
        have := InOrder.cons (.whole t) t [] [] rfl .nil
        rwa [List.append_nil] at this
      | cons f fs =>
        have e : bufferLoop [] [] (Item.whole t :: (f :: fs).map Item.field) = ([], { f with ctx := t ++ f.ctx } :: fs) := by
          simp only [List.map_cons, bufferLoop, List.nil_append]
          rw [bufferLoop_fields]
          rfl
        simp only [e, List.nil_append]
        have hb := hblocks ({ f with ctx := t ++ f.ctx } :: fs)
        simp only [List.map_cons] at hb
        generalize (blocks far ({ f with ctx := t ++ f.ctx } :: fs)).flatMap writeBlock = out at hb
        cases hb with
        | cons i s is r hw hr =>
          obtain ⟨p1, p2, p3, ⟨e', he, hs⟩⟩ := hw
          have hs : s = (t ++ f.ctx) ++ f.typeName ++ spaces p1 ++ f.fieldName ++ spaces p2 ++ f.equalsTag ++ spaces p3 ++ e' := hs
          have hsplit : s ++ r = t ++ ((f.ctx ++ f.typeName ++ spaces p1 ++ f.fieldName ++ spaces p2 ++ f.equalsTag ++
              spaces p3 ++ e') ++ r) := by
            rw [hs]; simp
          rw [hsplit]
          exact .cons (.whole t) t _ _ rfl (.cons (.field f) _ _ _ ⟨p1, p2, p3, ⟨e', he, rfl⟩⟩ hr)

/-! ### Examples -/

def fieldA : Field := ⟨['\n', ' '], ['i', 'n', 't'], ['a'], ['=', ' ', '1'], [';']⟩
def fieldB : Field := ⟨['\n', ' '], ['s', 't', 'r', 'i', 'n', 'g'], ['b', 'c'], ['=', ' ', '2'], [' ', '[', 'x', ']', ';']⟩

example : writeBlock [fieldA, fieldB] = "\n int    a  = 1;\n string b\x63 = 2 [x];".toList := by decide +kernel
example : Uniform Field.typeName [fieldA, fieldB] := .inr (by decide)
example : Uniform Field.fieldName [fieldA, fieldB] := .inr (by decide)
example : Uniform Field.equalsTag [fieldA, fieldB] := .inr (by decide)
example : size fieldB = 8 := rfl

def elem (n line : Nat) : Elem := ⟨n, some 0, false, false, line, line, false, false⟩

/-- Two adjacent fields, an incomplete one, a message, and a field after an empty line. -/
example : groups [elem 0 1, elem 1 2, { elem 2 3 with incomplete := true }, { elem 3 4 with kind := none }, elem 4 6, elem 5 8] =
    [[elem 0 1, elem 1 2], [{ elem 2 3 with incomplete := true }], [{ elem 3 4 with kind := none }], [elem 4 6], [elem 5 8]] := by decide

example : InOrder [.whole ['x'], .field fieldA, .field fieldB] (writeGroup (fun _ _ => false) [.whole ['x'], .field fieldA, .field fieldB]) :=
  C48_written _ _ (by simp)

end Verif.ColumnFormat
