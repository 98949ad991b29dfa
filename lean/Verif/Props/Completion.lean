import Verif.Model.Completion

/-!
# C16, C17, C60: completion lists
(C18 is in `Props/RelativeName.lean`.)
-/
namespace Verif.Completion

/-! ## C16 -/

theorem passLoop_ident (items : List Item) (i : Nat) (f : Bool) :
    (passLoop i f items).1.map Item.ident = items.map Item.ident := by
  induction items generalizing i f with
  | nil => rfl
  | cons it rest ih => simp [passLoop, ih]

theorem passLoop_found (items : List Item) (i : Nat) (f : Bool) :
    (passLoop i f items).2 = (f || items.any Item.preselect) := by
  induction items generalizing i f with
  | nil => simp [passLoop]
  | cons it rest ih => simp [passLoop, ih, Bool.or_assoc]

theorem passLoop_true (items : List Item) (i : Nat) :
    (passLoop i true items).1.filter Item.preselect = [] := by
  induction items generalizing i with
  | nil => rfl
  | cons it rest ih => simp [passLoop, ih]

theorem passLoop_false (items : List Item) (i : Nat) (h : items.any Item.preselect = true) :
    ((passLoop i false items).1.filter Item.preselect).map Item.ident =
      ((items.find? Item.preselect).map Item.ident).toList := by
  induction items generalizing i with
  | nil => simp at h
  | cons it rest ih =>
    cases hp : it.preselect with
    | true => simp [passLoop, hp, passLoop_true]
    | false =>
      have h' : rest.any Item.preselect = true := by simpa [hp] using h
      simp [passLoop, hp, ih (i + 1) h']

theorem passLoop_none (items : List Item) (i : Nat) (h : items.any Item.preselect = false) :
    (passLoop i false items).1.filter Item.preselect = [] := by
  induction items generalizing i with
  | nil => rfl
  | cons it rest ih =>
    simp only [List.any_cons, Bool.or_eq_false_iff] at h
    simp [passLoop, h.1, ih (i + 1) h.2]

theorem preselectFirst_ident (l : List Item) :
    (preselectFirst l).map Item.ident = l.map Item.ident := by
  cases l <;> rfl

/-- C16: the items and their order are kept. -/
theorem C16_items_kept (items : List Item) :
    (finish items).map Item.ident = items.map Item.ident := by
  simp only [finish]
  split
  · exact passLoop_ident items 0 false
  · rw [preselectFirst_ident]; exact passLoop_ident items 0 false

/-- C16: a non-empty list has exactly one preselected item: the first one that was
marked, or the first of all if none was. -/
theorem C16_one_preselected (items : List Item) (hne : items ≠ []) :
    ((finish items).filter Item.preselect).map Item.ident =
      [((items.find? Item.preselect).getD (items.head hne)).ident] := by
  simp only [finish, passLoop_found, Bool.false_or]
  cases h : items.any Item.preselect with
  | true =>
    simp only [if_true]
    rw [passLoop_false items 0 h]
    obtain ⟨x, hx, hp⟩ := List.any_eq_true.mp h
    cases hf : items.find? Item.preselect with
    | none => exact absurd hp (List.find?_eq_none.mp hf x hx)
    | some y => simp
  | false =>
    simp only [Bool.false_eq_true, if_false]
    have hf : items.find? Item.preselect = none := by
      apply List.find?_eq_none.mpr
      intro x hx hp
      have : items.any Item.preselect = true := List.any_eq_true.mpr ⟨x, hx, hp⟩
      rw [h] at this; cases this
    rw [hf]
    cases items with
    | nil => exact absurd rfl hne
    | cons it rest =>
      simp only [List.any_cons, Bool.or_eq_false_iff] at h
      simp [passLoop, preselectFirst, h.1, passLoop_none rest 1 h.2]

/-- Exactly `w` decimal digits of `n`. -/
def digitsN : Nat → Nat → Str
  | 0, _ => []
  | w + 1, n => digitsN w (n / 10) ++ [digitChar (n % 10)]

theorem digitsN_length (w n : Nat) : (digitsN w n).length = w := by
  induction w generalizing n with
  | zero => rfl
  | succ w ih => simp [digitsN, ih]

theorem digitsN_zero (w : Nat) : digitsN w 0 = List.replicate w (digitChar 0) := by
  induction w with
  | zero => rfl
  | succ w ih => simp [digitsN, ih, List.replicate_succ']

theorem padded_eq (w n : Nat) (h : n < 10 ^ (w + 1)) : padded (w + 1) n = digitsN (w + 1) n := by
  induction w generalizing n with
  | zero =>
    have : n < 10 := by simpa using h
    have hd : dec n = [digitChar n] := by rw [dec, if_pos this]
    simp [padded, hd, digitsN, Nat.mod_eq_of_lt this]
  | succ w ih =>
    by_cases h10 : n < 10
    · have hd : dec n = [digitChar n] := by rw [dec, if_pos h10]
      have h0 : n / 10 = 0 := by omega
      rw [padded, hd, digitsN, h0, digitsN_zero, Nat.mod_eq_of_lt h10]
      rfl
    · have hd : dec n = dec (n / 10) ++ [digitChar (n % 10)] := by
        rw [dec, if_neg h10]
      have hlt : n / 10 < 10 ^ (w + 1) := by
        rw [Nat.div_lt_iff_lt_mul (by decide)]
        rw [Nat.pow_succ] at h; exact h
      have := ih (n / 10) hlt
      rw [digitsN, ← this, padded, hd, padded]
      simp only [List.length_append, List.length_cons, List.length_nil]
      rw [← List.append_assoc]
      congr 2
      congr 1
      omega

theorem digitChar_lt : ∀ d < 10, ∀ e < 10, digitChar d < digitChar e ↔ d < e := by decide

theorem snoc_lt (a b : Str) (x y : Char) (hl : a.length = b.length) :
    a ++ [x] < b ++ [y] ↔ a < b ∨ (a = b ∧ x < y) := by
  induction a generalizing b with
  | nil =>
    have hb : b = [] := List.length_eq_zero_iff.mp hl.symm
    subst hb
    simp [List.cons_lt_cons_iff, List.lt_irrefl]
  | cons c t ih =>
    cases b with
    | nil => simp at hl
    | cons d s =>
      have hl' : t.length = s.length := by simpa using hl
      simp only [List.cons_append, List.cons_lt_cons_iff, ih s hl', List.cons.injEq]
      grind

theorem digitsN_lt (w m n : Nat) (hm : m < 10 ^ w) (hn : n < 10 ^ w) :
    digitsN w m < digitsN w n ↔ m < n := by
  induction w generalizing m n with
  | zero =>
    have : m = 0 ∧ n = 0 := by simp at hm hn; omega
    simp [digitsN, this, List.lt_irrefl]
  | succ w ih =>
    have hm' : m / 10 < 10 ^ w := by
      rw [Nat.div_lt_iff_lt_mul (by decide)]; rw [Nat.pow_succ] at hm; exact hm
    have hn' : n / 10 < 10 ^ w := by
      rw [Nat.div_lt_iff_lt_mul (by decide)]; rw [Nat.pow_succ] at hn; exact hn
    simp only [digitsN]
    rw [snoc_lt _ _ _ _ (by simp [digitsN_length]), ih _ _ hm' hn',
      digitChar_lt _ (Nat.mod_lt _ (by decide)) _ (Nat.mod_lt _ (by decide))]
    have heq : digitsN w (m / 10) = digitsN w (n / 10) ↔ m / 10 = n / 10 := by
      constructor
      · intro e
        have h1 := not_congr (ih (m / 10) (n / 10) hm' hn')
        have h2 := not_congr (ih (n / 10) (m / 10) hn' hm')
        rw [e] at h1 h2
        have h3 := h1.mp (List.lt_irrefl _)
        have h4 := h2.mp (List.lt_irrefl _)
        omega
      · intro e; rw [e]
    rw [heq]
    omega

theorem padded5_lt (m n : Nat) (hm : m < 100000) (hn : n < 100000) :
    padded 5 m < padded 5 n ↔ m < n := by
  rw [padded_eq 4 m (by simpa using hm), padded_eq 4 n (by simpa using hn)]
  exact digitsN_lt 5 m n (by simpa using hm) (by simpa using hn)

theorem passLoop_sortText (items : List Item) (i : Nat) (f : Bool) :
    (passLoop i f items).1.map Item.sortText =
      (List.range' i items.length).map (padded 5) := by
  induction items generalizing i f with
  | nil => rfl
  | cons it rest ih => simp [passLoop, ih, List.range'_succ]

theorem finish_sortText (items : List Item) :
    (finish items).map Item.sortText = (List.range items.length).map (padded 5) := by
  rw [List.range_eq_range']
  simp only [finish]
  split
  · exact passLoop_sortText items 0 false
  · rw [← passLoop_sortText items 0 false]
    cases (passLoop 0 false items).1 <;> rfl

/-- C16, partial: for lists of up to 100000 items, sorting the items by their sort text
(in any way) reproduces the order of the list. Missing: longer lists, see
`C16_long_list_violated`. -/
theorem C16_sort_text_partial (items sorted : List Item) (hlen : items.length ≤ 100000)
    (hp : sorted.Perm (finish items))
    (hs : sorted.Pairwise (fun a b => a.sortText ≤ b.sortText)) : sorted = finish items := by
  have hst : (finish items).Pairwise (fun a b => a.sortText < b.sortText) := by
    rw [← List.pairwise_map (f := Item.sortText) (R := fun a b => a < b), finish_sortText,
      List.pairwise_map]
    have hr : (List.range items.length).Pairwise
        (fun a b => a < b ∧ a < 100000 ∧ b < 100000) := by
      refine List.pairwise_iff_getElem.mpr ?_
      intro i j hi hj hij
      simp at hi hj ⊢; omega
    exact hr.imp (fun ⟨h, ha, hb⟩ => (padded5_lt _ _ ha hb).mpr h)
  refine List.Perm.eq_of_pairwise (le := fun a b : Item => a.sortText ≤ b.sortText) ?_ hs ?_ hp
  · intro a b ha hb hab hba
    have ha' := hp.mem_iff.mp ha
    obtain ⟨i, hi, rfl⟩ := List.mem_iff_getElem.mp ha'
    obtain ⟨j, hj, rfl⟩ := List.mem_iff_getElem.mp hb
    rcases Nat.lt_trichotomy i j with h | h | h
    · exact absurd (List.pairwise_iff_getElem.mp hst i j hi hj h) hba
    · subst h; rfl
    · exact absurd (List.pairwise_iff_getElem.mp hst j i hj hi h) hab
  · exact hst.imp (fun h h' => List.lt_irrefl _ (List.lt_trans h h'))

/-- C16 is violated for more than 100000 items: item 100000 sorts before item 99999. -/
theorem C16_long_list_violated (items : List Item) (h : 100000 < items.length) :
    ∃ a b : Item, (finish items)[99999]? = some a ∧ (finish items)[100000]? = some b ∧
      b.sortText < a.sortText := by
  have hlen : (finish items).length = items.length := by
    have := congrArg List.length (C16_items_kept items); simpa using this
  have hget : ∀ i, (hi : i < (finish items).length) → (finish items)[i].sortText = padded 5 i := by
    intro i hi
    have h1 : ((finish items).map Item.sortText)[i]? = some (finish items)[i].sortText := by
      simp [hi]
    rw [finish_sortText] at h1
    simp only [List.getElem?_map] at h1
    rw [List.getElem?_range (by omega)] at h1
    simpa using h1.symm
  refine ⟨(finish items)[99999]'(by omega), (finish items)[100000]'(by omega),
    List.getElem?_eq_getElem _, List.getElem?_eq_getElem _, ?_⟩
  rw [hget, hget]
  have e1 : padded 5 100000 = "100000".toList := by
    simp [padded, dec]; decide
  have e2 : padded 5 99999 = "99999".toList := by
    simp [padded, dec]; decide
  rw [e1, e2]; decide

/-- Non-trivial case: two items marked out of three. -/
example : (finish [⟨1, false, []⟩, ⟨2, true, []⟩, ⟨3, true, []⟩]).map Item.preselect =
    [false, true, false] := by
  simp [finish, passLoop]

/-! ## C17 -/

/-- The position of a distance in the documented order: zero first, then negative ones,
then positive ones, each by absolute value. -/
def rank (d : Int) : Nat × Nat := (if d = 0 then 0 else if d < 0 then 1 else 2, d.natAbs)

/-- Documented order of distances. -/
def Closer (a b : Int) : Prop :=
  (rank a).1 < (rank b).1 ∨ ((rank a).1 = (rank b).1 ∧ (rank a).2 < (rank b).2)

theorem distLess_iff (a b : Int) (h : a ≠ b) : distLess a b = true ↔ Closer a b := by
  simp only [distLess, Closer, rank]
  grind

/-- Documented order of candidates: by package distance, scope distance, full name. -/
def Before (a b : Entry) : Prop :=
  Closer a.pkgDistance b.pkgDistance ∨
  (a.pkgDistance = b.pkgDistance ∧ (Closer a.scopeDistance b.scopeDistance ∨
    (a.scopeDistance = b.scopeDistance ∧ a.cand.fullName < b.cand.fullName)))

theorem Closer.irrefl (a : Int) : ¬ Closer a a := by simp [Closer]

theorem Closer.trans {a b c : Int} (h : Closer a b) (h' : Closer b c) : Closer a c := by
  simp only [Closer] at *; omega

theorem Closer.total (a b : Int) : Closer a b ∨ a = b ∨ Closer b a := by
  simp only [Closer, rank]
  grind

/-- C17: the comparison is the documented one. -/
theorem C17_less_iff (a b : Entry) : less a b = true ↔ Before a b := by
  simp only [less, Before]
  split
  · rename_i hp
    have np : ¬ Closer a.pkgDistance b.pkgDistance := by rw [hp]; exact Closer.irrefl _
    split
    · rename_i hs
      have ns : ¬ Closer a.scopeDistance b.scopeDistance := by rw [hs]; exact Closer.irrefl _
      simp [hp, hs, Closer.irrefl]
    · rename_i hs
      rw [distLess_iff _ _ hs]
      simp [hp, hs, Closer.irrefl]
  · rename_i hp
    rw [distLess_iff _ _ hp]
    simp [hp]

/-- C17: the comparison is a strict weak order: irreflexive, transitive, and entries that
are not ordered either way have the same distances and name. -/
theorem C17_strict_weak_order :
    (∀ a, less a a = false) ∧
    (∀ a b c, less a b = true → less b c = true → less a c = true) ∧
    (∀ a b, less a b = false → less b a = false →
      a.pkgDistance = b.pkgDistance ∧ a.scopeDistance = b.scopeDistance ∧
      a.cand.fullName = b.cand.fullName) := by
  refine ⟨fun a => ?_, fun a b c h1 h2 => ?_, fun a b h1 h2 => ?_⟩
  · cases h : less a a with
    | false => rfl
    | true =>
      rw [C17_less_iff] at h
      simp only [Before] at h
      rcases h with h | ⟨_, h | ⟨_, h⟩⟩
      · exact absurd h (Closer.irrefl _)
      · exact absurd h (Closer.irrefl _)
      · exact absurd h (List.lt_irrefl _)
  · rw [C17_less_iff] at *
    simp only [Before] at *
    rcases h1 with h1 | ⟨e1, h1⟩
    · rcases h2 with h2 | ⟨e2, _⟩
      · exact Or.inl (h1.trans h2)
      · exact Or.inl (e2 ▸ h1)
    · rcases h2 with h2 | ⟨e2, h2⟩
      · exact Or.inl (e1 ▸ h2)
      · refine Or.inr ⟨e1.trans e2, ?_⟩
        rcases h1 with h1 | ⟨f1, h1⟩
        · rcases h2 with h2 | ⟨f2, _⟩
          · exact Or.inl (h1.trans h2)
          · exact Or.inl (f2 ▸ h1)
        · rcases h2 with h2 | ⟨f2, h2⟩
          · exact Or.inl (f1 ▸ h2)
          · exact Or.inr ⟨f1.trans f2, List.lt_trans h1 h2⟩
  · have n1 : ¬ Before a b := fun h => by rw [← C17_less_iff] at h; rw [h] at h1; cases h1
    have n2 : ¬ Before b a := fun h => by rw [← C17_less_iff] at h; rw [h] at h2; cases h2
    simp only [Before] at n1 n2
    have e1 : a.pkgDistance = b.pkgDistance := by
      rcases Closer.total a.pkgDistance b.pkgDistance with h | h | h
      · exact absurd (Or.inl h) n1
      · exact h
      · exact absurd (Or.inl h) n2
    have e2 : a.scopeDistance = b.scopeDistance := by
      rcases Closer.total a.scopeDistance b.scopeDistance with h | h | h
      · exact absurd (Or.inr ⟨e1, Or.inl h⟩) n1
      · exact h
      · exact absurd (Or.inr ⟨e1.symm, Or.inl h⟩) n2
    refine ⟨e1, e2, ?_⟩
    have l1 : ¬ a.cand.fullName < b.cand.fullName := fun h => n1 (Or.inr ⟨e1, Or.inr ⟨e2, h⟩⟩)
    have l2 : ¬ b.cand.fullName < a.cand.fullName :=
      fun h => n2 (Or.inr ⟨e1.symm, Or.inr ⟨e2.symm, h⟩⟩)
    exact List.le_antisymm (List.not_lt.mp l2) (List.not_lt.mp l1)

/-- C17: whatever the sorting algorithm does, candidates with distinct full names end up
in one definite order, which is a rearrangement of the candidates. -/
theorem C17_deterministic (pkgScope scope : Str) (cands out out' : List Cand)
    (hnd : (cands.map Cand.fullName).Nodup)
    (h : DistanceSort pkgScope scope cands out) (h' : DistanceSort pkgScope scope cands out') :
    out = out' ∧ out.Perm cands := by
  obtain ⟨es, ⟨p1, s1⟩, rfl⟩ := h
  obtain ⟨es', ⟨p2, s2⟩, rfl⟩ := h'
  have hcand : (cands.map (mkEntry pkgScope scope)).map Entry.cand = cands := by
    rw [List.map_map]
    have : (Entry.cand ∘ mkEntry pkgScope scope) = id := by funext c; rfl
    rw [this, List.map_id]
  refine ⟨?_, ?_⟩
  · congr 1
    refine List.Perm.eq_of_pairwise (le := fun a b => less b a = false) ?_ s1 s2 (p1.trans p2.symm)
    intro a b ha hb hab hba
    obtain ⟨_, _, hn⟩ := C17_strict_weak_order.2.2 a b hba hab
    have ha' := p1.mem_iff.mp ha
    have hb' := p2.mem_iff.mp hb
    obtain ⟨c, hc, rfl⟩ := List.mem_map.mp ha'
    obtain ⟨d, hd, rfl⟩ := List.mem_map.mp hb'
    have : c = d := by
      have hn' : c.fullName = d.fullName := hn
      obtain ⟨i, hi, rfl⟩ := List.mem_iff_getElem.mp hc
      obtain ⟨j, hj, rfl⟩ := List.mem_iff_getElem.mp hd
      rw [List.nodup_iff_pairwise_ne, List.pairwise_map] at hnd
      rcases Nat.lt_trichotomy i j with h | h | h
      · exact absurd hn' (List.pairwise_iff_getElem.mp hnd i j hi hj h)
      · subst h; rfl
      · exact absurd hn'.symm (List.pairwise_iff_getElem.mp hnd j i hj hi h)
    rw [this]
  · have := p1.map Entry.cand
    rwa [hcand] at this

theorem distLoop_zero (nf nt i : Nat) (fs ts : List Str) (hf : nf = i + fs.length)
    (ht : nt = i + ts.length) : distLoop nf nt i fs ts = 0 ↔ fs = ts := by
  induction fs generalizing i ts with
  | nil =>
    cases ts with
    | nil => simp [distLoop]; simp at hf ht; omega
    | cons t ts => simp [distLoop]; simp at hf ht; omega
  | cons f fs ih =>
    cases ts with
    | nil => simp [distLoop]; simp at hf ht; omega
    | cons t ts =>
      simp only [distLoop]
      split
      · rename_i hne
        have : ¬ f :: fs = t :: ts := fun e => hne (List.cons.inj e).1
        simp only [this, iff_false]
        simp at hf ht; omega
      · rename_i he
        have he' : f = t := by simpa using he
        rw [ih (i + 1) ts (by simp at hf; omega) (by simp at ht; omega)]
        simp [he']

/-- C17: distance zero means the same name. -/
theorem C17_distance_zero (a b : Str) : nameDistance a b = 0 ↔ a = b := by
  simp only [nameDistance]
  split
  · rename_i h; simp [h]
  · rename_i h
    rw [distLoop_zero _ _ _ _ _ (by omega) (by omega)]
    constructor
    · intro e
      have := congrArg (joinWith '.') e
      rwa [join_splitOn, join_splitOn] at this
    · intro e; exact absurd e h

/-- C17: candidates of the current package come before all others. -/
theorem C17_local_first (pkgScope scope : Str) (cands out : List Cand)
    (h : DistanceSort pkgScope scope cands out) :
    out.Pairwise (fun a b => b.pkg = pkgScope → a.pkg = pkgScope) := by
  obtain ⟨es, ⟨p1, s1⟩, rfl⟩ := h
  rw [List.pairwise_map]
  have hm : ∀ e ∈ es, e = mkEntry pkgScope scope e.cand := by
    intro e he
    obtain ⟨c, _, rfl⟩ := List.mem_map.mp (p1.mem_iff.mp he)
    rfl
  refine List.pairwise_iff_getElem.mpr ?_
  intro i j hi hj hij hb
  have hle := List.pairwise_iff_getElem.mp s1 i j hi hj hij
  have ea := hm es[i] (List.getElem_mem hi)
  have eb := hm es[j] (List.getElem_mem hj)
  have db : es[j].pkgDistance = 0 := by
    rw [eb]; exact (C17_distance_zero _ _).mpr hb.symm
  have da : es[i].pkgDistance = 0 := by
    apply Decidable.byContradiction
    intro hne
    have : less es[j] es[i] = true := by
      rw [C17_less_iff]
      refine Or.inl ?_
      simp only [Closer, rank, db]
      grind
    rw [this] at hle; cases hle
  rw [ea] at da
  exact ((C17_distance_zero _ _).mp da).symm

/-- Non-trivial case: candidates of three packages seen from `a.b`. -/
example : DistanceSort "a.b".toList [] [⟨"x.T".toList, "x".toList⟩, ⟨"a.b.c.U".toList, "a.b.c".toList⟩,
      ⟨"a.b.V".toList, "a.b".toList⟩]
    [⟨"a.b.V".toList, "a.b".toList⟩, ⟨"a.b.c.U".toList, "a.b.c".toList⟩, ⟨"x.T".toList, "x".toList⟩] := by
  refine ⟨isort (fun a b => !less b a) _, ⟨isort_perm _ _, ?_⟩, ?_⟩ <;> decide

/-! ## C60 -/

/-- C60, partial: with the cursor in the identifier or at one of its ends, the replaced
range is exactly the identifier, and the two parts are the text of the identifier before
and after the cursor. Missing: cursors outside, see `C60_outside_violated`. -/
theorem C60_under_cursor_partial (content : Str) (start stop pos : Nat)
    (h1 : start ≤ pos) (h2 : pos ≤ stop) (h3 : stop ≤ content.length) :
    replaceRange pos (findPartialNames content start stop pos) = (start, stop) ∧
    (findPartialNames content start stop pos).1 = (content.take pos).drop start ∧
    (findPartialNames content start stop pos).2 = (content.take stop).drop pos ∧
    (findPartialNames content start stop pos).1 ++ (findPartialNames content start stop pos).2 =
      (content.take stop).drop start := by
  have e1 : (findPartialNames content start stop pos).1 = (content.take pos).drop start := by
    simp only [findPartialNames, Nat.min_eq_left h2, List.drop_take]
    split
    · rfl
    · have : pos - start = 0 := by omega
      simp [this]
  have e2 : (findPartialNames content start stop pos).2 = (content.take stop).drop pos := by
    simp only [findPartialNames, Nat.max_eq_right h1, List.drop_take]
    split
    · rfl
    · have : stop - pos = 0 := by omega
      simp [this]
  refine ⟨?_, e1, e2, ?_⟩
  · simp only [replaceRange, e1, e2, List.length_drop, List.length_take, Prod.mk.injEq]
    omega
  · rw [e1, e2]
    have : content.take stop = content.take pos ++ (content.take stop).drop pos := by
      conv => lhs; rw [← List.take_append_drop pos (content.take stop)]
      rw [List.take_take, Nat.min_eq_left h2]
    conv => rhs; rw [this]
    rw [List.drop_append_of_le_length]
    simp; omega

/-- C60 is violated when the cursor stands behind the identifier (as in `package foo ;`
with the cursor after the blank, see `completePackageNames`): the last letters of the
identifier and the blank are replaced. -/
theorem C60_outside_violated :
    let content := "package foo ;".toList
    (content.take 11).drop 8 = "foo".toList ∧
    findPartialNames content 8 11 12 = ("foo".toList, []) ∧
    replaceRange 12 (findPartialNames content 8 11 12) = (9, 12) := by decide

example : findPartialNames "package foo ;".toList 8 11 9 = ("f".toList, "oo".toList) := by decide

end Verif.Completion
