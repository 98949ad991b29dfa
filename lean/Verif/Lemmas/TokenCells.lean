import Verif.Spec.TokenCells

/-!
# Lemmas on tokens of names and comments
-/
namespace Verif.TokenCells

theorem u32_natCast {n : Nat} (h : n < 4294967296) : u32 (n : Int) = n := by
  unfold u32; omega

theorem u32_eq {x : Int} {n : Nat} (h : x = n) (hn : n < 4294967296) : u32 x = n := by
  subst h; exact u32_natCast hn

theorem cells_append (p : Cell) (a b : Str) : cells p (a ++ b) = cells p a ++ cells (a.foldl advance p) b := by
  induction a generalizing p with
  | nil => rfl
  | cons c rest ih => simp [cells, ih]

theorem row_succ (line start n : Nat) : row line start (n + 1) = (line, start) :: row line (start + 1) n := by
  unfold row
  rw [List.range_succ_eq_map]
  simp only [List.map_cons, List.map_map, Nat.add_zero, List.cons.injEq, true_and]
  apply List.map_congr_left
  intro k _
  simp only [Function.comp, Prod.mk.injEq, true_and]
  omega

theorem row_add (line start m n : Nat) : row line start (m + n) = row line start m ++ row line (start + m) n := by
  unfold row
  rw [List.range_add, List.map_append, List.map_map]
  congr 1
  apply List.map_congr_left
  intro k _
  simp only [Function.comp, Prod.mk.injEq, true_and]
  omega

theorem foldl_line (p : Cell) (s : Str) (h : '\n' ∉ s) : s.foldl advance p = (p.1, p.2 + s.length) := by
  induction s generalizing p with
  | nil => rfl
  | cons c rest ih =>
    simp only [List.mem_cons, not_or] at h
    rw [List.foldl_cons, ih _ h.2]
    simp only [advance, if_neg (Ne.symm h.1), List.length_cons]
    congr 1
    omega

theorem cells_line (p : Cell) (s : Str) (h : '\n' ∉ s) : cells p s = row p.1 p.2 s.length := by
  induction s generalizing p with
  | nil => rfl
  | cons c rest ih =>
    simp only [List.mem_cons, not_or] at h
    rw [List.length_cons, row_succ, cells, ih _ h.2]
    simp [advance, if_neg (Ne.symm h.1)]

theorem zipIdx_rows (ws : List Str) (line k : Nat) :
    (ws.zipIdx (k + 1)).flatMap (fun x => row (line + x.2) 0 x.1.length) =
      (ws.zipIdx k).flatMap fun x => row (line + 1 + x.2) 0 x.1.length := by
  induction ws generalizing k with
  | nil => rfl
  | cons w rest ih =>
    simp only [List.zipIdx_cons, List.flatMap_cons]
    rw [ih (k + 1)]
    congr 1
    congr 1
    omega

/-- The places of a text that begins at the beginning of a line, line by line. -/
theorem cells_lines (ws : List Str) (h : ∀ w ∈ ws, '\n' ∉ w) (line : Nat) :
    cells (line, 0) (joinWith '\n' ws) = (ws.zipIdx).flatMap fun x => row (line + x.2) 0 x.1.length := by
  induction ws generalizing line with
  | nil => rfl
  | cons w rest ih =>
    have hw := h w (by simp)
    have ih := ih fun y hy => h y (by simp [hy])
    cases rest with
    | nil => simp [joinWith, cells_line _ _ hw]
    | cons w' rest =>
      rw [joinWith, cells_append, cells_line _ _ hw, foldl_line _ _ hw, cells]
      · simp only [if_true, List.nil_append, advance]
        have hz := zipIdx_rows (w' :: rest) line 0
        rw [ih (line + 1), ← hz]
        rfl
      · simp

theorem foldl_lines (ws : List Str) (hne : ws ≠ []) (h : ∀ w ∈ ws, '\n' ∉ w) (line : Nat) :
    (joinWith '\n' ws).foldl advance (line, 0) = (line + (ws.length - 1), (ws.getLast hne).length) := by
  induction ws generalizing line with
  | nil => exact absurd rfl hne
  | cons w rest ih =>
    have hw := h w (by simp)
    cases rest with
    | nil => simp [joinWith, foldl_line _ _ hw]
    | cons w' rest =>
      rw [joinWith, List.foldl_append, foldl_line _ _ hw, List.foldl_cons]
      · have := ih (by simp) (fun y hy => h y (by simp [hy])) (line + 1)
        simp only [advance, if_true]
        rw [this]
        simp only [List.length_cons, List.getLast_cons_cons, Prod.mk.injEq, and_true]
        omega
      · simp

/-- The place behind a text from the place of its last character. -/
theorem foldl_last (p : Cell) (s : Str) (hne : s ≠ []) (h : s.getLast? ≠ some '\n') :
    s.foldl advance p = ((s.dropLast.foldl advance p).1, (s.dropLast.foldl advance p).2 + 1) := by
  obtain ⟨init, c, rfl⟩ : ∃ init c, s = init ++ [c] := ⟨_, _, (List.dropLast_concat_getLast hne).symm⟩
  rw [List.getLast?_concat] at h
  have hc : c ≠ '\n' := fun e => h (by rw [e])
  rw [List.foldl_append, List.dropLast_concat, List.foldl_cons, List.foldl_nil, advance, if_neg hc]

theorem foldl_ge (p : Cell) (s : Str) : p.1 ≤ (s.foldl advance p).1 ∧ (s.foldl advance p).1 ≤ p.1 + s.length := by
  induction s generalizing p with
  | nil => simp
  | cons c rest ih =>
    have := ih (advance p c)
    rw [List.foldl_cons, List.length_cons]
    unfold advance at this ⊢
    by_cases h : c = '\n'
    · simp only [if_pos h] at this ⊢; omega
    · simp only [if_neg h] at this ⊢; omega

theorem length_le_joinWith (ws : List Str) : ws.length ≤ (joinWith '\n' ws).length + 1 ∧ ∀ w ∈ ws, w.length ≤ (joinWith '\n' ws).length := by
  induction ws with
  | nil => simp
  | cons w rest ih =>
    cases rest with
    | nil => simp [joinWith]
    | cons w' rest =>
      rw [joinWith]
      · simp only [List.length_append, List.length_cons] at ih ⊢
        refine ⟨by omega, ?_⟩
        intro x hx
        rcases List.mem_cons.mp hx with rfl | hx
        · omega
        · have := ih.2 x hx; omega
      · simp

/-- Every line of a comment has a token. -/
theorem multilineComment_cells {c : Comment} {p : Cell} (h : c.Placed p) (hm : c.start.line < c.stop.line) :
    (multilineComment c).flatMap Item.cells = cells p c.text := by
  obtain ⟨⟨f1, f2⟩, hne, hlast, hstart, hstop⟩ := h
  have hq := foldl_last p c.text hne hlast
  have hjoin := join_splitOn '\n' c.text
  have hno := splitOn_no_sep '\n' c.text
  cases hl : splitOn '\n' c.text with
  | nil => exact absurd hl (splitOn_ne_nil _ _)
  | cons l0 ws =>
    rw [hl] at hjoin hno
    have h0 := hno l0 (by simp)
    have hws : ∀ w ∈ ws, '\n' ∉ w := fun w hw => hno w (by simp [hw])
    cases ws with
    | nil =>
      exfalso
      have ht : c.text = l0 := by rw [← hjoin]; rfl
      have : (c.text.dropLast.foldl advance p).1 = p.1 := by
        rw [foldl_line _ _ (fun hc => h0 (ht ▸ List.dropLast_subset _ hc))]
      rw [hstart, hstop] at hm
      simp only [Pos.of, this] at hm
      omega
    | cons w ws =>
      have ht : c.text = l0 ++ '\n' :: joinWith '\n' (w :: ws) := by
        rw [← hjoin]; rw [joinWith]; simp
      have hlen := congrArg List.length ht
      simp only [List.length_append, List.length_cons] at hlen
      obtain ⟨hb1, hb2⟩ := length_le_joinWith (w :: ws)
      simp only [List.length_cons] at hb1
      have hfold : c.text.foldl advance p = (p.1 + 1 + ws.length, ((w :: ws).getLast (by simp)).length) := by
        rw [ht, List.foldl_append, foldl_line _ _ h0, List.foldl_cons]
        simp only [advance, if_true]
        rw [foldl_lines (w :: ws) (by simp) hws]
        simp
      rw [hfold] at hq
      simp only [Prod.mk.injEq] at hq
      have hlast' := hb2 _ (List.getLast_mem (l := w :: ws) (by simp))
      have e1 : u32 ((c.start.line : Int) - 1) = p.1 := u32_eq (by rw [hstart]; simp [Pos.of]) (by omega)
      have e2 : u32 ((c.start.col : Int) - 1) = p.2 := u32_eq (by rw [hstart]; simp [Pos.of]) (by omega)
      have e3 : u32 ((c.stop.line : Int) - 1) = p.1 + 1 + ws.length :=
        u32_eq (by rw [hstop]; simp only [Pos.of]; omega) (by omega)
      have e4 : u32 (c.stop.col : Int) = ((w :: ws).getLast (by simp)).length :=
        u32_eq (by rw [hstop]; simp only [Pos.of]; omega) (by omega)
      have e5 : u32 (l0.length : Int) = l0.length := u32_eq rfl (by omega)
      rw [ht, cells_append, cells_line _ _ h0, foldl_line _ _ h0]
      simp only [cells, if_true, List.nil_append, advance]
      rw [cells_lines (w :: ws) hws]
      unfold multilineComment
      simp only [hl, List.head?_cons, Option.getD_some, List.drop_succ_cons, List.drop_zero, e1, e2, e3, e4, e5, List.cons_append,
        List.nil_append, List.flatMap_cons, List.flatMap_append, List.flatMap_nil, List.append_nil, Item.cells]
      congr 1
      have hsplit : (w :: ws).zipIdx = (w :: ws).dropLast.zipIdx ++ [((w :: ws).getLast (by simp), ws.length)] := by
        conv => lhs; rw [← List.dropLast_concat_getLast (l := w :: ws) (by simp)]
        rw [List.zipIdx_append]
        simp
      rw [hsplit, List.flatMap_append, List.flatMap_map, ← zipIdx_rows]
      simp only [List.flatMap_cons, List.flatMap_nil, List.append_nil]
      congr 1
      rw [List.flatMap_def, List.flatMap_def]
      congr 1
      apply List.map_congr_left
      intro x hx
      obtain ⟨hx1, hx2, hx3⟩ := List.mem_zipIdx hx
      have hmem : x.1 ∈ w :: ws := List.dropLast_subset _ (hx3 ▸ List.getElem_mem _)
      have hlx := hb2 _ hmem
      have hdl : (w :: ws).dropLast.length = ws.length := by simp
      rw [u32_eq (n := p.1 + x.2) (by rw [hstart]; simp only [Pos.of]; omega) (by omega), u32_eq (n := x.1.length) rfl (by omega)]
      rfl

theorem Comment.Placed.line {c : Comment} {p : Cell} (h : c.Placed p) (hm : ¬ c.start.line < c.stop.line) : '\n' ∉ c.text := by
  intro hmem
  obtain ⟨a, b, hab⟩ := List.append_of_mem hmem
  have hq := foldl_last p c.text h.nonempty h.last
  have h1 := foldl_ge p a
  have h2 := foldl_ge (advance (a.foldl advance p) '\n') b
  have h3 : c.text.foldl advance p = b.foldl advance (advance (a.foldl advance p) '\n') := by rw [hab]; simp
  rw [← h3, hq] at h2
  simp only [advance, if_true] at h2
  rw [h.start, h.stop] at hm
  simp only [Pos.of] at hm
  omega

theorem Comment.Placed.stop_line {c : Comment} {p : Cell} (h : c.Placed p) (hn : '\n' ∉ c.text) :
    c.stop.line = p.1 + 1 ∧ c.stop.col = p.2 + c.text.length := by
  have hq := foldl_last p c.text h.nonempty h.last
  rw [foldl_line _ _ hn] at hq
  simp only [Prod.mk.injEq] at hq
  rw [h.stop]
  simp only [Pos.of]
  omega

theorem lineComment_cells {c : Comment} {p : Cell} (h : c.Placed p) (hn : '\n' ∉ c.text) :
    (lineComment c).flatMap Item.cells = cells p c.text := by
  obtain ⟨h1, h2⟩ := h.stop_line hn
  obtain ⟨f1, f2⟩ := h.fits
  have e1 : u32 ((c.start.line : Int) - 1) = p.1 := u32_eq (by rw [h.start]; simp [Pos.of]) (by omega)
  have e2 : u32 ((c.start.col : Int) - 1) = p.2 := u32_eq (by rw [h.start]; simp [Pos.of]) (by omega)
  have e3 : u32 ((c.stop.col : Int) - (c.start.col - 1)) = c.text.length :=
    u32_eq (by rw [h2, h.start]; simp only [Pos.of]; omega) (by omega)
  simp only [lineComment, e1, e2, e3, List.flatMap_cons, List.flatMap_nil, List.append_nil, Item.cells, cells_line _ _ hn]

theorem pragma_cells {c : Comment} {p : Cell} (h : c.Placed p) {key value : Str} (ht : c.text = kwPragma ++ key ++ value)
    (hn : '\n' ∉ c.text) :
    (pragma c (key ++ value) key).flatMap Item.cells =
      row p.1 p.2 (10 + key.length) ++ if 10 < value.length then row p.1 (p.2 + (10 + key.length)) value.length else [] := by
  obtain ⟨h1, h2⟩ := h.stop_line hn
  obtain ⟨f1, f2⟩ := h.fits
  have hl : c.text.length = 10 + key.length + value.length := by rw [ht]; simp [kwPragma]; omega
  have e1 : u32 ((c.start.line : Int) - 1) = p.1 := u32_eq (by rw [h.start]; simp [Pos.of]) (by omega)
  have e2 : u32 ((c.start.col : Int) - 1) = p.2 := u32_eq (by rw [h.start]; simp [Pos.of]) (by omega)
  have e3 : u32 ((c.start.col : Int) - 1 + 2) = p.2 + 2 := u32_eq (by rw [h.start]; simp only [Pos.of]; omega) (by omega)
  have e4 : u32 ((8 + key.length : Nat) : Int) = 8 + key.length := u32_eq rfl (by omega)
  have e5 : u32 ((c.start.col : Int) - 1 + 2 + (8 + key.length : Nat)) = p.2 + (10 + key.length) :=
    u32_eq (by rw [h.start]; simp only [Pos.of]; omega) (by omega)
  have e6 : u32 ((c.stop.col : Int) - (c.start.col - 1) - 2 - (8 + key.length : Nat)) = value.length :=
    u32_eq (by rw [h2, h.start]; simp only [Pos.of]; omega) (by omega)
  have e7 : u32 2 = 2 := by decide
  have hcond : (key ++ value).length > 8 + key.length + 2 ↔ 10 < value.length := by rw [List.length_append]; omega
  have hrow : row p.1 p.2 (10 + key.length) = row p.1 p.2 2 ++ row p.1 (p.2 + 2) (8 + key.length) := by
    rw [← row_add]; congr 1; omega
  rw [hrow]
  simp only [pragma, hcond, e1, e2, e3, e4, e5, e6, e7]
  split
  · simp [Item.cells]
  · simp [Item.cells]

theorem cutPragma_some (rest : Str) : cutPragma (kwPragma ++ rest) = some rest := by
  unfold cutPragma
  rw [if_pos (List.isPrefixOf_iff_prefix.mpr (List.prefix_append _ _)), List.drop_left]

theorem takeWhile_key {key value : Str} (hk : ' ' ∉ key) (hv : value = [] ∨ value.head? = some ' ') :
    (key ++ value).takeWhile (· ≠ ' ') = key := by
  rw [List.takeWhile_append_of_pos]
  · rcases hv with rfl | hv
    · simp
    · cases value with
      | nil => simp at hv
      | cons a b => simp only [List.head?_cons, Option.some.injEq] at hv; simp [hv]
  · intro a ha
    simp only [ne_eq, decide_not, Bool.not_eq_true', decide_eq_false_iff_not]
    rintro rfl
    exact hk ha

/-! ## Order -/

/-- Order of places. -/
def before (p q : Cell) : Prop := p.1 < q.1 ∨ (p.1 = q.1 ∧ p.2 < q.2)

theorem before_advance (p : Cell) (s : Str) (hs : s ≠ []) : before p (s.foldl advance p) := by
  have step : ∀ (p : Cell) (c : Char), before p (advance p c) := by
    intro p c; unfold before advance; split <;> simp
  have trans : ∀ {p q r : Cell}, before p q → before q r → before p r := by
    intro p q r h1 h2; unfold before at *; omega
  induction s generalizing p with
  | nil => exact absurd rfl hs
  | cons c rest ih =>
    rw [List.foldl_cons]
    cases rest with
    | nil => exact step p c
    | cons d rest => exact trans (step p c) (ih _ (by simp))

theorem mem_cells {p q : Cell} {s : Str} (h : q ∈ cells p s) : ∃ a c b, s = a ++ c :: b ∧ c ≠ '\n' ∧ q = a.foldl advance p := by
  induction s generalizing p with
  | nil => simp [cells] at h
  | cons c rest ih =>
    simp only [cells, List.mem_append] at h
    rcases h with h | h
    · split at h
      · simp at h
      · rename_i hc
        simp only [List.mem_singleton] at h
        exact ⟨[], c, rest, rfl, hc, h⟩
    · obtain ⟨a, d, b, h1, h2, h3⟩ := ih h
      exact ⟨c :: a, d, b, by simp [h1], h2, h3⟩

theorem cells_sorted (p : Cell) (s : Str) : (cells p s).Pairwise before := by
  induction s generalizing p with
  | nil => simp [cells]
  | cons c rest ih =>
    simp only [cells]
    split
    · exact ih _
    · rw [List.singleton_append, List.pairwise_cons]
      refine ⟨?_, ih _⟩
      intro q hq
      obtain ⟨a, d, b, -, -, h3⟩ := mem_cells hq
      rw [h3]
      exact before_advance p (c :: a) (by simp)

end Verif.TokenCells
