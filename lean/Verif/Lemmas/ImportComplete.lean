import Verif.Spec.ImportComplete
import Verif.Lemmas.QuickFix
import Verif.Lemmas.GoPath
/-!
# Lemmas about the completion of imports
-/
namespace Verif.ImportComplete
open Verif.QuickFix (posAfter offset_posAfter posAfter_append_line u32_small applyEdit)
open Verif.Documents (Pos offset)

theorem applyEdit_replace (a l b new : Str) :
    applyEdit (a ++ l ++ b) ⟨posAfter a, posAfter (a ++ l), new⟩ = some (a ++ new ++ b) := by
  unfold applyEdit Documents.applyChange
  have h1 := offset_posAfter a (l ++ b)
  rw [← List.append_assoc] at h1
  simp only [h1, offset_posAfter (a ++ l) b]
  have e1 : (a ++ l ++ b).take a.length = a := by rw [List.append_assoc]; simp
  have e2 : (a ++ l ++ b).drop (a ++ l).length = b := by simp
  rw [e1, e2]
  simp

theorem posAfter_lineStart {a : Str} (h : LineStart a) : posAfter a = ⟨a.count '\n', 0⟩ := by
  rcases h with rfl | ⟨b, rfl⟩
  · rfl
  · simp [posAfter]

theorem mapperOffset_posAfter (a b : Str) : mapperOffset (a ++ b) (posAfter a) = some a.length := by
  unfold mapperOffset
  rw [if_neg, offset_posAfter]
  rintro ⟨h, _⟩
  simp only [posAfter, List.count_append] at h
  omega

theorem between_posAfter (a x y : Str) : between (a ++ x ++ y) (posAfter a) (posAfter (a ++ x)) = some x := by
  unfold between
  have h1 := mapperOffset_posAfter a (x ++ y)
  rw [← List.append_assoc] at h1
  rw [h1, mapperOffset_posAfter (a ++ x) y]
  simp

/-- The part of the line before the cursor. -/
theorem lineBefore_eq (above x y : Str) (h : LineStart above) (hx : '\n' ∉ x) :
    lineBefore (above ++ x ++ y) (posAfter (above ++ x)) = some x := by
  unfold lineBefore
  have e : (⟨(posAfter (above ++ x)).line, 0⟩ : Pos) = posAfter above := by
    rw [posAfter_append_line _ _ hx, posAfter_lineStart h]
  rw [e, between_posAfter]

/-- The part of the line behind the cursor, with the line break. -/
theorem lineAfter_nl (a u v : Str) (h : '\n' ∉ u) : lineAfter (a ++ (u ++ '\n' :: v)) (posAfter a) = some (u ++ ['\n']) := by
  unfold lineAfter
  have e : (⟨(posAfter a).line + 1, 0⟩ : Pos) = posAfter (a ++ (u ++ ['\n'])) := by
    rw [← List.append_assoc, QuickFix.posAfter_append_nl]
    have : u.count '\n' = 0 := List.count_eq_zero.mpr h
    simp [posAfter, this]
  rw [e, show a ++ (u ++ '\n' :: v) = a ++ (u ++ ['\n']) ++ v by simp, between_posAfter]

/-- The last line. -/
theorem lineAfter_end (a u : Str) (h : '\n' ∉ u) : lineAfter (a ++ u) (posAfter a) = some u := by
  unfold lineAfter between
  rw [mapperOffset_posAfter]
  have h0 : u.count '\n' = 0 := List.count_eq_zero.mpr h
  have h1 : mapperOffset (a ++ u) ⟨(posAfter a).line + 1, 0⟩ = some (a ++ u).length := by
    unfold mapperOffset
    rw [if_pos]
    simp [posAfter, h0]
  rw [h1]
  simp

theorem first_line (r : Str) : '\n' ∉ r ∨ ∃ u v, r = u ++ '\n' :: v ∧ '\n' ∉ u := by
  by_cases h : '\n' ∈ r
  · refine .inr ?_
    cases hc : cut '\n' r with
    | none => exact absurd h (cut_eq_none.mp hc)
    | some p => exact ⟨p.1, p.2, cut_eq_some.mp (by rw [hc])⟩
  · exact .inl h

theorem lineAfter_append (a z r : Str) (h : '\n' ∉ z) : ∃ r', lineAfter (a ++ (z ++ r)) (posAfter a) = some (z ++ r') := by
  rcases first_line r with hr | ⟨u, v, rfl, hu⟩
  · exact ⟨r, lineAfter_end a (z ++ r) (by simp [h, hr])⟩
  · refine ⟨u ++ ['\n'], ?_⟩
    have := lineAfter_nl a (z ++ u) v (by simp [h, hu])
    simpa using this

theorem untilQuote_eq (s r : Str) (h : '"' ∉ s) (ht : Trimmed s) : untilQuote (s ++ '"' :: r) = s := by
  unfold untilQuote
  rw [indexChar_append _ _ _ h]
  simp [indexChar, trimSpace_of_trimmed ht]

theorem indexChar_none {c : Char} {s : Str} (h : c ∉ s) : indexChar c s = none := by
  induction s with
  | nil => rfl
  | cons x t ih =>
    simp only [List.mem_cons, not_or] at h
    rw [indexChar, if_neg (fun e => h.1 e.symm), ih h.2]
    rfl

theorem untilQuote_none (s : Str) (h : '"' ∉ s) : untilQuote s = [] := by
  unfold untilQuote
  rw [indexChar_none h]

theorem indexChar_quote (kw p : Str) (h : '"' ∉ kw) : indexChar '"' (kw ++ '"' :: p) = some kw.length := by
  rw [indexChar_append _ _ _ h]
  simp [indexChar]

theorem trimPrefix_append (p t : Str) : trimPrefix (p ++ t) p = t := by
  unfold trimPrefix
  have h : p.isPrefixOf (p ++ t) = true := by simp
  rw [h]
  simp

theorem adjust_eq (a s : Str) (hs : '\n' ∉ s) (hf : QuickFix.Fits (a ++ s)) : adjustColumn (posAfter a) s.length = posAfter (a ++ s) := by
  have h1 := QuickFix.posAfter_le (a ++ s)
  rw [posAfter_append_line _ _ hs] at h1 ⊢
  unfold QuickFix.Fits at hf
  unfold adjustColumn
  rw [show ((posAfter a).char : Int) + (s.length : Int) = (((posAfter a).char + s.length : Nat) : Int) by omega, u32_small _ (by simp only [] at h1; omega)]

theorem Literal.content_eq (l : Literal) : l.content = l.above ++ (l.kw ++ '"' :: l.p) ++ (l.s ++ '"' :: l.rest) := by
  simp [Literal.content]

theorem Literal.pos_eq (l : Literal) : l.pos = posAfter (l.above ++ (l.kw ++ '"' :: l.p)) := by
  simp [Literal.pos]

theorem Literal.before {l : Literal} (h : l.Ok) : lineBefore l.content l.pos = some (l.kw ++ '"' :: l.p) := by
  rw [l.content_eq, l.pos_eq]
  exact lineBefore_eq _ _ _ h.above (by simp [h.kw.2, h.p.2.1])

theorem Literal.after {l : Literal} (h : l.Ok) : ∃ r, lineAfter l.content l.pos = some (l.s ++ '"' :: r) := by
  rw [l.content_eq, l.pos_eq]
  obtain ⟨r, hr⟩ := lineAfter_append (l.above ++ (l.kw ++ '"' :: l.p)) (l.s ++ ['"']) l.rest (by simp [h.s.2.1])
  exact ⟨r, by simpa using hr⟩

/-- Replacing the second part of a literal. -/
theorem Literal.replace {l : Literal} (h : l.Ok) (t : Str) :
    applyEdit l.content ⟨l.pos, adjustColumn l.pos l.s.length, t⟩ = some (l.with (l.p ++ t)) := by
  have hf : QuickFix.Fits (l.above ++ (l.kw ++ '"' :: l.p) ++ l.s) := by
    have := h.fits
    unfold QuickFix.Fits at this ⊢
    rw [l.content_eq] at this
    simp only [List.length_append, List.length_cons] at this ⊢
    omega
  rw [l.pos_eq, adjust_eq _ _ h.s.2.1 hf]
  have := applyEdit_replace (l.above ++ (l.kw ++ '"' :: l.p)) l.s ('"' :: l.rest) t
  rw [List.append_assoc (l.above ++ (l.kw ++ '"' :: l.p)) l.s, ← l.content_eq] at this
  rw [this]
  simp [Literal.with]

theorem Literal.accept_item {l : Literal} (h : l.Ok) (t : Str) :
    accept l.content (importItem l.p l.s l.pos false (l.p ++ t)) = some (l.with (l.p ++ t)) := by
  unfold accept importItem
  simp only [trimPrefix_append, Option.bind_some]
  exact l.replace h t

theorem accept_items {l : Literal} (h : l.Ok) : ∀ (xs : List (Str × Str)), (∀ x ∈ xs, ∃ t, x.2 = l.p ++ t) →
    (xs.map fun x => importItem l.p l.s l.pos false x.2).map (accept l.content) = xs.map fun x => some (l.with x.2) := by
  intro xs hx
  rw [List.map_map]
  apply List.map_congr_left
  intro x hm
  obtain ⟨t, ht⟩ := hx x hm
  simp only [Function.comp, ht]
  exact l.accept_item h t

theorem existingPaths_eq (imports : List Str) (pub : Bool) (cur : Str) (h : cur ∈ imports) :
    existingPaths imports ⟨pub, some cur⟩ = imports.filter (· ≠ cur) := by
  have : importAt imports ⟨pub, some cur⟩ = some cur := by
    unfold importAt
    simp only [Option.bind_some]
    cases hf : imports.find? (fun x => decide (x = cur)) with
    | none =>
      rw [List.find?_eq_none] at hf
      exact absurd (hf cur h) (by simp)
    | some y =>
      have := List.find?_some hf
      simp only [decide_eq_true_eq] at this
      rw [this]
  unfold existingPaths
  rw [this]

theorem itemLess_false (a b : Item) : itemLess b a = false ↔ a.label ≤ b.label := by
  unfold itemLess
  rw [decide_eq_false_iff_not, List.not_lt]

/-- The files that are offered. -/
theorem offered_eq (known : List (Str × Str)) (uriOf : Str → Option Str) (imports : List Str) (pub : Bool) (cur typed : Str) (hc : cur ∈ imports) :
    ((pathsByPrefix known typed).filter fun x => !(existingURIs uriOf (existingPaths imports ⟨pub, some cur⟩)).contains x.1) =
      known.filter fun x => decide (Wanted uriOf imports cur typed x) := by
  rw [existingPaths_eq _ _ _ hc, pathsByPrefix, List.filter_filter]
  apply List.filter_congr
  intro x _
  rw [Bool.eq_iff_iff]
  rw [decide_eq_true_eq]
  simp only [Bool.and_eq_true, Bool.not_eq_true', Wanted, List.isPrefixOf_iff_prefix]
  rw [and_comm]
  apply and_congr_right
  intro _
  rw [← Bool.not_eq_true, List.contains_iff_mem]
  simp only [existingURIs, List.mem_filterMap, List.mem_filter, decide_eq_true_eq, not_exists, not_and]
  exact ⟨fun h i hi hn => h i ⟨hi, hn⟩, fun h i hi => h i hi.1 hi.2⟩

theorem quoted_plain {s : Str} (h : '"' ∉ s ∧ '\\' ∉ s) : quoted s = '"' :: (s ++ ['"']) := by
  unfold quoted
  have : s.flatMap (fun c => if c = '"' ∨ c = '\\' then ['\\', c] else [c]) = s := by
    induction s with
    | nil => rfl
    | cons x t ih =>
      simp only [List.mem_cons, not_or] at h
      rw [List.flatMap_cons, ih ⟨h.1.2, h.2.2⟩, if_neg]
      · rfl
      · rintro (e | e)
        · exact h.1.1 e.symm
        · exact h.2.1 e.symm
  rw [this]

theorem Bare.content_eq (l : Bare) : l.content = l.above ++ l.kw ++ (l.u ++ l.v) := rfl

theorem Bare.before {l : Bare} (h : l.Ok) : lineBefore l.content l.pos = some l.kw := lineBefore_eq _ _ _ h.above h.kw.2

theorem Bare.after {l : Bare} (h : l.Ok) : ∃ f, lineAfter l.content l.pos = some f ∧ '"' ∉ f := by
  unfold Bare.content Bare.pos
  rcases h.v with hv | ⟨w, hv⟩
  · exact ⟨l.u, by rw [hv, List.append_nil]; exact lineAfter_end _ _ h.u.2, h.u.1⟩
  · exact ⟨l.u ++ ['\n'], by rw [hv]; exact lineAfter_nl _ _ _ h.u.2, by simp [h.u.1]⟩

theorem Bare.accept_item {l : Bare} (h : l.Ok) (path : Str) (hp : '"' ∉ path ∧ '\\' ∉ path) :
    accept l.content (importItem [] [] l.pos true path) = some (l.with path) := by
  unfold accept importItem
  have e : trimPrefix path [] = path := by
    have := trimPrefix_append [] path
    simpa using this
  simp only [e, Option.bind_some, if_true, quoted_plain hp, List.length_nil]
  have hf : QuickFix.Fits (l.above ++ l.kw ++ []) := by
    have := h.fits
    unfold QuickFix.Fits Bare.content at *
    simp only [List.length_append, List.length_nil] at this ⊢
    omega
  have hpos : adjustColumn l.pos (0 : Int) = posAfter (l.above ++ l.kw ++ []) := adjust_eq (l.above ++ l.kw) [] (by simp) hf
  show applyEdit _ ⟨_, adjustColumn l.pos ((0 : Nat) : Int), _⟩ = _
  rw [show ((0 : Nat) : Int) = 0 from rfl, hpos]
  have := applyEdit_replace (l.above ++ l.kw) [] (l.u ++ l.v) ('"' :: (path ++ ['"']))
  rw [List.append_nil] at this
  rw [List.append_nil]
  show applyEdit (l.above ++ l.kw ++ (l.u ++ l.v)) ⟨posAfter (l.above ++ l.kw), _, _⟩ = _
  rw [this]
  simp [Bare.with]

/-! ## Labels -/

theorem names_tail {a b : Str} (h : GoPath.Names (a ++ '/' :: b)) : GoPath.Names a ∧ GoPath.Names b := by
  unfold GoPath.Names at *
  rw [splitOn_append] at h
  exact ⟨fun x hx => h x (by simp [hx]), fun x hx => h x (by simp [hx])⟩

theorem baseOf_names {path : Str} (h : GoPath.Names path) :
    '/' ∉ path ∧ GoPath.baseOf path = path ∨ ∃ a b, path = a ++ '/' :: b ∧ '/' ∉ b ∧ GoPath.baseOf path = b := by
  rcases GoPath.cases_slash path with hn | ⟨a, b, rfl, hb⟩
  · refine .inl ⟨hn, (GoPath.in_parts (k := ['.']) ⟨⟨?_, hn⟩, .inr ⟨rfl, rfl⟩⟩).2⟩
    exact h path (by rw [splitOn_of_no_sep _ _ hn]; simp)
  · refine .inr ⟨a, b, rfl, hb, (GoPath.in_parts (k := a) ⟨⟨?_, hb⟩, .inl ⟨(names_tail h).1, rfl⟩⟩).2⟩
    exact (names_tail h).2 b (by rw [splitOn_of_no_sep _ _ hb]; simp)

theorem last_shorter {a b d x : Str} (h : d ++ '/' :: x = a ++ '/' :: b) (hb : '/' ∉ b) : b.length ≤ x.length := by
  rw [List.append_eq_append_iff] at h
  rcases h with ⟨c, h1, h2⟩ | ⟨c, h1, h2⟩
  · cases c with
    | nil => simp only [List.nil_append, List.cons.injEq, true_and] at h2; rw [h2]; exact Nat.le_refl _
    | cons y c =>
      simp only [List.cons_append, List.cons.injEq] at h2
      rw [h2.2]
      simp only [List.length_append, List.length_cons]
      omega
  · cases c with
    | nil => simp only [List.nil_append, List.cons.injEq, true_and] at h2; rw [h2]; exact Nat.le_refl _
    | cons y c =>
      simp only [List.cons_append, List.cons.injEq] at h2
      exact absurd (h2.2 ▸ (by simp) : '/' ∈ b) hb

theorem label_dir {d b x : Str} (hb : '/' ∉ b) (h : GoPath.Names (d ++ '/' :: x)) : label (d ++ '/' :: b) (d ++ '/' :: x) = x := by
  have hd : GoPath.dirOf (d ++ '/' :: b) = d := by
    have h1 : GoPath.dirOf (d ++ '/' :: b) = GoPath.dirOf (d ++ '/' :: ['a']) := by
      unfold GoPath.dirOf
      rw [GoPath.split_some _ _ hb, GoPath.split_some _ _ (by simp)]
    rw [h1]
    refine (GoPath.in_parts (b := ['a']) ⟨⟨?_, by simp⟩, .inl ⟨(names_tail h).1, rfl⟩⟩).1
    simp [FindFile.plain]
  unfold label
  rw [hd]
  have e : trimPrefix (d ++ '/' :: x) (d ++ ['/']) = x := by
    have := trimPrefix_append (d ++ ['/']) x
    simpa using this
  simp only [e]
  rw [if_neg]
  rcases baseOf_names h with ⟨hn, _⟩ | ⟨a, c, h1, h2, h3⟩
  · exact absurd (by simp) hn
  · rw [h3]
    have := last_shorter h1 h2
    omega

theorem label_plain {p path : Str} (hp : '/' ∉ p) (h : GoPath.Names path) : label p path = path := by
  have hd : GoPath.dirOf p = ['.'] := by
    unfold GoPath.dirOf
    rw [GoPath.split_none _ hp]
    rfl
  unfold label
  rw [hd]
  have e : trimPrefix path (['.'] ++ ['/']) = path := by
    unfold trimPrefix
    rw [if_neg]
    intro hpre
    rw [List.isPrefixOf_iff_prefix] at hpre
    obtain ⟨t, rfl⟩ := hpre
    exact (h ['.'] (by simp [splitOn])).2.1 rfl
  simp only [e]
  rw [if_neg]
  rcases baseOf_names h with ⟨_, h3⟩ | ⟨a, c, h1, _, h3⟩
  · rw [h3]; omega
  · rw [h3, h1]
    simp only [List.length_append, List.length_cons]
    omega

end Verif.ImportComplete
