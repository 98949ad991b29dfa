import Verif.Props.BlockComment
/-!
# C49: where the lines of a block comment are put
-/
namespace Verif.BlockComment
open Verif.FormatWriter Verif.Comment

/-- Specification: the lines after the first one, except for the end of the comment, start with the prefix `p`. -/
def Shared (pfx : Char → Option Nat) (p : Nat) (ls : List Str) : Prop :=
  (∃ l, ls.head? = some l ∧ trimSpace l ≠ closing) ∧
    ∀ m ∈ ls, trimSpace m = closing ∨ (trimSpace m).head?.bind pfx = some p

theorem scan_later_none (pfx : Char → Option Nat) (ls : List Str) : ∀ i m, 1 < i → (scan pfx i m none ls).2 = none := by
  induction ls with
  | nil => intro i m _; rfl
  | cons l ls ih =>
    intro i m hi
    have e : stepPrefix pfx i none l = none := by unfold stepPrefix; rw [if_pos ⟨hi, rfl⟩]
    show (scan pfx (i + 1) (stepMin m l) (stepPrefix pfx i none l) ls).2 = none
    rw [e]
    exact ih _ _ (by omega)

theorem scan_later_some (pfx : Char → Option Nat) (p q : Nat) (ls : List Str) : ∀ i m, 1 < i →
    ((scan pfx i m (some q) ls).2 = some p ↔ q = p ∧ ∀ l ∈ ls, trimSpace l = closing ∨ (trimSpace l).head?.bind pfx = some p) := by
  induction ls with
  | nil => intro i m _; simp [scan]
  | cons l ls ih =>
    intro i m hi
    show (scan pfx (i + 1) (stepMin m l) (stepPrefix pfx i (some q) l) ls).2 = some p ↔ _
    by_cases hc : trimSpace l = closing
    · have e : stepPrefix pfx i (some q) l = some q := by unfold stepPrefix; rw [if_neg (by simp), if_pos hc]
      rw [e, ih _ _ (by omega)]
      simp [hc]
    · by_cases hq : (trimSpace l).head?.bind pfx = some q
      · have e : stepPrefix pfx i (some q) l = some q := by
          unfold stepPrefix
          rw [if_neg (by simp), if_neg hc, if_neg (by omega), if_neg (by simp [hq])]
        rw [e, ih _ _ (by omega)]
        simp only [List.mem_cons, forall_eq_or_imp, hc, false_or, hq]
        constructor
        · rintro ⟨rfl, h⟩; exact ⟨rfl, rfl, h⟩
        · rintro ⟨h1, _, h⟩; exact ⟨h1, h⟩
      · have e : stepPrefix pfx i (some q) l = none := by
          unfold stepPrefix
          rw [if_neg (by simp), if_neg hc, if_neg (by omega)]
          show (if (trimSpace l).head?.bind pfx ≠ some q then none else some q) = none
          rw [if_pos hq]
        rw [e, scan_later_none _ _ _ _ (by omega)]
        constructor
        · intro h; cases h
        · rintro ⟨rfl, h⟩
          rcases h l (by simp) with h | h
          · exact absurd h hc
          · exact absurd h hq

/-- The prefix that the formatter finds is the shared one. -/
theorem scan_shared (pfx : Char → Option Nat) (p : Nat) (ls : List Str) : (scan pfx 1 none none ls).2 = some p ↔ Shared pfx p ls := by
  unfold Shared
  cases ls with
  | nil => simp [scan]
  | cons l ls =>
    show (scan pfx 2 (stepMin none l) (stepPrefix pfx 1 none l) ls).2 = some p ↔ _
    by_cases hc : trimSpace l = closing
    · have e : stepPrefix pfx 1 none l = none := by unfold stepPrefix; rw [if_neg (by simp), if_pos hc]
      rw [e, scan_later_none _ _ _ _ (by omega)]
      simp [hc]
    · have e : stepPrefix pfx 1 none l = (trimSpace l).head?.bind pfx := by
        unfold stepPrefix; rw [if_neg (by simp), if_neg hc, if_pos rfl]
      rw [e]
      cases hq : (trimSpace l).head?.bind pfx with
      | none => rw [scan_later_none _ _ _ _ (by omega)]; simp [hc, hq]
      | some q => rw [scan_later_some _ _ _ _ _ _ (by omega)]; simp [hc, hq]

theorem blank_prefix_unique {a b s t : Str} {x y : Char} (ha : Blank a) (hb : Blank b) (hx : isSpace x = false) (hy : isSpace y = false)
    (h : a ++ x :: s = b ++ y :: t) : a = b := by
  induction a generalizing b with
  | nil =>
    cases b with
    | nil => rfl
    | cons c b =>
      have hc := hb c (by simp)
      obtain ⟨rfl, _⟩ := List.cons.inj h
      rw [hx] at hc; cases hc
  | cons c a ih =>
    cases b with
    | nil =>
      have hc := ha c (by simp)
      obtain ⟨rfl, _⟩ := List.cons.inj h
      rw [hy] at hc; cases hc
    | cons d b =>
      obtain ⟨rfl, h'⟩ := List.cons.inj h
      rw [ih (fun z hz => ha z (List.mem_cons_of_mem _ hz)) (fun z hz => hb z (List.mem_cons_of_mem _ hz)) h']

theorem block_first {comment : Str} (h : IsBlock comment) (hn : '\n' ∈ comment) :
    ∃ l ls, splitOn '\n' comment = l :: ls ∧ (∀ c, l.head? = some c → isSpace c = false) ∧ trimSpace l ≠ closing ∧
      ['/', '*'].isPrefixOf comment = true := by
  obtain ⟨l, ls, hls, hne, hl, hlh, hlast, hlast2⟩ := isBlock_lines comment h hn
  have hj := join_splitOn '\n' comment
  rw [hls] at hj
  refine ⟨l, ls, hls, hlh, ?_, ?_⟩
  · intro hcl
    obtain ⟨r, hr, _⟩ := h
    rw [joinWith_cons _ _ _ hne] at hj
    rw [hr] at hj
    obtain ⟨v, v', h1, h2, h3, h4⟩ := trimSpace_split l
    rw [h1, hcl] at hj
    cases v with
    | nil => cases hj
    | cons x v =>
      have := h2 x (by simp)
      have hx : x = '/' := (List.cons.inj hj).1
      rw [hx] at this
      revert this; decide
  · obtain ⟨r, rfl, _⟩ := h
    rfl

theorem place_prefixed (k mn p : Nat) (m : Str) (h : trimSpace m ≠ []) :
    place k (formatLine mn (some p) false m) =
      List.replicate (2 * k) ' ' ++ (if trimSpace m = closing ∧ p ≠ 42 then [] else [' ']) ++ trimSpace m := by
  have e1 : line1 mn (some p) m = trimSpace m := by unfold line1; rw [if_pos (.inr (.inr (by simp)))]
  have e2 : formatLine mn (some p) false m = (if trimSpace m = closing ∧ p ≠ 42 then [] else [' ']) ++ trimSpace m := by
    rw [formatLine_eq, e1]
    unfold line2 line3
    by_cases hc : trimSpace m = closing
    · by_cases hp : p = 42
      · simp [hc, hp]
      · simp [hc, hp]
    · have : ¬ (' ' :: trimSpace m = closing) := by intro e; cases e
      simp [hc, this]
  unfold place
  rw [trim_formatLine, if_neg h, e2, List.append_assoc]

/-- **C49** (part): if all lines after the first one start with the same prefix, they are put one column after the
start of the comment; so is the end of the comment, if the prefix is a star, otherwise it is put at the start of the
comment. -/
theorem C49_prefixed (pfx : Char → Option Nat) (k p : Nat) (comment l : Str) (ls : List Str) (h : IsBlock comment)
    (hn : '\n' ∈ comment) (hs : splitOn '\n' comment = l :: ls) (hp : Shared pfx p ls) :
    splitOn '\n' (rendered pfx k comment) = trimSpace l :: ls.map fun m =>
      List.replicate (2 * k) ' ' ++ (if trimSpace m = ['*', '/'] ∧ p ≠ 42 then [] else [' ']) ++ trimSpace m := by
  obtain ⟨l', ls', hs', h1, h2, h3⟩ := block_first h hn
  rw [hs] at hs'
  obtain ⟨rfl, rfl⟩ := List.cons.inj hs'
  rw [split_rendered pfx k comment h3 hn, hs, outLines, (scan_shared pfx p ls).2 hp]
  rw [formatLine_first _ _ l h1 h2]
  congr 1
  refine List.map_congr_left fun m hm => ?_
  refine place_prefixed k _ p m ?_
  intro he
  rcases hp.2 m hm with e | e
  · rw [he] at e; cases e
  · rw [he] at e; cases e

/-- Specification: the column of the first character of a line that is indented with blanks. -/
def column (m : Str) : Nat := (m.takeWhile (· = ' ')).length

theorem blank_indented {m : Str} (h1 : ∀ c ∈ m, isSpace c = true → c = ' ') (h2 : trimSpace m ≠ []) :
    ∃ x t, m = List.replicate (column m) ' ' ++ x :: t ∧ isSpace x = false := by
  induction m with
  | nil => exact absurd rfl h2
  | cons c m ih =>
    by_cases hc : c = ' '
    · subst hc
      have e : trimSpace (' ' :: m) = trimSpace m := trimSpace_surround_left (w := [' ']) (blank_spaces 1)
      obtain ⟨x, t, e1, e2⟩ := ih (fun d hd => h1 d (List.mem_cons_of_mem _ hd)) (by rw [← e]; exact h2)
      have ec : column (' ' :: m) = column m + 1 := by simp [column]
      refine ⟨x, t, ?_, e2⟩
      rw [ec, List.replicate_succ, List.cons_append, ← e1]
    · have ec : column (c :: m) = 0 := by simp [column, hc]
      refine ⟨c, m, by rw [ec]; rfl, ?_⟩
      cases hs : isSpace c with
      | false => rfl
      | true => exact absurd (h1 c (by simp) hs) hc

theorem computeIndent_blank {m : Str} (h1 : ∀ c ∈ m, isSpace c = true → c = ' ') (h2 : trimSpace m ≠ []) (h3 : trimSpace m ≠ closing) :
    computeIndent m = some (column m) := by
  obtain ⟨x, t, e1, e2⟩ := blank_indented h1 h2
  unfold computeIndent
  rw [if_neg h3]
  conv => lhs; rw [e1]
  rw [indentLoop_spaces]
  have n1 : x ≠ ' ' := by rintro rfl; revert e2; decide
  have n2 : x ≠ '\t' := by rintro rfl; revert e2; decide
  unfold indentLoop
  rw [if_neg n1, if_neg n2, Nat.zero_add]

/-- **C49** (part): if there is no such prefix, the lines keep their columns relative to each other (for comments that are
indented with blanks): the leftmost one is put three columns after the start of the comment. -/
theorem C49_relative (pfx : Char → Option Nat) (k : Nat) (comment l : Str) (ls : List Str) (h : IsBlock comment)
    (hn : '\n' ∈ comment) (hs : splitOn '\n' comment = l :: ls) (hp : ∀ p, ¬ Shared pfx p ls)
    (hw : ∀ m ∈ ls, ∀ c ∈ m, isSpace c = true → c = ' ') :
    ∃ base, (∀ m ∈ ls, trimSpace m ≠ [] → trimSpace m ≠ ['*', '/'] → base ≤ column m) ∧
      (∀ m ∈ ls, trimSpace m ≠ [] → trimSpace m ≠ ['*', '/'] →
        ∃ m' ∈ ls, trimSpace m' ≠ [] ∧ trimSpace m' ≠ ['*', '/'] ∧ base = column m') ∧
      splitOn '\n' (rendered pfx k comment) = trimSpace l :: ls.map fun m =>
        if trimSpace m = [] then []
        else if trimSpace m = ['*', '/'] then List.replicate (2 * k) ' ' ++ ['*', '/']
        else List.replicate (2 * k + 3 + (column m - base)) ' ' ++ trimSpace m := by
  obtain ⟨l', ls', hs', h1, h2, h3⟩ := block_first h hn
  rw [hs] at hs'
  obtain ⟨rfl, rfl⟩ := List.cons.inj hs'
  have hnone : (scan pfx 1 none none ls).2 = none := by
    cases hc : (scan pfx 1 none none ls).2 with
    | none => rfl
    | some p => exact absurd ((scan_shared pfx p ls).1 hc) (hp p)
  obtain ⟨f1, f2⟩ := foldl_min ls none
  have hcol : ∀ m ∈ ls, trimSpace m ≠ [] → trimSpace m ≠ closing → computeIndent m = some (column m) :=
    fun m hm a b => computeIndent_blank (hw m hm) a b
  have hrev : ∀ m ∈ ls, ∀ n, computeIndent m = some n → trimSpace m ≠ [] ∧ trimSpace m ≠ closing := by
    intro m hm n hc
    have hcl : trimSpace m ≠ closing := by
      intro e; unfold computeIndent at hc; rw [if_pos e] at hc; cases hc
    refine ⟨fun e => ?_, hcl⟩
    unfold computeIndent at hc
    rw [if_neg hcl] at hc
    have hb : Blank m := by
      obtain ⟨v, v', e1, e2, e3, e4⟩ := trimSpace_split m
      rw [e] at e1
      rw [e1, List.append_nil]
      exact blank_append e2 e3
    rw [indentLoop_blank m (fun c hc' hsp => .inl (hw m hm c hc' hsp)) hb] at hc
    cases hc
  have hb1 : ∀ m ∈ ls, trimSpace m ≠ [] → trimSpace m ≠ closing → (ls.foldl stepMin none).getD 0 ≤ column m := by
    intro m hm a b
    cases hf : ls.foldl stepMin none with
    | none => exact Nat.zero_le _
    | some n => exact (f2 n hf).2.2 m hm _ (hcol m hm a b)
  refine ⟨(ls.foldl stepMin none).getD 0, hb1, ?_, ?_⟩
  · intro m hm a b
    cases hf : ls.foldl stepMin none with
    | none =>
      have := (f1 hf).2 m hm
      rw [hcol m hm a b] at this; cases this
    | some n =>
      rcases (f2 n hf).1 with e | ⟨m', hm', e⟩
      · cases e
      · obtain ⟨c, d⟩ := hrev m' hm' n e
        refine ⟨m', hm', c, d, ?_⟩
        rw [hcol m' hm' c d] at e
        exact (Option.some.inj e).symm
  · rw [split_rendered pfx k comment h3 hn, hs, outLines, hnone, scan_min]
    rw [formatLine_first _ _ l h1 h2]
    congr 1
    refine List.map_congr_left fun m hm => ?_
    by_cases hm0 : trimSpace m = []
    · rw [place_blank _ _ _ _ hm0, if_pos hm0]
    · by_cases hm1 : trimSpace m = closing
      · rw [if_neg hm0, if_pos (show trimSpace m = ['*', '/'] from hm1)]
        have e1 : ∀ mn, formatLine mn none false m = closing := by
          intro mn
          rw [formatLine_eq]
          have : line1 mn none m = closing := by unfold line1; rw [if_pos (.inr (.inl hm1)), hm1]
          rw [this]
          decide
        unfold place
        rw [trim_formatLine, if_neg hm0, e1]
        rfl
      · rw [if_neg hm0, if_neg (show ¬ trimSpace m = ['*', '/'] from hm1), place_plain _ _ _ hm0 hm1]
        obtain ⟨x, t, e1, e2⟩ := blank_indented (hw m hm) hm0
        have hle := hb1 m hm hm0 hm1
        generalize (ls.foldl stepMin none).getD 0 = base at hle
        have e3 : unindent m base = List.replicate (column m - base) ' ' ++ x :: t := by
          unfold unindent
          conv => lhs; rw [e1]
          rw [show column m = base + (column m - base) by omega, ← List.replicate_append_replicate, List.append_assoc]
          have := unindentLoop_spaces base (List.replicate (column m - base) ' ' ++ x :: t) 0 (by simp)
          rw [Nat.zero_add] at this
          rw [this, show base + (column m - base) - base = column m - base by omega]
        have e4 : trimRight (List.replicate (column m - base) ' ' ++ x :: t) = List.replicate (column m - base) ' ' ++ trimSpace m := by
          obtain ⟨v, hv, hv'⟩ := trimRight_unindent m base hm0
          rw [e3] at hv'
          obtain ⟨w, k1, k2, k3⟩ := trimRight_split (List.replicate (column m - base) ' ' ++ x :: t)
          rw [hv'] at k1 ⊢
          congr 1
          -- the blanks before the content are the same
          obtain ⟨y, ys, hy⟩ : ∃ y ys, trimSpace m = y :: ys := List.exists_cons_of_ne_nil hm0
          have hys : isSpace y = false := by
            obtain ⟨a, b, q1, q2, q3, q4⟩ := trimSpace_split m
            exact q4.first y (by rw [hy]; rfl)
          rw [hy, List.append_assoc, List.cons_append] at k1
          exact (blank_prefix_unique (blank_spaces _) hv e2 hys k1).symm
        rw [e3, e4, ← List.append_assoc, List.replicate_append_replicate]

/-- A star on every line, and lines without a prefix. -/
example : Shared (fun c => if c = '*' then some 42 else none) 42 ["* b".toList, "   * c".toList, "*/".toList] := by
  unfold Shared
  refine ⟨⟨_, rfl, by decide⟩, by decide⟩

example : ∀ p, ¬ Shared (fun c => if c = '*' then some 42 else none) p ["   b".toList, " c".toList, "*/".toList] := by
  rintro p ⟨_, h⟩
  have := h _ (List.mem_cons_self ..)
  rw [show trimSpace "   b".toList = ['b'] by decide] at this
  revert this
  simp [closing]

example : rendered (fun _ => none) 1 "/*\n   b\n c\n*/".toList = "/*\n       b\n     c\n  */".toList := by decide +kernel

end Verif.BlockComment
