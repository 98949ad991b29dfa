import Verif.Model.BlockComment
import Verif.Lemmas.Comment
/-!
# Properties of comments written on lines of their own: C49
-/
namespace Verif.BlockComment
open Verif.FormatWriter Verif.Comment

/-! ### One line -/

theorem blank_spaces (n : Nat) : Blank (List.replicate n ' ') := by
  intro c hc
  rw [List.eq_of_mem_replicate hc]
  decide

theorem unindentLoop_split (n : Nat) (s : Str) : ∀ pos, ∃ w x w', s = w ++ x ∧ unindentLoop n pos s = w' ++ x ∧
    Blank w ∧ Blank w' := by
  induction s with
  | nil => intro pos; exact ⟨[], [], [], rfl, rfl, blank_nil, blank_nil⟩
  | cons r s ih =>
    intro pos
    unfold unindentLoop
    have add : ∀ p, isSpace r = true → ∃ w x w', r :: s = w ++ x ∧ unindentLoop n p s = w' ++ x ∧ Blank w ∧ Blank w' := by
      intro p hr
      obtain ⟨w, x, w', h1, h2, h3, h4⟩ := ih p
      refine ⟨r :: w, x, w', by rw [h1]; rfl, h2, ?_, h4⟩
      intro c hc
      rcases List.mem_cons.1 hc with rfl | hc
      · exact hr
      · exact h3 c hc
    split
    · exact ⟨[], r :: s, [], rfl, rfl, blank_nil, blank_nil⟩
    · split
      · exact ⟨[], r :: s, _, rfl, rfl, blank_nil, blank_spaces _⟩
      · split
        · rename_i h; exact add _ (by rw [h]; decide)
        · split
          · rename_i h; exact add _ (by rw [h]; decide)
          · exact ⟨[], r :: s, [], rfl, rfl, blank_nil, blank_nil⟩

/-- A line after removing indentation and trailing white space: some white space and its content. -/
theorem trimRight_unindent (l : Str) (n : Nat) (hl : trimSpace l ≠ []) :
    ∃ v, Blank v ∧ trimRight (unindent l n) = v ++ trimSpace l := by
  obtain ⟨w, x, w', h1, h2, h3, h4⟩ := unindentLoop_split n l 0
  have hx : trimSpace l = trimSpace x := by rw [h1, trimSpace_surround_left h3]
  obtain ⟨a, b, k1, k2, k3, k4⟩ := trimSpace_split x
  refine ⟨w' ++ a, blank_append h4 k2, ?_⟩
  unfold unindent
  rw [h2, hx]
  have : w' ++ x = (w' ++ a ++ trimSpace x) ++ b := by
    conv => lhs; rw [k1]
    simp
  rw [this]
  refine trimRight_unique k3 ?_
  intro c hc
  refine k4.last c ?_
  rw [List.getLast?_append] at hc
  cases hq : (trimSpace x).getLast? with
  | none =>
    rw [List.getLast?_eq_none_iff] at hq
    exact absurd (hx.trans hq) hl
  | some d => rw [hq] at hc; exact hc

/-- The line before the prefix is added. -/
def line1 (min : Nat) (pf : Option Nat) (line : Str) : Str :=
  if trimSpace line = [] ∨ trimSpace line = closing ∨ pf ≠ none then trimSpace line else trimRight (unindent line min)

/-- The line with the prefix. -/
def line2 (pf : Option Nat) (first : Bool) (line : Str) : Str :=
  if first = false ∧ line ≠ closing then (if pf = none then [' ', ' ', ' '] ++ line else ' ' :: line) else line

/-- The line with the space before the end of the comment. -/
def line3 (pf : Option Nat) (line : Str) : Str := if line = closing ∧ pf = some 42 then ' ' :: line else line

theorem formatLine_eq (min : Nat) (pf : Option Nat) (first : Bool) (l : Str) :
    formatLine min pf first l = line3 pf (line2 pf first (line1 min pf l)) := rfl

theorem line1_split (min : Nat) (pf : Option Nat) (l : Str) : ∃ v, Blank v ∧ line1 min pf l = v ++ trimSpace l := by
  unfold line1
  split
  · exact ⟨[], blank_nil, rfl⟩
  · rename_i h
    exact trimRight_unindent l min (fun h' => h (.inl h'))

theorem formatLine_split (min : Nat) (pf : Option Nat) (first : Bool) (l : Str) :
    ∃ v, Blank v ∧ formatLine min pf first l = v ++ trimSpace l := by
  obtain ⟨v, h1, h2⟩ := line1_split min pf l
  rw [formatLine_eq]
  have key : ∃ v, Blank v ∧ line2 pf first (line1 min pf l) = v ++ trimSpace l := by
    unfold line2
    split
    · split
      · exact ⟨[' ', ' ', ' '] ++ v, blank_append (blank_spaces 3) h1, by rw [h2, List.append_assoc]⟩
      · exact ⟨' ' :: v, blank_append (blank_spaces 1) h1, by rw [h2]; rfl⟩
    · exact ⟨v, h1, h2⟩
  obtain ⟨u, k1, k2⟩ := key
  rw [k2]
  unfold line3
  split
  · exact ⟨' ' :: u, blank_append (blank_spaces 1) k1, rfl⟩
  · exact ⟨u, k1, rfl⟩

theorem trim_formatLine (min : Nat) (pf : Option Nat) (first : Bool) (l : Str) :
    trimSpace (formatLine min pf first l) = trimSpace l := by
  obtain ⟨v, h1, h2⟩ := formatLine_split min pf first l
  rw [h2, trimSpace_surround_left h1, trimSpace_idem]

theorem unindentLoop_nonspace (n : Nat) (l : Str) (h : ∀ c, l.head? = some c → isSpace c = false) :
    unindentLoop n 0 l = l := by
  cases l with
  | nil => rfl
  | cons x t =>
    have hx := h x rfl
    have n1 : x ≠ ' ' := by rintro rfl; revert hx; decide
    have n2 : x ≠ '\t' := by rintro rfl; revert hx; decide
    unfold unindentLoop
    split
    · rfl
    · split
      · exact absurd (by assumption : 0 > n) (by omega)
      · first | rfl | rw [if_neg n1, if_neg n2]

/-- The first line of a comment only loses the white space at its end. -/
theorem formatLine_first (mn : Nat) (pf : Option Nat) (l : Str) (h : ∀ c, l.head? = some c → isSpace c = false)
    (hncl : trimSpace l ≠ closing) : formatLine mn pf true l = trimSpace l := by
  have hline : line1 mn pf l = trimSpace l := by
    unfold line1
    split
    · rfl
    · unfold unindent
      rw [unindentLoop_nonspace mn l h]
      obtain ⟨v, v', h1, h2, h3, h4⟩ := trimSpace_split l
      have hv : v = [] := by
        cases v with
        | nil => rfl
        | cons x v =>
          exfalso
          have hx := h x (by rw [h1]; rfl)
          rw [h2 x (by simp)] at hx
          cases hx
      rw [hv, List.nil_append] at h1
      conv => lhs; rw [h1]
      exact trimRight_unique h3 h4.last
  have e2 : line2 pf true (trimSpace l) = trimSpace l := by
    unfold line2
    rw [if_neg (by simp)]
  rw [formatLine_eq, hline, e2]
  unfold line3
  rw [if_neg (fun hh => hncl hh.1)]

/-! ### All lines -/

/-- Specification: a line at the given level of indentation; blank lines are left empty. -/
def place (k : Nat) (l : Str) : Str := if trimSpace l = [] then [] else List.replicate (2 * k) ' ' ++ l

/-- The lines that are written. -/
def outLines (pfx : Char → Option Nat) (k : Nat) : List Str → List Str
  | [] => []
  | l :: ls =>
    let r := scan pfx 1 none none ls
    let min := r.1.getD 0
    formatLine min r.2 true l :: ls.map fun m => place k (formatLine min r.2 false m)

/-- Specification: the text of a comment after formatting; `k` is the level of indentation. -/
def rendered (pfx : Char → Option Nat) (k : Nat) (comment : Str) : Str :=
  if ['/', '*'].isPrefixOf comment ∧ '\n' ∈ comment then joinWith '\n' (outLines pfx k (splitOn '\n' comment))
  else trimSpace comment

theorem trim_place (k : Nat) (l : Str) : trimSpace (place k l) = trimSpace l := by
  unfold place
  split
  · rename_i h; rw [h]; rfl
  · exact trimSpace_surround_left (blank_spaces _)

theorem trim_outLines (pfx : Char → Option Nat) (k : Nat) (ls : List Str) :
    (outLines pfx k ls).map trimSpace = ls.map trimSpace := by
  cases ls with
  | nil => rfl
  | cons l ls =>
    simp only [outLines, List.map_cons, List.map_map, trim_formatLine]
    congr 1
    refine List.map_congr_left ?_
    intro m _
    simp only [Function.comp_apply, trim_place, trim_formatLine]

/-! ### The writer -/

theorem indentation_line (st : St) (h : st.last = '\n') (hp : st.pendingSpace = false) :
    (indentation st none).out = st.out ++ List.replicate (2 * st.indent) ' ' ∧ (indentation st none).pendingSpace = false := by
  unfold indentation
  rw [if_neg (by simpa using h)]
  simp [write, spaceFor, hp]

theorem write_plain (st : St) (s : Str) (hp : st.pendingSpace = false) :
    (write st s).out = st.out ++ s := by
  simp [write, spaceFor, hp]

theorem settle_zero (st : St) (h : st.pendingIndent = 0) : settle st = { st with pendingIndent := 0 } := by
  unfold settle
  rw [h]
  simp

/-- A line written at the start of a line. -/
theorem P_line (st : St) (h : st.last = '\n') (hp : st.pendingSpace = false) (hi : st.pendingIndent = 0) (l : Str) :
    (P st l).out = st.out ++ place st.indent l ++ ['\n'] ∧ (P st l).last = '\n' ∧ (P st l).pendingSpace = false ∧
    (P st l).pendingIndent = 0 ∧ (P st l).indent = st.indent := by
  unfold P place
  by_cases hb : trimSpace l = []
  · rw [if_pos hb, if_pos hb, settle_zero _ (by exact hi)]
    refine ⟨?_, rfl, rfl, rfl, rfl⟩
    show (write st ['\n']).out = _
    rw [write_plain _ _ hp, List.append_nil]
  · rw [if_neg hb, if_neg hb]
    obtain ⟨e1, e2⟩ := indentation_line st h hp
    have e3 : (indentation st none).pendingIndent = st.pendingIndent ∧ (indentation st none).indent = st.indent := by
      unfold indentation
      split <;> exact ⟨rfl, rfl⟩
    rw [settle_zero _ (by show (indentation st none).pendingIndent = 0; rw [e3.1]; exact hi)]
    refine ⟨?_, rfl, rfl, rfl, e3.2⟩
    show (write (write (indentation st none) l) ['\n']).out = _
    rw [write_plain _ _ rfl, write_plain _ _ e2, e1]
    simp

theorem writeRest_out (min : Nat) (pf : Option Nat) (ls : List Str) : ∀ (st : St), ls ≠ [] →
    (∀ l, ls.getLast? = some l → trimSpace l ≠ []) →
    st.last = '\n' → st.pendingSpace = false → st.pendingIndent = 0 →
    (writeRest min pf st ls).out = st.out ++ joinWith '\n' (ls.map fun m => place st.indent (formatLine min pf false m)) := by
  induction ls with
  | nil => intro st h; exact absurd rfl h
  | cons l ls ih =>
    intro st _ hlast h hp hi
    cases ls with
    | nil =>
      simp only [writeRest, List.map_cons, List.map_nil, joinWith]
      obtain ⟨e1, e2⟩ := indentation_line st h hp
      rw [write_plain _ _ e2, e1]
      unfold place
      rw [if_neg (by rw [trim_formatLine]; exact hlast l rfl), List.append_assoc]
    | cons m ms =>
      simp only [writeRest]
      obtain ⟨p1, p2, p3, p4, p5⟩ := P_line st h hp hi (formatLine min pf false l)
      rw [ih _ (by simp) (fun x hx => hlast x (by rw [List.getLast?_cons_cons]; exact hx)) p2 p3 p4, p1, p5]
      have hc : (l :: m :: ms).map (fun m => place st.indent (formatLine min pf false m)) =
        place st.indent (formatLine min pf false l) :: (m :: ms).map (fun m => place st.indent (formatLine min pf false m)) := rfl
      rw [hc, joinWith_cons _ _ _ (by simp)]
      simp only [List.append_assoc, List.singleton_append]

/-- The level of indentation of the lines after the first one. -/
def restLevel (st : St) : Nat := (settle st).indent

theorem settle_indent (s t : St) (h1 : s.indent = t.indent) (h2 : s.pendingIndent = t.pendingIndent) :
    (settle s).indent = (settle t).indent := by
  cases s
  cases t
  simp only at h1 h2
  subst h1 h2
  unfold settle incr decr
  simp only
  split
  · rfl
  · split
    · split <;> rfl
    · rfl

theorem P_first (st : St) (l : Str) (hl : trimSpace l ≠ []) :
    ∃ pre, Blank pre ∧ (P st l).out = st.out ++ pre ++ l ++ ['\n'] ∧ (P st l).last = '\n' ∧ (P st l).pendingSpace = false ∧
    (P st l).pendingIndent = 0 ∧ (P st l).indent = restLevel st := by
  have sp : ∀ (s : St) (e : Str), Blank (spaceFor s e) := by
    intro s e
    unfold spaceFor
    split
    · exact blank_spaces 1
    · exact blank_nil
  obtain ⟨pre, hpre, hout⟩ : ∃ pre, Blank pre ∧ (write (indentation st none) l).out = st.out ++ pre ++ l := by
    unfold indentation
    split
    · exact ⟨_, sp st l, rfl⟩
    · refine ⟨_, blank_append (blank_append (sp st (List.replicate (2 * st.indent) ' ')) (blank_spaces (2 * st.indent))) (sp (write st (List.replicate (2 * st.indent) ' ')) l), ?_⟩
      simp [write]
  refine ⟨pre, hpre, ?_, ?_, ?_, ?_, ?_⟩
  · unfold P
    rw [if_neg hl]
    have : ∀ s : St, (settle s).out = s.out := by
      intro s
      unfold settle decr incr
      simp only
      split
      · rfl
      · split
        · split <;> rfl
        · rfl
    rw [this, write_plain _ _ rfl, hout]
  · have : ∀ s : St, (settle s).last = s.last := by
      intro s
      unfold settle decr incr
      simp only
      split
      · rfl
      · split
        · split <;> rfl
        · rfl
    unfold P
    rw [this]
    rfl
  · have : ∀ s : St, (settle s).pendingSpace = s.pendingSpace := by
      intro s
      unfold settle decr incr
      simp only
      split
      · rfl
      · split
        · split <;> rfl
        · rfl
    unfold P
    rw [this]
    rfl
  · unfold P settle
    rfl
  · unfold P restLevel
    rw [if_neg hl]
    refine settle_indent _ _ ?_ ?_
    · show (indentation st none).indent = st.indent
      unfold indentation
      split <;> rfl
    · show (indentation st none).pendingIndent = st.pendingIndent
      unfold indentation
      split <;> rfl

theorem isBlock_lines (comment : Str) (h : IsBlock comment) (hn : '\n' ∈ comment) :
    ∃ l ls, splitOn '\n' comment = l :: ls ∧ ls ≠ [] ∧ trimSpace l ≠ [] ∧
      (∀ c, l.head? = some c → isSpace c = false) ∧ (∀ m, ls.getLast? = some m → trimSpace m ≠ []) ∧
      (∀ m, ls.getLast? = some m → ∀ c, m.getLast? = some c → isSpace c = false) := by
  have htr := block_trimmed comment h
  have hj := join_splitOn '\n' comment
  cases hls : splitOn '\n' comment with
  | nil => exact absurd hls (splitOn_ne_nil _ _)
  | cons l ls =>
    rw [hls] at hj
    have hns := splitOn_no_sep '\n' comment
    rw [hls] at hns
    have hne : ls ≠ [] := by
      rintro rfl
      simp only [joinWith] at hj
      rw [← hj] at hn
      exact hns l (by simp) hn
    rw [joinWith_cons _ _ _ hne] at hj
    have hl : ∃ t, l = '/' :: t := by
      obtain ⟨r, hr, _⟩ := h
      cases l with
      | nil => rw [hr] at hj; cases hj
      | cons x t => rw [hr] at hj; exact ⟨t, by rw [(List.cons.inj hj).1]⟩
    have hlast : ∀ m, ls.getLast? = some m → ∀ c, m.getLast? = some c → isSpace c = false := by
      intro m hm c hc
      refine htr.last c ?_
      have key : ∀ (ls : List Str) (k : Str) (c : Char), ls.getLast? = some k → k.getLast? = some c →
          (joinWith '\n' ls).getLast? = some c := by
        intro ls
        induction ls with
        | nil => intro k c hk; cases hk
        | cons x xs ih =>
          intro k c hk hc
          cases xs with
          | nil => cases hk; simpa [joinWith] using hc
          | cons y ys =>
            rw [List.getLast?_cons_cons] at hk
            rw [joinWith_cons _ _ _ (by simp), List.getLast?_append, List.getLast?_cons, ih k c hk hc]
            rfl
      rw [← hj, List.getLast?_append, List.getLast?_cons, key _ m c hm hc]
      rfl
    refine ⟨l, ls, rfl, hne, ?_, ?_, ?_, hlast⟩
    · obtain ⟨t, rfl⟩ := hl
      intro hb
      have := trimSpace_eq_nil.1 hb '/' (by simp)
      revert this
      decide
    · obtain ⟨t, rfl⟩ := hl
      intro c hc
      cases hc
      decide
    · intro m hm hb
      have hbl := trimSpace_eq_nil.1 hb
      cases hq : m.getLast? with
      | some c =>
        have h1 := hlast m hm c hq
        rw [hbl c (List.mem_of_getLast? hq)] at h1
        cases h1
      | none =>
        -- an empty last line: the comment would end with a line break
        have hm0 : m = [] := List.getLast?_eq_none_iff.1 hq
        subst hm0
        have key : ∀ ls : List Str, ls.getLast? = some [] → joinWith '\n' ls = [] ∨ (joinWith '\n' ls).getLast? = some '\n' := by
          intro ls
          induction ls with
          | nil => intro hk; cases hk
          | cons x xs ih =>
            intro hk
            cases xs with
            | nil => cases hk; exact .inl rfl
            | cons y ys =>
              rw [List.getLast?_cons_cons] at hk
              right
              rw [joinWith_cons _ _ _ (by simp), List.getLast?_append, List.getLast?_cons]
              rcases ih hk with h | h
              · rw [h]; rfl
              · rw [h]; rfl
        have : comment.getLast? = some '\n' := by
          rw [← hj, List.getLast?_append, List.getLast?_cons]
          rcases key ls hm with h | h
          · rw [h]; rfl
          · rw [h]; rfl
        have := htr.last _ this
        revert this
        decide

/-- **C49** (part): what is written is white space and the formatted text of the comment. -/
theorem C49_written (pfx : Char → Option Nat) (st : St) (comment : Str) (h : IsBlock comment) :
    ∃ pre, Blank pre ∧ (writeComment pfx st comment).out = st.out ++ pre ++ rendered pfx (restLevel st) comment := by
  have hp : ['/', '*'].isPrefixOf comment = true := by
    obtain ⟨r, rfl, _⟩ := h
    rfl
  unfold writeComment rendered
  by_cases hn : '\n' ∈ comment
  · rw [if_pos ⟨hp, hn⟩, if_pos ⟨hp, hn⟩]
    obtain ⟨l, ls, hls, hne, hl, hlh, hlast, hlast2⟩ := isBlock_lines comment h hn
    rw [hls]
    simp only [writeLines, outLines]
    obtain ⟨pre, h1, h2, h3, h4, h5, h6⟩ := P_first st
      (formatLine ((scan pfx 1 none none ls).1.getD 0) (scan pfx 1 none none ls).2 true l) (by rw [trim_formatLine]; exact hl)
    refine ⟨pre, h1, ?_⟩
    rw [writeRest_out _ _ ls _ hne hlast h3 h4 h5, h2, h6, joinWith_cons _ _ _ (by simp [hne])]
    simp
  · rw [if_neg (fun hh => hn hh.2), if_neg (fun hh => hn hh.2)]
    unfold indentation
    have sp : ∀ (s : St) (e : Str), Blank (spaceFor s e) := by
      intro s e
      unfold spaceFor
      split
      · exact blank_spaces 1
      · exact blank_nil
    split
    · exact ⟨_, sp st _, rfl⟩
    · exact ⟨_, blank_append (blank_append (sp st (List.replicate (2 * st.indent) ' ')) (blank_spaces (2 * st.indent)))
        (sp (write st (List.replicate (2 * st.indent) ' ')) (trimSpace comment)), by simp [write]⟩

theorem no_newline_outLines (pfx : Char → Option Nat) (k : Nat) (ls : List Str) (h : ∀ l ∈ ls, '\n' ∉ l) :
    ∀ l ∈ outLines pfx k ls, '\n' ∉ l := by
  -- the white space that is added consists of spaces
  have unl : ∀ n (s : Str), '\n' ∉ s → ∀ pos, '\n' ∉ unindentLoop n pos s := by
    intro n s
    induction s with
    | nil => intro _ pos; simp [unindentLoop]
    | cons r s ih =>
      intro hs pos
      have hs' : '\n' ∉ s := fun h => hs (List.mem_cons_of_mem _ h)
      unfold unindentLoop
      split
      · exact hs
      · split
        · intro hc
          rcases List.mem_append.1 hc with hc | hc
          · have := List.eq_of_mem_replicate hc
            revert this; decide
          · exact hs hc
        · split
          · exact ih hs' _
          · split
            · exact ih hs' _
            · exact hs
  have tr : ∀ s : Str, '\n' ∉ s → '\n' ∉ trimSpace s := by
    intro s hs hc
    obtain ⟨w, w', h1, _⟩ := trimSpace_split s
    exact hs (by rw [h1]; simp [hc])
  have trr : ∀ s : Str, '\n' ∉ s → '\n' ∉ trimRight s := by
    intro s hs hc
    obtain ⟨w, h1, _⟩ := trimRight_split s
    exact hs (by rw [h1]; simp [hc])
  have l1 : ∀ min pf (s : Str), '\n' ∉ s → '\n' ∉ line1 min pf s := by
    intro min pf s hs
    unfold line1
    split
    · exact tr s hs
    · exact trr _ (unl _ s hs 0)
  have fl : ∀ min pf first (s : Str), '\n' ∉ s → '\n' ∉ formatLine min pf first s := by
    intro min pf first s hs
    have := l1 min pf s hs
    rw [formatLine_eq]
    have key : '\n' ∉ line2 pf first (line1 min pf s) := by
      unfold line2
      split
      · split
        · simp [this]
        · simp [this]
      · exact this
    unfold line3
    split
    · simp only [List.mem_cons, not_or]
      exact ⟨by decide, key⟩
    · exact key
  cases ls with
  | nil => intro l hl; cases hl
  | cons a ls =>
    intro l hl
    simp only [outLines, List.mem_cons, List.mem_map] at hl
    rcases hl with rfl | ⟨m, hm, rfl⟩
    · exact fl _ _ _ a (h a (by simp))
    · unfold place
      split
      · simp
      · intro hc
        rcases List.mem_append.1 hc with hc | hc
        · have := List.eq_of_mem_replicate hc
          revert this; decide
        · exact fl _ _ _ m (h m (List.mem_cons_of_mem _ hm)) hc

theorem split_rendered (pfx : Char → Option Nat) (k : Nat) (comment : Str) (hp : ['/', '*'].isPrefixOf comment = true)
    (hn : '\n' ∈ comment) : splitOn '\n' (rendered pfx k comment) = outLines pfx k (splitOn '\n' comment) := by
  unfold rendered
  rw [if_pos ⟨hp, hn⟩]
  refine splitOn_join '\n' _ ?_ (no_newline_outLines pfx k _ (splitOn_no_sep '\n' comment))
  cases h : splitOn '\n' comment with
  | nil => exact absurd h (splitOn_ne_nil _ _)
  | cons l ls => simp [outLines]

/-- **C49** (part): line by line, only the white space at the ends of the lines of a comment changes. -/
theorem C49_lines (pfx : Char → Option Nat) (k : Nat) (comment : Str) (hp : ['/', '*'].isPrefixOf comment = true)
    (hn : '\n' ∈ comment) :
    (splitOn '\n' (rendered pfx k comment)).map trimSpace = (splitOn '\n' comment).map trimSpace := by
  rw [split_rendered pfx k comment hp hn, trim_outLines]

/-- The written form of a block comment is the comment with other white space. -/
theorem respaced_rendered (pfx : Char → Option Nat) (k : Nat) (comment : Str) (h : IsBlock comment) :
    Respaced comment (rendered pfx k comment) := by
  have hp : ['/', '*'].isPrefixOf comment = true := by
    obtain ⟨r, rfl, _⟩ := h
    rfl
  by_cases hn : '\n' ∈ comment
  · have hsr := split_rendered pfx k comment hp hn
    have hj := join_splitOn '\n' comment
    have hj' := join_splitOn '\n' (rendered pfx k comment)
    rw [hsr] at hj'
    obtain ⟨l, ls, hls, hne, hl, hlh, hlast, hlast2⟩ := isBlock_lines comment h hn
    rw [hls] at hj hj'
    rw [← hj']
    have hrw : Respaced (joinWith '\n' (l :: ls)) (joinWith '\n' (outLines pfx k (l :: ls))) → Respaced comment
        (joinWith '\n' (outLines pfx k (l :: ls))) := by
      rw [hj]; exact id
    refine hrw ?_
    simp only [outLines]
    generalize (scan pfx 1 none none ls).1.getD 0 = mn
    generalize (scan pfx 1 none none ls).2 = pf
    rw [joinWith_cons _ _ _ hne, joinWith_cons _ _ _ (by simp [hne])]
    -- the first line
    obtain ⟨v, v', h1, h2, h3, h4⟩ := trimSpace_split l
    have hv : v = [] := by
      cases v with
      | nil => rfl
      | cons x v =>
        exfalso
        have hx := hlh x (by rw [h1]; rfl)
        rw [h2 x (by simp)] at hx
        cases hx
    rw [hv, List.nil_append] at h1
    have hncl : trimSpace l ≠ closing := by
      intro hcl
      have hj0 : comment.head? = some '*' := by
        rw [← hj, joinWith_cons _ _ _ hne, h1, hcl]
        rfl
      obtain ⟨r, hr, _⟩ := h
      rw [hr] at hj0
      cases hj0
    have hfirst : formatLine mn pf true l = trimSpace l := formatLine_first mn pf l hlh hncl
    rw [hfirst]
    have q1 : l ++ '\n' :: joinWith '\n' ls = trimSpace l ++ ((v' ++ ['\n']) ++ joinWith '\n' ls) := by
      conv => lhs; rw [h1]
      simp
    have q2 : ∀ z : Str, '\n' :: z = ['\n'] ++ z := fun _ => rfl
    rw [q1, q2]
    have bn : Blank ['\n'] := by intro c hc; rw [List.mem_singleton.1 hc]; decide
    refine respaced_append _ _ _ (respaced_lines2 '\n' '\n' (by decide) (by decide) ls _ hne ?_ hlast2 ?_ _ _ (by simp) (by simp)
      (blank_append h3 bn) bn)
    · rw [List.map_map]
      refine List.map_congr_left ?_
      intro m _
      simp only [Function.comp_apply, trim_place, trim_formatLine]
    · intro m hm c hc
      rw [List.getLast?_map] at hm
      obtain ⟨m0, hm0, rfl⟩ := Option.map_eq_some_iff.1 hm
      have hb := hlast m0 hm0
      unfold place at hc
      rw [if_neg (by rw [trim_formatLine]; exact hb)] at hc
      obtain ⟨u, hu, hu'⟩ := formatLine_split mn pf false m0
      rw [hu', List.getLast?_append, List.getLast?_append] at hc
      obtain ⟨_, _, _, _, _, ht⟩ := trimSpace_split m0
      cases hq : (trimSpace m0).getLast? with
      | none => exact absurd (List.getLast?_eq_none_iff.1 hq) hb
      | some d =>
        rw [hq] at hc
        cases hc
        exact ht.last c hq
  · unfold rendered
    rw [if_neg (fun hh => hn hh.2), trimSpace_of_trimmed (block_trimmed comment h)]
    exact respaced_refl _

/-- **C49** (part): a block comment stays exactly one block comment; no part of it becomes code. -/
theorem C49_block (pfx : Char → Option Nat) (k : Nat) (comment : Str) (h : IsBlock comment) :
    IsBlock (rendered pfx k comment) := block_respaced (respaced_rendered pfx k comment h) h

/-! ### Formatting twice -/

theorem scan_min (pfx : Char → Option Nat) (ls : List Str) : ∀ i m p, (scan pfx i m p ls).1 = ls.foldl stepMin m := by
  induction ls with
  | nil => intro i m p; rfl
  | cons l ls ih => intro i m p; exact ih _ _ _

theorem scan_prefix (pfx : Char → Option Nat) (ls : List Str) : ∀ (ls' : List Str) i m m' p,
    ls.map trimSpace = ls'.map trimSpace → (scan pfx i m p ls).2 = (scan pfx i m' p ls').2 := by
  induction ls with
  | nil =>
    intro ls' i m m' p h
    cases ls' with
    | nil => rfl
    | cons _ _ => cases h
  | cons l ls ih =>
    intro ls' i m m' p h
    cases ls' with
    | nil => cases h
    | cons l' ls' =>
      simp only [List.map_cons] at h
      obtain ⟨h1, h2⟩ := List.cons.inj h
      have : stepPrefix pfx i p l = stepPrefix pfx i p l' := by
        unfold stepPrefix
        rw [h1]
      show (scan pfx (i + 1) (stepMin m l) (stepPrefix pfx i p l) ls).2 = (scan pfx (i + 1) (stepMin m' l') (stepPrefix pfx i p l') ls').2
      rw [this]
      exact ih ls' _ _ _ _ h2

/-- The minimum is attained, and it is a lower bound. -/
theorem foldl_min (ls : List Str) : ∀ m : Option Nat,
    (ls.foldl stepMin m = none → m = none ∧ ∀ l ∈ ls, computeIndent l = none) ∧
    (∀ n, ls.foldl stepMin m = some n → (m = some n ∨ ∃ l ∈ ls, computeIndent l = some n) ∧ (∀ x, m = some x → n ≤ x) ∧
      ∀ l ∈ ls, ∀ x, computeIndent l = some x → n ≤ x) := by
  induction ls with
  | nil =>
    intro m
    refine ⟨fun h => ⟨h, by simp⟩, ?_⟩
    intro n h
    have h : m = some n := h
    refine ⟨.inl h, ?_, by simp⟩
    intro x hx
    rw [h] at hx
    cases hx
    exact Nat.le_refl _
  | cons l ls ih =>
    intro m
    have e : (l :: ls).foldl stepMin m = ls.foldl stepMin (stepMin m l) := rfl
    rw [e]
    obtain ⟨i1, i2⟩ := ih (stepMin m l)
    have sm : (stepMin m l = none → m = none ∧ computeIndent l = none) ∧ (∀ n, stepMin m l = some n →
        (m = some n ∨ computeIndent l = some n) ∧ (∀ x, m = some x → n ≤ x) ∧ (∀ x, computeIndent l = some x → n ≤ x)) := by
      unfold stepMin
      cases hc : computeIndent l with
      | none =>
        cases m with
        | none => simp
        | some a => simp
      | some b =>
        cases m with
        | none => simp
        | some a =>
          simp only
          split
          · simp; omega
          · simp; omega
    constructor
    · intro h
      obtain ⟨a1, a2⟩ := i1 h
      obtain ⟨b1, b2⟩ := sm.1 a1
      refine ⟨b1, ?_⟩
      intro x hx
      rcases List.mem_cons.1 hx with rfl | hx
      · exact b2
      · exact a2 x hx
    · intro n h
      obtain ⟨a1, a2, a3⟩ := i2 n h
      have hb : ∀ y, stepMin m l = some y → n ≤ y := a2
      have hlow : (∀ x, m = some x → n ≤ x) ∧ (∀ x, computeIndent l = some x → n ≤ x) := by
        cases hs : stepMin m l with
        | none =>
          obtain ⟨b1, b2⟩ := sm.1 hs
          rw [b1, b2]
          simp
        | some y =>
          obtain ⟨_, b2, b3⟩ := sm.2 y hs
          have := hb y hs
          exact ⟨fun x hx => Nat.le_trans this (b2 x hx), fun x hx => Nat.le_trans this (b3 x hx)⟩
      refine ⟨?_, hlow.1, ?_⟩
      · rcases a1 with a1 | ⟨x, hx, hx'⟩
        · rcases (sm.2 n a1).1 with h1 | h1
          · exact .inl h1
          · exact .inr ⟨l, by simp, h1⟩
        · exact .inr ⟨x, List.mem_cons_of_mem _ hx, hx'⟩
      · intro x hx
        rcases List.mem_cons.1 hx with rfl | hx
        · exact hlow.2
        · exact a3 x hx

/-- Only blanks and tabs. -/
def Plain (l : Str) : Prop := ∀ c ∈ l, isSpace c = true → c = ' ' ∨ c = '\t'

theorem indentLoop_ge (s : Str) : ∀ pos n, indentLoop pos s = some n → pos ≤ n := by
  induction s with
  | nil => intro pos n h; cases h
  | cons r s ih =>
    intro pos n h
    unfold indentLoop at h
    split at h
    · have := ih _ _ h; omega
    · split at h
      · have := ih _ _ h; omega
      · cases h; omega

theorem indentLoop_blank (s : Str) (hp : Plain s) (hb : Blank s) : ∀ pos, indentLoop pos s = none := by
  induction s with
  | nil => intro pos; rfl
  | cons r s ih =>
    intro pos
    have ih := ih (fun c hc => hp c (List.mem_cons_of_mem _ hc)) (fun c hc => hb c (List.mem_cons_of_mem _ hc))
    unfold indentLoop
    split
    · exact ih _
    · split
      · exact ih _
      · rcases hp r (by simp) (hb r (by simp)) with h | h
        · exact absurd h (by assumption)
        · exact absurd h (by assumption)

/-- Removing exactly the indentation of a line leaves a line without indentation. -/
theorem unindent_exact (s : Str) (hp : Plain s) : ∀ pos n, indentLoop pos s = some n →
    ∃ x t, unindentLoop n pos s = x :: t ∧ isSpace x = false := by
  induction s with
  | nil => intro pos n h; cases h
  | cons r s ih =>
    intro pos n h
    have ih := ih (fun c hc => hp c (List.mem_cons_of_mem _ hc))
    unfold indentLoop at h
    unfold unindentLoop
    by_cases h1 : r = ' '
    · rw [if_pos h1] at h
      have hg := indentLoop_ge _ _ _ h
      rw [if_neg (by omega), if_neg (by omega), if_pos h1]
      exact ih _ _ h
    · rw [if_neg h1] at h
      by_cases h2 : r = '\t'
      · rw [if_pos h2] at h
        have hg := indentLoop_ge _ _ _ h
        rw [if_neg (by omega), if_neg (by omega), if_neg h1, if_pos h2]
        exact ih _ _ h
      · rw [if_neg h2] at h
        cases h
        rw [if_pos rfl]
        refine ⟨r, s, rfl, ?_⟩
        cases hs : isSpace r with
        | false => rfl
        | true =>
          rcases hp r (by simp) hs with h | h
          · exact absurd h h1
          · exact absurd h h2

theorem indentLoop_spaces (k : Nat) (u : Str) : ∀ pos, indentLoop pos (List.replicate k ' ' ++ u) = indentLoop (pos + k) u := by
  induction k with
  | zero => intro pos; rfl
  | succ k ih =>
    intro pos
    rw [List.replicate_succ, List.cons_append]
    have e : indentLoop pos (' ' :: (List.replicate k ' ' ++ u)) = indentLoop (pos + 1) (List.replicate k ' ' ++ u) := rfl
    rw [e, ih, show pos + (k + 1) = pos + 1 + k by omega]

theorem unindentLoop_spaces (k : Nat) (u : Str) : ∀ pos, u ≠ [] →
    unindentLoop (pos + k) pos (List.replicate k ' ' ++ u) = u := by
  induction k with
  | zero =>
    intro pos hu
    cases u with
    | nil => exact absurd rfl hu
    | cons a u => unfold unindentLoop; exact if_pos rfl
  | succ k ih =>
    intro pos hu
    rw [List.replicate_succ, List.cons_append]
    unfold unindentLoop
    rw [if_neg (by omega), if_neg (by omega), if_pos rfl]
    have := ih (pos + 1) hu
    rw [show pos + 1 + k = pos + (k + 1) by omega] at this
    exact this

theorem trimRight_idem (s : Str) : trimRight (trimRight s) = trimRight s := by
  obtain ⟨w, _, _, h⟩ := trimRight_split s
  exact trimRight_of_last h

/-- What a line with a content looks like, if the comment has no prefix. -/
theorem place_plain (k mn : Nat) (m : Str) (h1 : trimSpace m ≠ []) (h2 : trimSpace m ≠ closing) :
    place k (formatLine mn none false m) = List.replicate (2 * k + 3) ' ' ++ trimRight (unindent m mn) := by
  obtain ⟨v, hv, hv'⟩ := trimRight_unindent m mn h1
  have e1 : line1 mn none m = trimRight (unindent m mn) := by
    unfold line1
    rw [if_neg (by simp [h1, h2])]
  have e2 : trimRight (unindent m mn) ≠ closing := by
    intro h
    refine h2 ?_
    have := congrArg trimSpace (hv'.symm.trans h)
    rw [trimSpace_surround_left hv, trimSpace_idem] at this
    rw [this]
    decide
  have e3 : formatLine mn none false m = List.replicate 3 ' ' ++ trimRight (unindent m mn) := by
    have e4 : line2 none false (trimRight (unindent m mn)) = List.replicate 3 ' ' ++ trimRight (unindent m mn) := by
      unfold line2
      rw [if_pos ⟨rfl, e2⟩, if_pos rfl]
      rfl
    rw [formatLine_eq, e1, e4]
    unfold line3
    rw [if_neg (by simp)]
  unfold place
  rw [trim_formatLine, if_neg h1, e3, ← List.append_assoc, List.replicate_append_replicate]

theorem place_blank (k mn : Nat) (pf : Option Nat) (m : Str) (h : trimSpace m = []) :
    place k (formatLine mn pf false m) = [] := by
  unfold place
  rw [trim_formatLine, if_pos h]

theorem formatLine_trimmed (mn mn' : Nat) (pf : Option Nat) (first : Bool) (m m' : Str) (h : trimSpace m = trimSpace m')
    (hc : trimSpace m = [] ∨ trimSpace m = closing ∨ pf ≠ none) : formatLine mn pf first m = formatLine mn' pf first m' := by
  rw [formatLine_eq, formatLine_eq]
  unfold line1
  rw [if_pos hc, if_pos (by rw [← h]; exact hc), h]

theorem outLines_twice (pfx : Char → Option Nat) (k : Nat) (l : Str) (ls : List Str)
    (hl : ∀ c, l.head? = some c → isSpace c = false) (hncl : trimSpace l ≠ closing) (hp : ∀ m ∈ ls, Plain m) :
    outLines pfx k (outLines pfx k (l :: ls)) = outLines pfx k (l :: ls) := by
  simp only [outLines]
  have hpre : (scan pfx 1 none none (ls.map fun m => place k (formatLine ((scan pfx 1 none none ls).1.getD 0)
      (scan pfx 1 none none ls).2 false m))).2 = (scan pfx 1 none none ls).2 := by
    refine scan_prefix pfx _ _ _ _ _ _ ?_
    rw [List.map_map]
    refine List.map_congr_left ?_
    intro m _
    simp only [Function.comp_apply, trim_place, trim_formatLine]
  rw [hpre, scan_min, scan_min]
  generalize (scan pfx 1 none none ls).2 = pf
  rw [formatLine_first _ _ l hl hncl]
  have hfirst : ∀ n, formatLine n pf true (trimSpace l) = trimSpace l := by
    intro n
    rw [formatLine_first n pf (trimSpace l) ?_ (by rw [trimSpace_idem]; exact hncl), trimSpace_idem]
    intro c hc
    obtain ⟨_, _, _, _, _, ht⟩ := trimSpace_split l
    exact ht.first c hc
  rw [hfirst, List.map_map]
  refine congrArg (trimSpace l :: ·) (List.map_congr_left ?_)
  intro m hm
  simp only [Function.comp_apply]
  generalize hmn : (ls.foldl stepMin none).getD 0 = mn
  by_cases hc : trimSpace m = [] ∨ trimSpace m = closing ∨ pf ≠ none
  · congr 1
    exact (formatLine_trimmed _ _ _ _ _ _ (by rw [trim_place, trim_formatLine]) hc).symm
  · have c1 : trimSpace m ≠ [] := fun h => hc (.inl h)
    have c2 : trimSpace m ≠ closing := fun h => hc (.inr (.inl h))
    have c3 : pf = none := by
      cases pf with
      | none => rfl
      | some a => exact absurd (.inr (.inr (by simp))) hc
    subst c3
    -- the new minimum
    have hnone : ∀ q ∈ ls, trimSpace q = [] ∨ trimSpace q = closing → computeIndent q = none := by
      intro q hq h
      unfold computeIndent
      rcases h with h | h
      · rw [if_neg (by rw [h]; simp [closing])]
        exact indentLoop_blank q (hp q hq) (trimSpace_eq_nil.1 h) 0
      · rw [if_pos h]
    have hcomp : ∀ q ∈ ls, trimSpace q ≠ [] → trimSpace q ≠ closing →
        computeIndent (place k (formatLine mn none false q)) = indentLoop (2 * k + 3) (trimRight (unindent q mn)) := by
      intro q _ q1 q2
      unfold computeIndent
      rw [trim_place, trim_formatLine, if_neg q2, place_plain k mn q q1 q2, indentLoop_spaces, Nat.zero_add]
    have hmin : ((ls.map fun m => place k (formatLine mn none false m)).foldl stepMin none).getD 0 = 2 * k + 3 := by
      have hatt : ∃ q ∈ ls, trimSpace q ≠ [] ∧ trimSpace q ≠ closing ∧ computeIndent q = some mn := by
        cases hf : ls.foldl stepMin none with
        | none =>
          exfalso
          have h0 := ((foldl_min ls none).1 hf).2 m hm
          unfold computeIndent at h0
          rw [if_neg c2] at h0
          -- a line with a content has an indentation
          have : ∀ (s : Str) pos, indentLoop pos s = none → Blank s := by
            intro s
            induction s with
            | nil => intro pos _; exact blank_nil
            | cons r s ih =>
              intro pos hs
              unfold indentLoop at hs
              split at hs
              · rename_i hr
                intro c hcc
                rcases List.mem_cons.1 hcc with rfl | hcc
                · rw [hr]; decide
                · exact ih _ hs c hcc
              · split at hs
                · rename_i hr
                  intro c hcc
                  rcases List.mem_cons.1 hcc with rfl | hcc
                  · rw [hr]; decide
                  · exact ih _ hs c hcc
                · cases hs
          exact c1 (trimSpace_eq_nil.2 (this m 0 h0))
        | some n =>
          rw [hf] at hmn
          have hmn : n = mn := hmn
          subst hmn
          rcases ((foldl_min ls none).2 n hf).1 with h | ⟨q, hq, hq'⟩
          · cases h
          · refine ⟨q, hq, ?_, ?_, hq'⟩
            · intro h; rw [hnone q hq (.inl h)] at hq'; cases hq'
            · intro h; rw [hnone q hq (.inr h)] at hq'; cases hq'
      obtain ⟨q, hq, q1, q2, q3⟩ := hatt
      have hq0 : computeIndent (place k (formatLine mn none false q)) = some (2 * k + 3) := by
        rw [hcomp q hq q1 q2]
        unfold computeIndent at q3
        rw [if_neg q2] at q3
        obtain ⟨x, t, hx, hx'⟩ := unindent_exact q (hp q hq) 0 mn q3
        have hne : ∃ t', trimRight (unindent q mn) = x :: t' := by
          unfold unindent
          rw [hx]
          obtain ⟨w, h1, h2, _⟩ := trimRight_split (x :: t)
          cases htr : trimRight (x :: t) with
          | nil =>
            rw [htr, List.nil_append] at h1
            have := h2 x (by rw [← h1]; simp)
            rw [this] at hx'
            cases hx'
          | cons y t' =>
            rw [htr] at h1
            refine ⟨t', ?_⟩
            rw [(List.cons.inj h1).1]
        obtain ⟨t', ht'⟩ := hne
        rw [ht']
        unfold indentLoop
        have n1 : x ≠ ' ' := by rintro rfl; revert hx'; decide
        have n2 : x ≠ '\t' := by rintro rfl; revert hx'; decide
        rw [if_neg n1, if_neg n2]
      obtain ⟨g1, g2⟩ := foldl_min (ls.map fun m => place k (formatLine mn none false m)) none
      cases hf : (ls.map fun m => place k (formatLine mn none false m)).foldl stepMin none with
      | none =>
        have := (g1 hf).2 _ (List.mem_map.2 ⟨q, hq, rfl⟩)
        rw [hq0] at this
        cases this
      | some n =>
        obtain ⟨a1, _, a3⟩ := g2 n hf
        have hle := a3 _ (List.mem_map.2 ⟨q, hq, rfl⟩) _ hq0
        have hge : 2 * k + 3 ≤ n := by
          rcases a1 with a1 | ⟨y, hy, hy'⟩
          · cases a1
          · obtain ⟨z, hz, rfl⟩ := List.mem_map.1 hy
            by_cases z1 : trimSpace z = []
            · rw [place_blank k mn none z z1] at hy'
              cases hy'
            · by_cases z2 : trimSpace z = closing
              · unfold computeIndent at hy'
                rw [trim_place, trim_formatLine, if_pos z2] at hy'
                cases hy'
              · rw [hcomp z hz z1 z2] at hy'
                exact indentLoop_ge _ _ _ hy'
        show n = 2 * k + 3
        omega
    rw [hmin]
    have hd : trimSpace (place k (formatLine mn none false m)) = trimSpace m := by rw [trim_place, trim_formatLine]
    rw [place_plain k (2 * k + 3) _ (by rw [hd]; exact c1) (by rw [hd]; exact c2)]
    conv => rhs; rw [place_plain k mn m c1 c2]
    congr 1
    rw [place_plain k mn m c1 c2]
    unfold unindent
    have := unindentLoop_spaces (2 * k + 3) (trimRight (unindentLoop mn 0 m)) 0 ?_
    · rw [Nat.zero_add] at this
      rw [this]
      exact trimRight_idem _
    · intro h
      obtain ⟨v, _, hv⟩ := trimRight_unindent m mn c1
      unfold unindent at hv
      rw [h] at hv
      exact c1 (List.append_eq_nil_iff.1 hv.symm).2

theorem mem_joinWith (ls : List Str) (m : Str) (c : Char) (hc : c ∈ m) (hm : m ∈ ls) : c ∈ joinWith '\n' ls := by
  induction ls with
  | nil => cases hm
  | cons x xs ih =>
    cases xs with
    | nil =>
      rw [List.mem_singleton.1 hm] at hc
      simpa [joinWith] using hc
    | cons y ys =>
      rw [joinWith_cons _ _ _ (by simp)]
      rcases List.mem_cons.1 hm with rfl | hm
      · exact List.mem_append_left _ hc
      · exact List.mem_append_right _ (List.mem_cons_of_mem _ (ih hm))

/-- **C49** (part): formatting a comment again changes nothing, if its only white space are blanks, tabs and
line breaks. (Missing: other white space; see `C49_idempotent_violated`.) -/
theorem C49_idempotent_partial (pfx : Char → Option Nat) (k : Nat) (comment : Str) (h : IsBlock comment)
    (hw : ∀ c ∈ comment, isSpace c = true → c = ' ' ∨ c = '\t' ∨ c = '\n') :
    rendered pfx k (rendered pfx k comment) = rendered pfx k comment := by
  have hpf : ∀ c, IsBlock c → ['/', '*'].isPrefixOf c = true := by
    rintro c ⟨r, rfl, _⟩
    rfl
  by_cases hn : '\n' ∈ comment
  · have hb := C49_block pfx k comment h
    have hsr := split_rendered pfx k comment (hpf _ h) hn
    obtain ⟨l, ls, hls, hne, hl, hlh, hlast, hlast2⟩ := isBlock_lines comment h hn
    have hj := join_splitOn '\n' comment
    rw [hls] at hj
    have hncl : trimSpace l ≠ closing := by
      intro hcl
      obtain ⟨r, hr, _⟩ := h
      rw [joinWith_cons _ _ _ hne] at hj
      rw [hr] at hj
      obtain ⟨v, v', h1, h2, h3, h4⟩ := trimSpace_split l
      rw [h1, hcl] at hj
      cases v with
      | nil => cases hj
      | cons x v =>
        have := h2 x (by simp)
        have hx : x = '/' := (List.cons.inj hj).1
        rw [hx] at this
        revert this; decide
    have hplain : ∀ m ∈ ls, Plain m := by
      intro m hm c hc hs
      have hmem : c ∈ comment := by
        have hcm : c ∈ joinWith '\n' (l :: ls) := mem_joinWith _ m c hc (List.mem_cons_of_mem _ hm)
        rw [hj] at hcm
        exact hcm
      rcases hw c hmem hs with h | h | h
      · exact .inl h
      · exact .inr h
      · exfalso
        refine splitOn_no_sep '\n' comment m (by rw [hls]; exact List.mem_cons_of_mem _ hm) ?_
        rw [← h]
        exact hc
    have hn' : '\n' ∈ rendered pfx k comment := by
      have : (splitOn '\n' (rendered pfx k comment)).length = (splitOn '\n' comment).length := by
        have := congrArg List.length (C49_lines pfx k comment (hpf _ h) hn)
        simpa using this
      refine Classical.byContradiction fun hno => ?_
      rw [splitOn_of_no_sep _ _ hno, hls] at this
      simp at this
      exact hne this
    have hsr' := split_rendered pfx k (rendered pfx k comment) (hpf _ hb) hn'
    have e1 := join_splitOn '\n' (rendered pfx k (rendered pfx k comment))
    have e2 := join_splitOn '\n' (rendered pfx k comment)
    rw [← e1, hsr', hsr, hls, outLines_twice pfx k l ls hlh hncl hplain, ← hls, ← hsr, e2]
  · have e : rendered pfx k comment = comment := by
      unfold rendered
      rw [if_neg (fun hh => hn hh.2), trimSpace_of_trimmed (block_trimmed comment h)]
    rw [e, e]

/-- **C49** (violated): with carriage returns at the ends of the lines, formatting again changes a comment. -/
theorem C49_idempotent_violated : ∃ (comment : Str), IsBlock comment ∧
    rendered (fun _ => none) 0 (rendered (fun _ => none) 0 comment) ≠ rendered (fun _ => none) 0 comment :=
  ⟨"/*\r\n   foo\r\n\r\n*/".toList, ⟨_, rfl, by decide⟩, by decide +kernel⟩

/-- A comment with a prefix on every line. -/
example : rendered (fun c => if c = '*' then some 42 else none) 1 "/* a\n* b\n   * c\n*/".toList =
    "/* a\n   * b\n   * c\n   */".toList := by decide +kernel

/-- A comment without a prefix keeps its relative indentation. -/
example : rendered (fun _ => none) 1 "/*\n\ta\n\t  b\n\n*/".toList =
    "/*\n     a\n       b\n\n  */".toList := by decide +kernel

example : IsBlock "/* a\n* b\n   * c\n*/".toList ∧
    (∀ c ∈ "/* a\n* b\n   * c\n*/".toList, isSpace c = true → c = ' ' ∨ c = '\t' ∨ c = '\n') :=
  ⟨⟨_, rfl, by decide⟩, by decide⟩

end Verif.BlockComment
