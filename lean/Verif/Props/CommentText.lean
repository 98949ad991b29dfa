import Mathlib.Tactic.Common
import Verif.Props.PrintComment
/-!
# C69: what is printed for a comment
-/
namespace Verif.PrintComment

/-! ### Specification -/

/-- Specification: `ls` are the lines of a comment, without one empty line at the start and one at the end. -/
def Body (comments : Str) (ls : List Str) : Prop :=
  ls ≠ [] ∧ (∀ l ∈ ls, '\n' ∉ l) ∧
  ∃ a b, comments = a ++ joinWith '\n' ls ++ b ∧
    ((a = [] ∧ comments.head? ≠ some '\n') ∨ a = ['\n']) ∧ ((b = [] ∧ ls.getLast? ≠ some []) ∨ b = ['\n'])

/-- Specification: how a line is printed: a blank before the text unless there is one, no blanks and tabs at the end. -/
def Rendered (src out : Str) : Prop :=
  ∃ ws, (∀ c ∈ ws, c = ' ' ∨ c = '\t') ∧ (∀ c, out.getLast? = some c → c ≠ ' ' ∧ c ≠ '\t') ∧
    out ++ ws = if src = [] ∨ src.head? = some ' ' then src else ' ' :: src

/-- Specification: `n` levels of indentation. -/
def levels (cfg : Cfg) (n : Nat) : Str := (List.replicate n cfg.indent).flatten

/-- Specification: where a comment of `n` lines is put: the text before it, the indentation of its first line and of its
other lines, and whether a block comment is followed by a line break. -/
inductive Place (cfg : Cfg) (indent : Int) (force : Bool) (n : Nat) : Str → Nat → Nat → Bool → Prop
  /-- at the start of a line: on its own lines -/
  | own : 0 ≤ indent → cfg.newline = true → Place cfg indent force n [] indent.toNat indent.toNat true
  /-- after some text, forced or of several lines: on the next lines -/
  | next : 0 ≤ indent → cfg.newline = false → (force = true ∨ 1 < n) →
      Place cfg indent force n ['\n'] indent.toNat indent.toNat true
  /-- after some text, one line: at the end of that line -/
  | trailing : 0 ≤ indent → cfg.newline = false → force = false → n ≤ 1 →
      Place cfg indent force n (if cfg.space then [] else [' ']) 0 0 false
  /-- within a line -/
  | inside : indent < 0 → Place cfg indent force n [] 0 (-indent).toNat false

/-! ### Lemmas -/

theorem rendered_spec (l : Str) : Rendered l (trimRight (spaced l)) := by
  have hsp : spaced l = if l = [] ∨ l.head? = some ' ' then l else ' ' :: l := by
    unfold spaced
    by_cases h1 : l = []
    · simp [h1]
    · by_cases h2 : l.head? = some ' '
      · simp [h2]
      · simp [h1, h2]
  unfold Rendered
  rw [← hsp]
  generalize spaced l = s
  have hsplit := List.takeWhile_append_dropWhile (p := fun c => decide (c = ' ' ∨ c = '\t')) (l := s.reverse)
  refine ⟨(s.reverse.takeWhile (fun c => decide (c = ' ' ∨ c = '\t'))).reverse, ?_, ?_, ?_⟩
  · intro c hc
    have := mem_takeWhile (List.mem_reverse.1 hc)
    simpa using this
  · intro c hc
    unfold trimRight at hc
    rw [List.getLast?_reverse] at hc
    have := dropWhile_head (p := fun c => decide (c = ' ' ∨ c = '\t')) s.reverse
    cases hd : s.reverse.dropWhile (fun c => decide (c = ' ' ∨ c = '\t')) with
    | nil => rw [hd] at hc; cases hc
    | cons x r =>
      rw [hd] at hc
      cases hc
      have h2 := List.head?_dropWhile_not (fun c => decide (c = ' ' ∨ c = '\t')) s.reverse
      rw [hd] at h2
      simpa using h2
  · unfold trimRight
    rw [← List.reverse_append, hsplit, List.reverse_reverse]

theorem forall₂_rendered (ls : List Str) : List.Forall₂ Rendered ls (ls.map (fun l => trimRight (spaced l))) := by
  induction ls with
  | nil => exact .nil
  | cons l ls ih => exact .cons (rendered_spec l) ih

theorem joinWith_append_nil (ls : List Str) (h : ls ≠ []) : joinWith '\n' (ls ++ [[]]) = joinWith '\n' ls ++ ['\n'] := by
  induction ls with
  | nil => exact absurd rfl h
  | cons a ls ih =>
    by_cases hl : ls = []
    · subst hl; rfl
    · rw [List.cons_append, joinWith_cons _ _ _ (by simp), ih hl, joinWith_cons _ _ _ hl]
      simp

theorem body_commentLines (comments : Str) (hne : commentLines comments ≠ []) : Body comments (commentLines comments) := by
  have hj := join_splitOn '\n' comments
  have hns := splitOn_no_sep '\n' comments
  have hs0 := splitOn_ne_nil '\n' comments
  refine ⟨hne, fun l hl => hns l (mem_commentLines hl), ?_⟩
  unfold commentLines at hne ⊢
  -- the first line
  have h1 : ∃ a, ((a = [] ∧ comments.head? ≠ some '\n') ∨ a = ['\n']) ∧
      (dropFirst (splitOn '\n' comments) ≠ [] → comments = a ++ joinWith '\n' (dropFirst (splitOn '\n' comments))) := by
    cases hs : splitOn '\n' comments with
    | nil => exact absurd hs hs0
    | cons l ls =>
      rw [hs] at hj hns
      simp only [dropFirst]
      by_cases hl : l = []
      · subst hl
        rw [if_pos rfl]
        refine ⟨['\n'], .inr rfl, fun h => ?_⟩
        rw [joinWith_cons _ _ _ h] at hj
        exact hj.symm
      · rw [if_neg hl]
        refine ⟨[], .inl ⟨rfl, ?_⟩, fun _ => hj.symm⟩
        have hnl := hns l List.mem_cons_self
        cases l with
        | nil => exact absurd rfl hl
        | cons c l =>
          have : comments.head? = some c := by
            rw [← hj]
            cases ls with
            | nil => rfl
            | cons m ms => rfl
          rw [this]
          rintro h
          cases h
          exact hnl List.mem_cons_self
  obtain ⟨a, ha, hc⟩ := h1
  generalize dropFirst (splitOn '\n' comments) = ds at hne hc ⊢
  unfold dropLast at hne ⊢
  by_cases hl : ds.getLast? = some []
  · rw [if_pos hl] at hne ⊢
    have hds : ds = ds.dropLast ++ [[]] := by
      have h0 : ds ≠ [] := by rintro rfl; cases hl
      have := List.dropLast_concat_getLast h0
      rw [List.getLast?_eq_some_getLast h0] at hl
      rw [Option.some.inj hl] at this
      exact this.symm
    refine ⟨a, ['\n'], ?_, ha, .inr rfl⟩
    have := hc (by rintro rfl; cases hl)
    rw [hds, joinWith_append_nil _ hne, ← List.append_assoc] at this
    exact this
  · rw [if_neg hl] at hne ⊢
    exact ⟨a, [], by rw [List.append_nil]; exact hc hne, ha, .inl ⟨rfl, hl⟩⟩

theorem lead_place (cfg : Cfg) (indent : Int) (force : Bool) (lines : List Str) : ∃ f r b,
    Place cfg indent force lines.length (lead cfg indent force lines).1 f r b ∧
    indentText cfg (lead cfg indent force lines).2 = levels cfg f ∧
    maybeIndent cfg (lead cfg indent force lines).2 false = levels cfg f ∧
    (1 < lines.length → maybeIndent cfg (lead cfg indent force lines).2 true = levels cfg r) ∧
    decide ((lead cfg indent force lines).2 ≥ 0) = b := by
  have hpos : ∀ i : Int, 0 ≤ i → indentText cfg i = levels cfg i.toNat ∧ maybeIndent cfg i false = levels cfg i.toNat ∧
      maybeIndent cfg i true = levels cfg i.toNat := by
    intro i hi
    have hn : ¬ i < 0 := by omega
    refine ⟨rfl, ?_, ?_⟩ <;> · unfold maybeIndent; rw [if_neg (fun h => hn h.1)]; rfl
  have hneg : ∀ i : Int, i < 0 → indentText cfg i = levels cfg 0 ∧ maybeIndent cfg i false = levels cfg 0 ∧
      maybeIndent cfg i true = levels cfg (-i).toNat := by
    intro i hi
    have h0 : i.toNat = 0 := by omega
    refine ⟨by unfold indentText levels; rw [h0], ?_, ?_⟩
    · unfold maybeIndent; rw [if_neg (fun h => by cases h.2)]; unfold indentText levels; rw [h0]
    · unfold maybeIndent; rw [if_pos ⟨hi, rfl⟩]; rfl
  unfold lead
  by_cases hi : 0 ≤ indent
  · cases hn : cfg.newline with
    | true =>
      rw [if_neg (fun h => by cases h.2)]
      exact ⟨_, _, _, .own hi hn, (hpos indent hi).1, (hpos indent hi).2.1, fun _ => (hpos indent hi).2.2, by simpa using hi⟩
    | false =>
      rw [if_pos ⟨hi, rfl⟩]
      by_cases hf : force = true ∨ lines.length > 1
      · rw [if_pos hf]
        exact ⟨_, _, _, .next hi hn hf, (hpos indent hi).1, (hpos indent hi).2.1, fun _ => (hpos indent hi).2.2, by simpa using hi⟩
      · rw [if_neg hf]
        have hlt : inline indent < 0 := by unfold inline; split <;> omega
        refine ⟨_, _, _, .trailing hi hn (by simpa using fun h => hf (.inl h)) (by omega), (hneg _ hlt).1, (hneg _ hlt).2.1, ?_, by
          simpa using hlt⟩
        intro h
        exact absurd (.inr h) hf
  · have hlt : indent < 0 := by omega
    rw [if_neg (fun h => hi h.1)]
    exact ⟨_, _, _, .inside hlt, (hneg _ hlt).1, (hneg _ hlt).2.1, fun _ => (hneg _ hlt).2.2, by simpa using hlt⟩

theorem commentLines_nil (comments : Str) : commentLines comments = [] ↔ comments = [] ∨ comments = ['\n'] := by
  constructor
  · intro h
    have hj := join_splitOn '\n' comments
    unfold commentLines at h
    cases hs : splitOn '\n' comments with
    | nil => exact absurd hs (splitOn_ne_nil _ _)
    | cons l ls =>
      rw [hs] at h hj
      simp only [dropFirst] at h
      by_cases hl : l = []
      · subst hl
        rw [if_pos rfl, dropLast] at h
        split at h
        · rename_i hg
          match ls, h with
          | [m], _ =>
            simp at hg
            subst hg
            exact .inr hj.symm
          | [], _ => cases hg
        · subst h
          exact .inl hj.symm
      · rw [if_neg hl, dropLast] at h
        split at h
        · rename_i hg
          match ls, h with
          | [], _ => simp at hg; exact absurd hg hl
        · cases h
  · rintro (rfl | rfl) <;> decide

/-- Splitting the definition of `printComment`. -/
theorem printComment_eq (cfg : Cfg) (comments : Str) (indent : Int) (force : Bool) (hne : commentLines comments ≠ []) :
    printComment cfg comments indent force =
      match commentLines comments, useMulti cfg indent comments with
      | [[]], true => .panic
      | [c :: l], true =>
        .ok ((lead cfg indent force (commentLines comments)).1 ++ indentText cfg (lead cfg indent force (commentLines comments)).2 ++ ['/', '*'] ++
          (if c = ' ' ∧ (c :: l).getLast? ≠ some ' ' then (c :: l) ++ [' '] else c :: l) ++ ['*', '/'] ++
          (if (lead cfg indent force (commentLines comments)).2 ≥ 0 then ['\n'] else []))
          (decide ((lead cfg indent force (commentLines comments)).2 ≥ 0))
      | ls, true => .ok ((lead cfg indent force (commentLines comments)).1 ++ multi cfg (lead cfg indent force (commentLines comments)).2 ls)
          (decide ((lead cfg indent force (commentLines comments)).2 ≥ 0))
      | ls, false => .ok ((lead cfg indent force (commentLines comments)).1 ++ singles cfg (lead cfg indent force (commentLines comments)).2 ls) true := by
  have h0 : comments ≠ [] := by rintro rfl; exact hne ((commentLines_nil _).2 (.inl rfl))
  have hl : (commentLines comments).length ≠ 0 := fun h => hne (List.length_eq_zero_iff.1 h)
  unfold printComment
  rw [if_neg h0]
  simp only [if_neg hl]
  rfl

/-! ### Theorems -/

/-- **C69** (part): nothing is printed exactly for the empty comment and the comment of one line break. -/
theorem C69_nothing (cfg : Cfg) (comments : Str) (indent : Int) (force : Bool) :
    (comments = [] ∨ comments = ['\n'] → printComment cfg comments indent force = .ok [] false) ∧
    (comments ≠ [] → comments ≠ ['\n'] → ∀ b, printComment cfg comments indent force ≠ .ok [] b) := by
  constructor
  · intro h
    unfold printComment
    have := (commentLines_nil comments).2 h
    by_cases h0 : comments = []
    · rw [if_pos h0]
    · rw [if_neg h0]; simp [this]
  · intro h1 h2 b h
    have hne : commentLines comments ≠ [] := fun hn => by
      rcases (commentLines_nil comments).1 hn with h | h
      · exact h1 h
      · exact h2 h
    rw [printComment_eq cfg comments indent force hne] at h
    split at h
    · cases h
    · injection h with h _
      simp at h
    · injection h with h _
      simp [multi] at h
    · injection h with h _
      rename_i ls _ _
      cases hc : commentLines comments with
      | nil => exact hne hc
      | cons l ls => rw [hc] at h; simp [singles, single] at h

/-- **C69** (part): a comment in line style, that is one with `*/` inside, or not within a line when block comments are not
preferred, is printed as its lines, each after `//`, at the place and indentation given by `Place`; and nothing else. -/
theorem C69_line_style (cfg : Cfg) (comments : Str) (indent : Int) (force : Bool) (h1 : comments ≠ []) (h2 : comments ≠ ['\n'])
    (hs : ['*', '/'] <:+: comments ∨ (0 ≤ indent ∧ cfg.preferMulti = false)) :
    ∃ src out srcs outs pre f r b, Body comments (src :: srcs) ∧ Rendered src out ∧ List.Forall₂ Rendered srcs outs ∧
      Place cfg indent force (srcs.length + 1) pre f r b ∧
      printComment cfg comments indent force = .ok (pre ++ levels cfg f ++ ['/', '/'] ++ out ++ ['\n'] ++
        outs.flatMap (fun o => levels cfg r ++ ['/', '/'] ++ o ++ ['\n'])) true := by
  have hne : commentLines comments ≠ [] := fun hn => by
    rcases (commentLines_nil comments).1 hn with h | h
    · exact h1 h
    · exact h2 h
  have hm : useMulti cfg indent comments = false := by
    unfold useMulti
    rcases hs with hs | ⟨hs, hp⟩
    · simp [hs]
    · rw [if_neg (by omega), hp]; rfl
  have hb := body_commentLines comments hne
  obtain ⟨f, r, b, hp, hi1, hi2, hi3, hb'⟩ := lead_place cfg indent force (commentLines comments)
  have he := printComment_eq cfg comments indent force hne
  rw [hm] at he
  generalize hlp : lead cfg indent force (commentLines comments) = lp at *
  cases hc : commentLines comments with
  | nil => exact absurd hc hne
  | cons l ls =>
    rw [hc] at hb hp he hi3
    refine ⟨l, trimRight (spaced l), ls, ls.map (fun l => trimRight (spaced l)), _, f, r, b, hb, rendered_spec l, forall₂_rendered ls, hp, ?_⟩
    have : printComment cfg comments indent force = .ok (lp.1 ++ singles cfg lp.2 (l :: ls)) true := by
      rw [he]
      split <;> simp_all
    rw [this]
    congr 1
    simp only [singles, single, hi2, List.append_assoc]
    congr 4
    congr 1
    rw [List.flatMap_map]
    by_cases hn : ls = []
    · subst hn; rfl
    · have : 1 < (l :: ls).length := by
        have := List.length_pos_iff.2 hn
        simp only [List.length_cons]; omega
      have hf : single cfg lp.2 true = fun a => levels cfg r ++ (['/', '/'] ++ (trimRight (spaced a) ++ ['\n'])) := by
        funext a
        simp only [single, hi3 this, List.append_assoc]
      rw [hf]

/-- **C69** (part): a comment of one line in block style is printed as `/*…*/` with its text, with a blank at the end if
there is one at the start, at the place given by `Place`. -/
theorem C69_block_one (cfg : Cfg) (l : Str) (comments : Str) (indent : Int) (force : Bool) (hb : Body comments [l]) (hl : l ≠ [])
    (hs : ¬ ['*', '/'] <:+: comments) (hm : indent < 0 ∨ cfg.preferMulti = true) :
    ∃ pre f r b, Place cfg indent force 1 pre f r b ∧
      printComment cfg comments indent force = .ok (pre ++ levels cfg f ++ ['/', '*'] ++ l ++
        (if l.head? = some ' ' ∧ l.getLast? ≠ some ' ' then [' '] else []) ++ ['*', '/'] ++ (if b then ['\n'] else [])) b := by
  have hu : useMulti cfg indent comments = true := by
    unfold useMulti
    rcases hm with h | h
    · rw [if_pos h]; simp [hs]
    · rw [h]; simp [hs]
  have hc : commentLines comments = [l] := by
    obtain ⟨_, hn, a, b, he, ha, hb'⟩ := hb
    have hln : '\n' ∉ l := hn l (by simp)
    simp only [joinWith] at he
    subst he
    have hll : l.head? ≠ some '\n' := by
      intro h
      cases l with
      | nil => cases h
      | cons c l => cases h; exact hln (by simp)
    unfold commentLines
    rcases ha with ⟨rfl, _⟩ | rfl <;> rcases hb' with ⟨rfl, _⟩ | rfl
    · simp only [List.nil_append, List.append_nil]
      rw [splitOn_of_no_sep _ _ hln]; simp [dropFirst, dropLast, hl]
    · rw [List.nil_append, splitOn_append, splitOn_of_no_sep _ _ hln]; simp [dropFirst, dropLast, hl, splitOn]
    · rw [List.append_nil, show ['\n'] ++ l = [] ++ '\n' :: l from rfl, splitOn_append, splitOn_of_no_sep _ _ hln]
      simp [dropFirst, dropLast, hl, splitOn]
    · rw [show ['\n'] ++ l ++ ['\n'] = [] ++ '\n' :: (l ++ '\n' :: []) from rfl, splitOn_append, splitOn_append, splitOn_of_no_sep _ _ hln]
      simp [dropFirst, dropLast, hl, splitOn]
  obtain ⟨f, r, b, hp, hi1, hi2, hi3, hb'⟩ := lead_place cfg indent force (commentLines comments)
  have he := printComment_eq cfg comments indent force (by rw [hc]; simp)
  rw [hc] at hp hi1 hb'
  rw [hu, hc] at he
  refine ⟨_, f, r, b, hp, ?_⟩
  rw [he]
  match l, hl with
  | c :: l, _ =>
    simp only [hb']
    congr 1
    rw [hi1, ← hb']
    by_cases hx : c = ' ' ∧ (c :: l).getLast? ≠ some ' '
    · have hy : (c :: l).head? = some ' ' ∧ (c :: l).getLast? ≠ some ' ' := ⟨by rw [hx.1]; rfl, hx.2⟩
      simp only [if_pos hx, if_pos hy, List.append_assoc, decide_eq_true_eq]
    · have hy : ¬ ((c :: l).head? = some ' ' ∧ (c :: l).getLast? ≠ some ' ') := fun h => hx ⟨by simpa using h.1, h.2⟩
      simp only [if_neg hx, if_neg hy, List.append_assoc, decide_eq_true_eq, List.nil_append]

/-- **C69** (part): a comment of several lines in block style is printed as `/*`, its lines, each after ` *`, and ` */`, at the
place and indentation given by `Place`. -/
theorem C69_block_many (cfg : Cfg) (comments : Str) (indent : Int) (force : Bool) (h1 : comments ≠ []) (h2 : comments ≠ ['\n'])
    (hs : ¬ ['*', '/'] <:+: comments) (hm : indent < 0 ∨ cfg.preferMulti = true) (hmany : ∀ l, ¬ Body comments [l]) :
    ∃ srcs outs pre f r b, 1 < srcs.length ∧ Body comments srcs ∧ List.Forall₂ Rendered srcs outs ∧ Place cfg indent force srcs.length pre f r b ∧
      printComment cfg comments indent force = .ok (pre ++ levels cfg f ++ ['/', '*', '\n'] ++
        outs.flatMap (fun o => levels cfg r ++ [' ', '*'] ++ o ++ ['\n']) ++ levels cfg r ++ [' ', '*', '/'] ++ (if b then ['\n'] else [])) b := by
  have hne : commentLines comments ≠ [] := fun hn => by
    rcases (commentLines_nil comments).1 hn with h | h
    · exact h1 h
    · exact h2 h
  have hu : useMulti cfg indent comments = true := by
    unfold useMulti
    rcases hm with h | h
    · rw [if_pos h]; simp [hs]
    · rw [h]; simp [hs]
  have hb := body_commentLines comments hne
  have hlen : 1 < (commentLines comments).length := by
    match hc : commentLines comments with
    | [] => exact absurd hc hne
    | [l] => rw [hc] at hb; exact absurd hb (hmany l)
    | _ :: _ :: _ => simp
  obtain ⟨f, r, b, hp, hi1, hi2, hi3, hb'⟩ := lead_place cfg indent force (commentLines comments)
  refine ⟨_, _, _, f, r, b, hlen, hb, forall₂_rendered _, hp, ?_⟩
  rw [printComment_eq cfg comments indent force hne, hu]
  have hi3 := hi3 hlen
  generalize lead cfg indent force (commentLines comments) = lp at *
  match hc : commentLines comments with
  | [] => exact absurd hc hne
  | [l] => rw [hc] at hlen; simp at hlen
  | l :: m :: ls =>
    simp only [hb']
    congr 1
    unfold multi
    rw [hi2, hi3, ← hb', List.flatMap_map]
    have : middle cfg lp.2 = fun l => levels cfg r ++ [' ', '*'] ++ trimRight (spaced l) ++ ['\n'] := by
      funext l
      unfold middle
      rw [hi3]
    rw [this]
    simp only [List.append_assoc, decide_eq_true_eq]

/-! ### Examples -/

example : Body ['\n', 'a', '\n', ' ', 'b', '\n'] [['a'], [' ', 'b']] :=
  ⟨by simp, by decide, ['\n'], ['\n'], rfl, .inr rfl, .inr rfl⟩

example : printComment ⟨false, [' ', ' '], true, false⟩ ['a', ' ', '\n', ' ', 'b', '\n'] 1 false =
    .ok "  // a\n  // b\n".toList true := by decide

example : printComment ⟨true, [' ', ' '], false, false⟩ [' ', 'a'] 1 false = .ok " /* a */".toList false := by decide

example : printComment ⟨false, [' '], true, false⟩ ['a', '\n', 'b'] (-3) false = .ok "/*\n    * a\n    * b\n    */".toList false := by
  decide

end Verif.PrintComment
