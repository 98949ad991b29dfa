import Verif.Spec.FormatComments
import Verif.Lemmas.Lexer
import Verif.Lemmas.Comment
/-! Lemmas about the comments of a text. -/
namespace Verif.Lexer
open Verif.Comment (closes IsBlock)

theorem commentsFrom_append (s t : Str) : ∀ m b, commentsFrom m b (s ++ t) =
    ((commentsFrom m b s).1 ++ (commentsFrom (lexFrom m s).2 (commentsFrom m b s).2 t).1,
      (commentsFrom (lexFrom m s).2 (commentsFrom m b s).2 t).2) := by
  induction s with
  | nil => intro m b; simp [commentsFrom, lexFrom]
  | cons c s ih => intro m b; simp [commentsFrom, lexFrom, ih]

theorem allComments_append (m : Mode) (b s t : Str) : allComments m b (s ++ t) =
    (commentsFrom m b s).1 ++ allComments (lexFrom m s).2 (commentsFrom m b s).2 t := by
  unfold allComments
  rw [commentsFrom_append, lexFrom_append]
  simp

/-- Outside of a comment. -/
def Outside : Mode → Prop
  | .line | .block | .star => False
  | _ => True

theorem Clean.outside {m : Mode} (h : Clean m) : Outside m := by cases m <;> simp_all [Clean, Outside]

theorem stepC_outside {m : Mode} (h : Outside m) (b b' : Str) (c : Char) : stepC m b c = stepC m b' c := by
  cases m <;> simp_all [Outside, stepC]

theorem allComments_outside {m : Mode} (h : Outside m) (b b' s : Str) : allComments m b s = allComments m b' s := by
  cases s with
  | nil => cases m <;> simp_all [Outside, allComments, commentsFrom, lexFrom, pending]
  | cons c s => simp only [allComments, commentsFrom, stepC_outside h b b']

theorem pending_outside {m : Mode} (h : Outside m) (b : Str) : pending m b = [] := by
  cases m <;> simp_all [Outside, pending]

/-- The comments of two texts, if the first one does not end in a comment. -/
theorem comments_append {s t : Str} (h : Outside (lexFrom .idle s).2) :
    comments (s ++ t) = comments s ++ allComments (lexFrom .idle s).2 [] t := by
  unfold comments
  rw [allComments_append]
  conv => rhs; lhs; unfold allComments
  rw [pending_outside h, List.append_nil, allComments_outside h _ []]

theorem comments_newline {s t : Str} (h : (lexFrom .idle s).2 = .line) :
    comments (s ++ '\n' :: t) = comments s ++ comments t := by
  unfold comments
  rw [allComments_append]
  conv => rhs; lhs; unfold allComments
  rw [h]
  simp [allComments, commentsFrom, lexFrom, stepC, step, pending]

/-! ### Texts without comments -/

def size (ts : List Str) : Nat := (ts.map List.length).sum

theorem size_append (a b : List Str) : size (a ++ b) = size a + size b := by simp [size]

theorem size_cons (a : Str) (b : List Str) : size (a :: b) = a.length + size b := by simp [size]

theorem size_nil : size [] = 0 := rfl

theorem size_fresh (c : Char) : size (fresh c).1 + size (done (fresh c).2) ≤ 1 := by
  unfold fresh
  split_ifs <;> simp [size, done]

theorem size_step (m : Mode) (b : Str) (c : Char) :
    size (step m c).1 + size (done (step m c).2) ≤ size (done m) + 1 ∧
    ((stepC m b c).1 ≠ [] → size (step m c).1 + size (done (step m c).2) < size (done m) + 1) := by
  have hf := size_fresh c
  have he : ∀ t : Str, size (emit t c).1 + size (done (emit t c).2) ≤ t.length + 1 := by
    intro t; simp only [emit, size_cons]; omega
  cases m with
  | idle => simp only [step, stepC]; refine ⟨?_, by simp⟩; simp only [done, size_nil] at *; omega
  | ident a =>
    simp only [step, stepC]
    refine ⟨?_, by simp⟩
    split_ifs
    · simp [size, done]
    · have := he a; simp only [done, size_cons, size_nil] at *; omega
  | num a =>
    simp only [step, stepC]
    refine ⟨?_, by simp⟩
    split_ifs
    · simp [size, done]
    · have := he a; simp only [done, size_cons, size_nil] at *; omega
  | dot =>
    simp only [step, stepC]
    refine ⟨?_, by simp⟩
    split_ifs
    · simp [size, done]
    · have := he ['.']; simpa [done, size] using this
  | str q a =>
    simp only [step, stepC]
    refine ⟨?_, by simp⟩
    split_ifs <;> simp [size, done]
  | esc q a => simp [step, stepC, size, done]
  | slash =>
    refine ⟨?_, by simp only [stepC]; split_ifs <;> simp⟩
    simp only [step]
    split_ifs
    · simp [size, done]
    · simp [size, done]
    · have := he ['/']; simpa [done, size] using this
  | line => simp only [step, stepC]; split_ifs <;> simp [size, done]
  | block => simp only [step, stepC]; split_ifs <;> simp [size, done]
  | star => simp only [step, stepC]; split_ifs <;> simp [size, done]

theorem size_lexFrom (s : Str) : ∀ m b, size (lexFrom m s).1 + size (done (lexFrom m s).2) ≤ size (done m) + s.length ∧
    ((commentsFrom m b s).1 ≠ [] → size (lexFrom m s).1 + size (done (lexFrom m s).2) < size (done m) + s.length) := by
  induction s with
  | nil => intro m b; simp [lexFrom, commentsFrom, size_nil]
  | cons c s ih =>
    intro m b
    obtain ⟨h1, h2⟩ := size_step m b c
    obtain ⟨h3, h4⟩ := ih (step m c).2 (stepC m b c).2
    simp only [lexFrom, commentsFrom, size_append, List.length_cons]
    refine ⟨by omega, ?_⟩
    intro hne
    by_cases hc : (stepC m b c).1 = []
    · rw [hc, List.nil_append] at hne
      have := h4 hne
      omega
    · have := h2 hc
      omega

/-- A text all of whose characters are in tokens has no comments. -/
theorem quiet {m : Mode} {b s : Str} (h : size (lexFrom m s).1 + size (done (lexFrom m s).2) = size (done m) + s.length)
    (hl : (lexFrom m s).2 ≠ .line) : allComments m b s = [] := by
  unfold allComments
  have h1 : (commentsFrom m b s).1 = [] := by
    by_contra hc
    have := (size_lexFrom s m b).2 hc
    omega
  have h2 : pending (lexFrom m s).2 (commentsFrom m b s).2 = [] := by
    cases hm : (lexFrom m s).2 <;> simp_all [pending]
  rw [h1, h2]; rfl

/-! ### Steps -/

theorem stepC_clean {m : Mode} (h : Clean m) (b : Str) (c : Char) : stepC m b c = ([], []) := by
  cases m <;> simp_all [Clean, stepC]

theorem allComments_hard {m : Mode} (h : Clean m) {c : Char} (hc : hardChar c = true) (s : Str) :
    allComments m [] (c :: s) = comments (c :: s) := by
  have h0 : step .idle c = fresh c := rfl
  simp only [comments, allComments, commentsFrom, lexFrom, stepC_clean h, stepC_clean clean_idle, step_hard h hc, h0]

theorem allComments_space {m : Mode} (h : Clean m ∨ m = .slash) {c : Char} (hc : isSpace c = true) (s : Str) :
    allComments m [] (c :: s) = comments s := by
  have hf : fresh c = ([], .idle) := by simp [fresh, hc]
  rcases h with h | rfl
  · simp only [comments, allComments, commentsFrom, lexFrom, stepC_clean h, step_hard h (hard_space hc), hf, List.nil_append]
  · have h1 : c ≠ '/' := (space_class hc).2.2.2.2.2.2.2
    have h2 : c ≠ '*' := fun e => by subst e; revert hc; decide
    simp [comments, allComments, commentsFrom, lexFrom, stepC, step, h1, h2, emit, hf]

theorem comments_blank {w : Str} (h : Blank w) (s : Str) : comments (w ++ s) = comments s := by
  induction w with
  | nil => rfl
  | cons c w ih =>
    have hc := h c List.mem_cons_self
    rw [List.cons_append]
    show allComments .idle [] _ = _
    rw [allComments_space (.inl clean_idle) hc, ih (fun d hd => h d (List.mem_cons_of_mem _ hd))]

theorem comments_nil : comments [] = [] := rfl

theorem commentsFrom_close (r : Str) : ∀ b, (closes r = some [] → commentsFrom .block b r = ([b ++ r], [])) ∧
    (closes ('*' :: r) = some [] → commentsFrom .star b r = ([b ++ r], [])) := by
  induction r with
  | nil => intro b; exact ⟨(by intro h; cases h), (by intro h; cases h)⟩
  | cons c r ih =>
    intro b
    constructor
    · intro h
      by_cases hc : c = '*'
      · subst hc
        simp only [commentsFrom, step, stepC, if_true]
        rw [(ih _).2 h]; simp
      · simp only [commentsFrom, step, stepC, if_neg hc]
        rw [(ih _).1 ?_]; · simp
        cases r with
        | nil => cases h
        | cons d r => unfold closes at h; rwa [if_neg (fun e => hc e.1)] at h
    · intro h
      unfold closes at h
      by_cases hc : c = '/'
      · subst hc
        simp only [and_self, if_true, Option.some.injEq] at h
        subst h
        rfl
      · rw [if_neg (fun e => hc e.2)] at h
        by_cases hs : c = '*'
        · subst hs
          simp only [commentsFrom, step, stepC, if_true]
          rw [if_neg (by decide), if_neg (by decide), (ih _).2 h]; simp
        · simp only [commentsFrom, step, stepC, if_neg hc, if_neg hs]
          rw [(ih _).1 ?_]; · simp
          cases r with
          | nil => cases h
          | cons d r => unfold closes at h; rwa [if_neg (fun e => hs e.1)] at h

theorem comments_start (c : Char) (hc : c = '/' ∨ c = '*') (r : Str) :
    commentsFrom .idle [] ('/' :: c :: r) = commentsFrom (if c = '/' then .line else .block) ['/', c] r := by
  have h1 : step .idle '/' = ([], .slash) := by decide
  simp only [commentsFrom, h1, stepC, if_pos hc, List.nil_append]
  rcases hc with rfl | rfl <;> simp [step]

theorem comments_isBlock {s : Str} (h : IsBlock s) : comments s = [s] := by
  have hl := lexFrom_isBlock clean_idle h
  obtain ⟨r, rfl, hr⟩ := h
  unfold comments allComments
  rw [hl, comments_start '*' (.inr rfl), if_neg (by decide), (commentsFrom_close r _).1 hr]
  rfl

theorem commentsFrom_inLine {s : Str} (h : '\n' ∉ s) : ∀ b, commentsFrom .line b s = ([], b ++ s) := by
  induction s with
  | nil => intro b; simp [commentsFrom]
  | cons c s ih =>
    intro b
    have hc : c ≠ '\n' := fun e => h (by rw [e]; exact List.mem_cons_self)
    simp [commentsFrom, step, stepC, hc, ih (fun e => h (List.mem_cons_of_mem _ e))]

theorem comments_lineComment {r : Str} (h : '\n' ∉ r) : comments ('/' :: '/' :: r) = ['/' :: '/' :: r] := by
  have hl := lexFrom_lineComment clean_idle h
  unfold comments allComments
  rw [hl, comments_start '/' (.inl rfl), if_pos rfl, commentsFrom_inLine h]
  rfl

end Verif.Lexer

namespace Verif.Formatter
open Verif.Lexer Verif.Comment

/-! ### Words -/

theorem flush_nil : flush [] = [] := rfl

theorem wordsFrom_blank {w : Str} (h : Blank w) (hw : w ≠ []) (a s : Str) : wordsFrom a (w ++ s) = flush a ++ wordsFrom [] s := by
  induction w generalizing a with
  | nil => exact absurd rfl hw
  | cons c w ih =>
    have hc := h c List.mem_cons_self
    simp only [List.cons_append, wordsFrom, hc, if_true]
    by_cases hw' : w = []
    · subst hw'; rfl
    · rw [ih (fun d hd => h d (List.mem_cons_of_mem _ hd)) hw', flush_nil, List.nil_append]

theorem words_blank {w : Str} (h : Blank w) (s : Str) : words (w ++ s) = words s := by
  by_cases hw : w = []
  · subst hw; rfl
  · unfold words; rw [wordsFrom_blank h hw, flush_nil, List.nil_append]

theorem wordsFrom_blank_end {w : Str} (h : Blank w) (s : Str) : ∀ a, wordsFrom a (s ++ w) = wordsFrom a s := by
  induction s with
  | nil =>
    intro a
    by_cases hw : w = []
    · subst hw; rfl
    · have := wordsFrom_blank h hw a []
      rw [List.append_nil] at this
      rw [List.nil_append, this]
      simp [wordsFrom, flush_nil]
  | cons c s ih => intro a; simp only [List.cons_append, wordsFrom, ih]

theorem words_blank_end {w : Str} (h : Blank w) (s : Str) : words (s ++ w) = words s := wordsFrom_blank_end h s []

theorem wordsFrom_respaced {a b : Str} (h : Respaced a b) : ∀ x, wordsFrom x a = wordsFrom x b := by
  induction h with
  | nil => intro x; rfl
  | char c a b _ ih => intro x; simp only [wordsFrom, ih]
  | run w w' a b h1 h2 h3 h4 _ ih =>
    intro x
    rw [wordsFrom_blank h3 h1, wordsFrom_blank h4 h2, ih]

theorem wordsFrom_split (s : Str) : ∀ a, ∃ ws cur, wordsFrom a s = ws ++ flush cur ∧
    wordsFrom a (s ++ ['*', '/']) = ws ++ [cur ++ ['*', '/']] := by
  have h1 : isSpace '*' = false := by decide
  have h2 : isSpace '/' = false := by decide
  induction s with
  | nil =>
    intro a
    exact ⟨[], a, rfl, by simp [wordsFrom, h1, h2, flush]⟩
  | cons c s ih =>
    intro a
    by_cases hc : isSpace c = true
    · obtain ⟨ws, cur, e1, e2⟩ := ih []
      exact ⟨flush a ++ ws, cur, by simp [wordsFrom, hc, e1], by simp [wordsFrom, hc, e2]⟩
    · obtain ⟨ws, cur, e1, e2⟩ := ih (a ++ [c])
      exact ⟨ws, cur, by simp [wordsFrom, hc, e1], by simp [wordsFrom, hc, e2]⟩

theorem words_of_end {s t : Str} (h : words (s ++ ['*', '/']) = words (t ++ ['*', '/'])) : words s = words t := by
  obtain ⟨ws, cur, e1, e2⟩ := wordsFrom_split s []
  obtain ⟨ws', cur', e1', e2'⟩ := wordsFrom_split t []
  unfold words at h ⊢
  rw [e2, e2'] at h
  obtain ⟨h1, h2⟩ := List.append_inj' h rfl
  have h3 : cur = cur' := by simpa using h2
  rw [e1, e1', h1, h3]

theorem inside_block (p : Str) : inside ('/' :: '*' :: (p ++ ['*', '/'])) = p := by
  unfold inside
  rw [if_neg (by simp)]
  rw [show p ++ ['*', '/'] = (p ++ ['*']) ++ ['/'] by simp]
  simp only [List.drop_succ_cons, List.drop_zero, List.dropLast_concat]

theorem inside_line (r : Str) : inside ('/' :: '/' :: r) = r := by simp [inside]

/-- A block comment with other white space says the same. -/
theorem content_respaced {a b : Str} (h : Respaced a b) (ha : IsBlock a) : content b = content a := by
  have hb := block_respaced h ha
  obtain ⟨r, rfl, hr⟩ := ha
  obtain ⟨r', rfl, hr'⟩ := hb
  obtain ⟨p, rfl⟩ := closes_last _ _ hr
  obtain ⟨p', rfl⟩ := closes_last _ _ hr'
  obtain ⟨b1, e1, h1⟩ := respaced_cons (by decide) h
  obtain ⟨-, rfl⟩ := List.cons.inj e1
  obtain ⟨b2, e2, h2⟩ := respaced_cons (by decide) h1
  obtain ⟨-, rfl⟩ := List.cons.inj e2
  unfold content
  rw [inside_block, inside_block]
  exact (words_of_end (wordsFrom_respaced h2 [])).symm

end Verif.Formatter
