import Verif.Spec.Lexer
import Verif.Spec.Comment
import Verif.Util.Trim
import Mathlib.Tactic.Common
/-! Lemmas about the lexer. -/
namespace Verif.Lexer
open Verif.Comment (closes IsBlock)

theorem lexFrom_append (m : Mode) (a b : Str) : lexFrom m (a ++ b) =
    ((lexFrom m a).1 ++ (lexFrom (lexFrom m a).2 b).1, (lexFrom (lexFrom m a).2 b).2) := by
  induction a generalizing m with
  | nil => rfl
  | cons c a ih => simp [lexFrom, ih]

/-- The modes in which a token may end. -/
def Clean : Mode → Prop
  | .idle | .ident _ | .num _ | .dot => True
  | _ => False

theorem clean_idle : Clean .idle := trivial

/-- A character that ends every token, and does not start a comment. -/
def hardChar (c : Char) : Bool :=
  !letter c && !digit c && c != '.' && c != '+' && c != '-'

theorem step_hard {m : Mode} (h : Clean m) {c : Char} (hc : hardChar c = true) :
    step m c = (done m ++ (fresh c).1, (fresh c).2) := by
  simp only [hardChar, Bool.and_eq_true, Bool.not_eq_true', bne_iff_ne, ne_eq] at hc
  obtain ⟨⟨⟨⟨h1, h2⟩, h3⟩, h4⟩, h5⟩ := hc
  cases m <;> simp_all [Clean, step, done, emit, numMore]

theorem lexFrom_hard {m : Mode} (h : Clean m) {c : Char} (hc : hardChar c = true) (s : Str) :
    lexFrom m (c :: s) = (done m ++ (lexFrom .idle (c :: s)).1, (lexFrom .idle (c :: s)).2) := by
  have h0 : step .idle c = fresh c := rfl
  simp only [lexFrom, step_hard h hc, h0, List.append_assoc]

theorem space_class {c : Char} (h : isSpace c = true) : letter c = false ∧ digit c = false ∧ c ≠ '.' ∧ c ≠ '+' ∧ c ≠ '-' ∧
    c ≠ '"' ∧ c ≠ '\'' ∧ c ≠ '/' := by
  have hn : ∀ d : Char, isSpace d = false → c ≠ d := fun d hd e => by rw [e, hd] at h; cases h
  refine ⟨?_, ?_, hn _ (by decide), hn _ (by decide), hn _ (by decide), hn _ (by decide), hn _ (by decide), hn _ (by decide)⟩
  · unfold letter Char.isAlpha Char.isUpper Char.isLower
    unfold isSpace at h
    by_contra hl
    simp only [Bool.not_eq_false, Bool.or_eq_true, Bool.and_eq_true, decide_eq_true_eq, beq_iff_eq] at hl h
    rcases hl with (hl | hl) | hl
    · have h1 := hl.1; have h2 := hl.2
      simp only [ge_iff_le, UInt32.le_iff_toNat_le] at h1 h2
      have e : c.val.toNat = c.toNat := rfl
      have e1 : 'A'.val.toNat = 65 := by decide
      have e2 : 'Z'.val.toNat = 90 := by decide
      omega
    · have h1 := hl.1; have h2 := hl.2
      simp only [ge_iff_le, UInt32.le_iff_toNat_le] at h1 h2
      have e : c.val.toNat = c.toNat := rfl
      have e1 : 'a'.val.toNat = 97 := by decide
      have e2 : 'z'.val.toNat = 122 := by decide
      omega
    · subst hl
      have : '_'.toNat = 95 := by decide
      omega
  · unfold digit Char.isDigit
    unfold isSpace at h
    by_contra hl
    simp only [Bool.not_eq_false, Bool.or_eq_true, Bool.and_eq_true, decide_eq_true_eq, beq_iff_eq] at hl h
    have h1 := hl.1; have h2 := hl.2
    simp only [ge_iff_le, UInt32.le_iff_toNat_le] at h1 h2
    have e : c.val.toNat = c.toNat := rfl
    have e1 : '0'.val.toNat = 48 := by decide
    have e2 : '9'.val.toNat = 57 := by decide
    omega

theorem hard_space {c : Char} (h : isSpace c = true) : hardChar c = true := by
  obtain ⟨h1, h2, h3, h4, h5, _⟩ := space_class h
  simp [hardChar, h1, h2, h3, h4, h5]

theorem lexFrom_blank {s : Str} (h : Blank s) : lexFrom .idle s = ([], .idle) := by
  induction s with
  | nil => rfl
  | cons c s ih =>
    have hc := h c List.mem_cons_self
    simp [lexFrom, step, fresh, hc, ih (fun d hd => h d (List.mem_cons_of_mem _ hd))]

theorem lexFrom_blank_clean {m : Mode} (hm : Clean m) {s : Str} (h : Blank s) (hs : s ≠ []) :
    lexFrom m s = (done m, .idle) := by
  cases s with
  | nil => exact absurd rfl hs
  | cons c s => rw [lexFrom_hard hm (hard_space (h c List.mem_cons_self)), lexFrom_blank h]; simp

theorem lexFrom_close (r : Str) : (closes r = some [] → lexFrom .block r = ([], .idle)) ∧
    (closes ('*' :: r) = some [] → lexFrom .star r = ([], .idle)) := by
  induction r with
  | nil => exact ⟨(by intro h; cases h), (by intro h; cases h)⟩
  | cons c r ih =>
    constructor
    · intro h
      by_cases hc : c = '*'
      · subst hc
        simp only [lexFrom, step, if_true]
        rw [ih.2 h]; rfl
      · simp only [lexFrom, step, if_neg hc]
        rw [ih.1 ?_]; · rfl
        cases r with
        | nil => cases h
        | cons d r => unfold closes at h; rwa [if_neg (fun e => hc e.1)] at h
    · intro h
      unfold closes at h
      by_cases hc : c = '/'
      · subst hc
        simp only [and_self, if_true, Option.some.injEq] at h
        subst h
        rfl
      · rw [if_neg (fun e => hc e.2)] at h
        by_cases hs : c = '*'
        · subst hs
          simp only [lexFrom, step, if_true]
          rw [if_neg (by decide), ih.2 h]; rfl
        · simp only [lexFrom, step, if_neg hc, if_neg hs]
          rw [ih.1 ?_]; · rfl
          cases r with
          | nil => cases h
          | cons d r => unfold closes at h; rwa [if_neg (fun e => hs e.1)] at h

theorem hard_slash : hardChar '/' = true := by decide

theorem lexFrom_isBlock {m : Mode} (hm : Clean m) {s : Str} (h : IsBlock s) : lexFrom m s = (done m, .idle) := by
  obtain ⟨r, rfl, hr⟩ := h
  rw [lexFrom_hard hm hard_slash]
  have : lexFrom .idle ('/' :: '*' :: r) = lexFrom .block r := by
    simp only [lexFrom]
    rw [show step .idle '/' = ([], .slash) by decide]
    simp [step]
  rw [this, (lexFrom_close r).1 hr]; simp

theorem lexFrom_inLine {s : Str} (h : '\n' ∉ s) : lexFrom .line s = ([], .line) := by
  induction s with
  | nil => rfl
  | cons c s ih =>
    have hc : c ≠ '\n' := fun e => h (by rw [e]; exact List.mem_cons_self)
    simp [lexFrom, step, hc, ih (fun e => h (List.mem_cons_of_mem _ e))]

theorem lexFrom_lineComment {m : Mode} (hm : Clean m) {r : Str} (h : '\n' ∉ r) :
    lexFrom m ('/' :: '/' :: r) = (done m, .line) := by
  rw [lexFrom_hard hm hard_slash]
  have : lexFrom .idle ('/' :: '/' :: r) = lexFrom .line r := by
    simp only [lexFrom]
    rw [show step .idle '/' = ([], .slash) by decide]
    simp [step]
  rw [this, lexFrom_inLine h]; simp

/-- A character with which an identifier, a number or a dot may end. -/
def wordish (c : Char) : Bool := letter c || digit c || c == '.' || c == '+' || c == '-'

theorem fresh_wordish {c : Char} (h : wordish c = false) (hc : Clean (fresh c).2) : (fresh c).2 = .idle := by
  simp only [wordish, Bool.or_eq_false_iff, beq_eq_false_iff_ne] at h
  obtain ⟨⟨⟨⟨h1, h2⟩, h3⟩, h4⟩, h5⟩ := h
  revert hc
  unfold fresh
  simp only [h1, h2, h3, if_false, Bool.false_eq_true]
  split_ifs <;> simp [Clean]

theorem step_wordish (m : Mode) {c : Char} (h : wordish c = false) (hc : Clean (step m c).2) : (step m c).2 = .idle := by
  have hf := fresh_wordish h
  have h' := h
  simp only [wordish, Bool.or_eq_false_iff, beq_eq_false_iff_ne] at h
  obtain ⟨⟨⟨⟨h1, h2⟩, h3⟩, h4⟩, h5⟩ := h
  revert hc
  cases m with
  | idle => exact hf
  | ident a => simp only [step, h1, h2, Bool.or_self, Bool.false_eq_true, if_false, emit]; exact hf
  | num a => simp only [step, numMore, h1, h2, h3, h4, h5, Bool.or_self, Bool.false_eq_true, if_false, emit, beq_iff_eq, Bool.or_eq_true,
      Bool.and_eq_true, or_self, false_and]; exact hf
  | dot => simp only [step, h2, Bool.false_eq_true, if_false, emit]; exact hf
  | str q a => simp only [step]; split_ifs <;> simp [Clean]
  | esc q a => simp [step, Clean]
  | slash =>
    simp only [step]
    split_ifs
    · simp [Clean]
    · simp [Clean]
    · exact hf
  | line => simp only [step]; split_ifs <;> simp [Clean]
  | block => simp only [step]; split_ifs <;> simp [Clean]
  | star => simp only [step]; split_ifs <;> simp [Clean]

theorem lexFrom_concat (m : Mode) (s : Str) (c : Char) : lexFrom m (s ++ [c]) =
    ((lexFrom m s).1 ++ (step (lexFrom m s).2 c).1, (step (lexFrom m s).2 c).2) := by
  rw [lexFrom_append]; simp [lexFrom]

/-- After a character that is not part of a word, no word is open. -/
theorem idle_of_last {m : Mode} {s : Str} {c : Char} (hs : s.getLast? = some c) (h : wordish c = false)
    (hc : Clean (lexFrom m s).2) : (lexFrom m s).2 = .idle := by
  obtain ⟨p, rfl⟩ : ∃ p, s = p ++ [c] := by
    refine ⟨s.dropLast, ?_⟩
    have hne : s ≠ [] := by intro e; rw [e] at hs; cases hs
    rw [List.getLast?_eq_some_getLast hne] at hs
    have := List.dropLast_concat_getLast hne
    rw [Option.some.inj hs] at this
    exact this.symm
  rw [lexFrom_concat] at hc ⊢
  exact step_wordish _ h hc

end Verif.Lexer
