import Verif.Spec.PrintedDecls
import Verif.Spec.PrintedWf
import Verif.Lemmas.Lexer
import Verif.Props.PrintComment
import Mathlib.Tactic.Common
/-! The effect of the operations of the descriptor printer on the tokens of its output. -/
namespace Verif.Printer
open Verif.Lexer Verif.PrintWriter

/-! ### Lexing -/

/-- In the mode `m`, the text has the tokens `ts` and leads to the mode `m'`. -/
def Lx (m : Mode) (s : Str) (ts : List Str) (m' : Mode) : Prop :=
  (lexFrom m s).1 ++ done m' = done m ++ ts ∧ (lexFrom m s).2 = m'

theorem Lx.nil (m : Mode) : Lx m [] [] m := ⟨by simp [lexFrom], rfl⟩

theorem Lx.append {m m1 m2 : Mode} {a b : Str} {ts us : List Str} (h1 : Lx m a ts m1) (h2 : Lx m1 b us m2) :
    Lx m (a ++ b) (ts ++ us) m2 := by
  obtain ⟨h1, e1⟩ := h1
  obtain ⟨h2, e2⟩ := h2
  refine ⟨?_, ?_⟩
  · rw [lexFrom_append, e1]
    simp only [List.append_assoc]
    rw [h2, ← List.append_assoc, h1, List.append_assoc]
  · rw [lexFrom_append, e1]
    exact e2

theorem Lx.cons {m m1 m2 : Mode} {c : Char} {b : Str} {ts us : List Str} (h1 : Lx m [c] ts m1) (h2 : Lx m1 b us m2) :
    Lx m (c :: b) (ts ++ us) m2 := h1.append h2

theorem Lx.toks {m m' : Mode} {s : Str} {ts us : List Str} (h : Lx m s ts m') (e : ts = us) : Lx m s us m' := e ▸ h
theorem Lx.text {m m' : Mode} {s t : Str} {ts : List Str} (h : Lx m s ts m') (e : s = t) : Lx m t ts m' := e ▸ h

theorem Lx.hard {m : Mode} (hm : Clean m) {c : Char} (hc : hardChar c = true) {s : Str} {ts : List Str} {m' : Mode}
    (h : Lx .idle (c :: s) ts m') : Lx m (c :: s) ts m' := by
  obtain ⟨h1, h2⟩ := h
  refine ⟨?_, ?_⟩
  · rw [lexFrom_hard hm hc]
    simp only [List.append_assoc]
    rw [h1]
    rfl
  · rw [lexFrom_hard hm hc]
    exact h2

/-- A character that is a token. -/
def punctChar (c : Char) : Bool := hardChar c && !isSpace c && !isQuote c && c != '/'

theorem fresh_punct {c : Char} (h : punctChar c = true) : fresh c = ([[c]], .idle) := by
  unfold punctChar hardChar at h
  simp only [Bool.and_eq_true, Bool.not_eq_true', bne_iff_ne, ne_eq] at h
  unfold fresh
  simp [h]

theorem hard_punct {c : Char} (h : punctChar c = true) : hardChar c = true := by
  unfold punctChar at h
  simp only [Bool.and_eq_true] at h
  exact h.1.1.1

theorem Lx.punct {m : Mode} (hm : Clean m) {c : Char} (h : punctChar c = true) : Lx m [c] [[c]] .idle := by
  refine Lx.hard hm (hard_punct h) ⟨?_, ?_⟩
  · simp [lexFrom, step, fresh_punct h, done]
  · simp [lexFrom, step, fresh_punct h]

theorem Lx.minus : Lx .idle ['-'] [['-']] .idle := by constructor <;> decide

theorem Lx.blank {m : Mode} (hm : Clean m) {s : Str} (h : ∀ c ∈ s, isSpace c = true) (hs : s ≠ []) : Lx m s [] .idle := by
  have := lexFrom_blank_clean hm h hs
  exact ⟨by rw [this]; simp [done], by rw [this]⟩

theorem Lx.blank_idle {s : Str} (h : ∀ c ∈ s, isSpace c = true) : Lx .idle s [] .idle := by
  have := lexFrom_blank h
  exact ⟨by rw [this]; simp [done], by rw [this]⟩

theorem Lx.space {m : Mode} (hm : Clean m) : Lx m [' '] [] .idle := Lx.blank hm (by simp; decide) (by simp)
theorem Lx.newline {m : Mode} (hm : Clean m) : Lx m ['\n'] [] .idle := Lx.blank hm (by simp; decide) (by simp)

theorem letter_not_space {c : Char} (h : letter c = true) : isSpace c = false := by
  by_contra hs
  have := (space_class (by simpa using hs)).1
  rw [h] at this; cases this

theorem lexFrom_ident_more (a s : Str) (h : ∀ d ∈ s, letter d = true ∨ digit d = true) :
    lexFrom (.ident a) s = ([], .ident (a ++ s)) := by
  induction s generalizing a with
  | nil => simp [lexFrom]
  | cons c s ih =>
    have hc := h c List.mem_cons_self
    have : (letter c || digit c) = true := by simpa using hc
    simp only [lexFrom, step, this, if_true]
    rw [ih _ (fun d hd => h d (List.mem_cons_of_mem _ hd))]
    simp

theorem Lx.ident {s : Str} (h : Ident s) : Lx .idle s [s] (.ident s) := by
  cases s with
  | nil => cases h
  | cons c s =>
    obtain ⟨hc, hs⟩ := h
    have : lexFrom .idle (c :: s) = ([], .ident (c :: s)) := by
      simp only [lexFrom, step, fresh, letter_not_space hc, hc, if_true, Bool.false_eq_true, if_false]
      rw [lexFrom_ident_more _ _ hs]
      rfl
    exact ⟨by rw [this]; rfl, by rw [this]⟩

theorem letter_not_digit {c : Char} (h : letter c = true) : digit c = false := by
  unfold letter digit at *
  unfold Char.isAlpha Char.isUpper Char.isLower at h
  unfold Char.isDigit
  simp only [Bool.or_eq_true, Bool.and_eq_true, decide_eq_true_eq, beq_iff_eq] at h
  by_contra hd
  simp only [Bool.and_eq_true, decide_eq_true_eq, Bool.not_eq_false] at hd
  rcases h with (h | h) | h
  · have h1 := UInt32.le_iff_toNat_le.1 h.1
    have h2 := UInt32.le_iff_toNat_le.1 hd.2
    have : (65 : Nat) ≤ c.val.toNat := h1
    have : c.val.toNat ≤ 57 := h2
    omega
  · have h1 := UInt32.le_iff_toNat_le.1 h.1
    have h2 := UInt32.le_iff_toNat_le.1 hd.2
    have : (97 : Nat) ≤ c.val.toNat := h1
    have : c.val.toNat ≤ 57 := h2
    omega
  · subst h
    revert hd; decide

theorem Lx.dot_ident {s : Str} (h : Ident s) : Lx .dot s [s] (.ident s) := by
  cases s with
  | nil => cases h
  | cons c s =>
    obtain ⟨hc, hs⟩ := h
    have hd : digit c = false := letter_not_digit hc
    have : lexFrom .dot (c :: s) = ([['.']], .ident (c :: s)) := by
      simp only [lexFrom, step, emit, fresh, hd, letter_not_space hc, hc, if_true, Bool.false_eq_true, if_false]
      rw [lexFrom_ident_more _ _ hs]
      rfl
    exact ⟨by rw [this]; rfl, by rw [this]⟩

theorem Lx.ident_dot (a : Str) : Lx (.ident a) ['.'] [['.']] .dot := by
  have : lexFrom (.ident a) ['.'] = ([a], .dot) := by
    have h : step (.ident a) '.' = ([a], .dot) := by
      have h1 : (letter '.' || digit '.') = false := by decide
      have h2 : fresh '.' = ([], .dot) := by decide
      simp [step, h1, emit, h2]
    simp [lexFrom, h]
  exact ⟨by rw [this]; rfl, by rw [this]⟩

theorem Lx.idle_dot : Lx .idle ['.'] [['.']] .dot := by constructor <;> decide

theorem lexFrom_num_more (a s : Str) (h : ∀ d ∈ s, digit d = true ∨ d = '.') :
    lexFrom (.num a) s = ([], .num (a ++ s)) := by
  induction s generalizing a with
  | nil => simp [lexFrom]
  | cons c s ih =>
    have hc := h c List.mem_cons_self
    have : numMore a c = true := by
      unfold numMore
      rcases hc with hc | hc <;> simp [hc]
    simp only [lexFrom, step, this, if_true]
    rw [ih _ (fun d hd => h d (List.mem_cons_of_mem _ hd))]
    simp

theorem digit_class {c : Char} (h : digit c = true) : isSpace c = false ∧ letter c = false := by
  constructor
  · by_contra hs
    have := (space_class (by simpa using hs)).2.1
    rw [h] at this; cases this
  · by_contra hl
    have := letter_not_digit (by simpa using hl)
    rw [h] at this; cases this

theorem Lx.number {s : Str} (h : Number s) : Lx .idle s [s] (.num s) := by
  cases s with
  | nil => cases h
  | cons c s =>
    obtain ⟨hc, hs⟩ := h
    obtain ⟨h1, h2⟩ := digit_class hc
    have : lexFrom .idle (c :: s) = ([], .num (c :: s)) := by
      simp only [lexFrom, step, fresh, h1, h2, hc, if_true, Bool.false_eq_true, if_false]
      rw [lexFrom_num_more _ _ hs]
      rfl
    exact ⟨by rw [this]; rfl, by rw [this]⟩

/-! ### The state of the writer -/

/-- What may follow: `idle`: between tokens; `sep`: anything, perhaps after a space that is pending; `any`: directly after
a token. -/
inductive K where
  | idle | sep | any
deriving DecidableEq

def Fit : K → Bool → Mode → Prop
  | .idle, _, m => m = .idle
  | .sep, p, m => m = .idle ∨ (p = true ∧ Clean m)
  | .any, _, m => Clean m

theorem Fit.clean {k : K} {p : Bool} {m : Mode} (h : Fit k p m) : Clean m := by
  cases k with
  | idle => rw [show m = .idle from h]; trivial
  | sep =>
    rcases h with h | h
    · rw [h]; trivial
    · exact h.2
  | any => exact h

theorem Fit.of_idle {k : K} {p : Bool} : Fit k p .idle := by
  cases k
  · rfl
  · exact .inl rfl
  · trivial

/-- The text since the mode `m0` has the tokens `ts` (with what was open at `m0`), and starts with `base`. -/
structure Good (m0 : Mode) (base : Str) (w : W) (ts : List Str) (k : K) : Prop where
  lexed : (lexFrom m0 w.w.out).1 ++ done (lexFrom m0 w.w.out).2 = ts
  fit : Fit k w.w.space (lexFrom m0 w.w.out).2
  ok : w.stuck = false
  base : base <+: w.w.out

/-- The function writes the tokens `ts` in a state `k`, and leads to a state `k'`. -/
def Emits (g : W → W) (k : K) (ts : List Str) (k' : K) : Prop :=
  ∀ m0 base w toks, Good m0 base w toks k → Good m0 base (g w) (toks ++ ts) k'

variable {m0 : Mode} {base : Str}

theorem Good.after {g : W → W} {w : W} {k k' : K} {ts us : List Str} (h : Good m0 base w ts k) (hg : Emits g k us k') :
    Good m0 base (g w) (ts ++ us) k' := hg _ _ _ _ h

theorem Good.toks {w : W} {k : K} {ts us : List Str} (h : Good m0 base w ts k) (e : ts = us) : Good m0 base w us k := e ▸ h

theorem Good.idle {w : W} {ts : List Str} (h : Good m0 base w ts .idle) (k : K) : Good m0 base w ts k :=
  { h with fit := (by rw [show (lexFrom m0 w.w.out).2 = .idle from h.fit]; exact Fit.of_idle) }

theorem Good.any {w : W} {ts : List Str} {k : K} (h : Good m0 base w ts k) : Good m0 base w ts .any :=
  { h with fit := h.fit.clean }

theorem Emits.to {g : W → W} {k k' : K} {a : List Str} (hg : Emits g k a .idle) : Emits g k a k' :=
  fun _ _ _ _ hf => (hg _ _ _ _ hf).idle _

theorem Emits.toAny {g : W → W} {k k' : K} {a : List Str} (hg : Emits g k a k') : Emits g k a .any :=
  fun _ _ _ _ hf => (hg _ _ _ _ hf).any

theorem Emits.fromAny {g : W → W} {k k' : K} {a : List Str} (hg : Emits g .any a k') : Emits g k a k' :=
  fun _ _ _ _ hf => hg _ _ _ _ hf.any

theorem Emits.fromIdle {g : W → W} {k k' : K} {a : List Str} (hg : Emits g k a k') : Emits g .idle a k' :=
  fun _ _ _ _ hf => hg _ _ _ _ (hf.idle _)

theorem Emits.id (k : K) : Emits (fun w => w) k [] k := fun _ _ _ _ hf => by rw [List.append_nil]; exact hf

theorem Emits.comp {g h : W → W} {k k' k'' : K} {a b : List Str} (hg : Emits g k a k') (hh : Emits h k' b k'') :
    Emits (fun w => h (g w)) k (a ++ b) k'' := fun _ _ _ _ hf => ((hf.after hg).after hh).toks (by simp)

theorem Emits.toks {g : W → W} {k k' : K} {a a' : List Str} (hg : Emits g k a k') (h : a = a') : Emits g k a' k' := h ▸ hg

/-! ### Writing -/

/-- The text may be written in the state. -/
def Start (k : K) (s : Str) : Prop :=
  (∃ c t, s = c :: t ∧ hardChar c = true) ∨ (k ≠ .any ∧ s.head? ≠ some ';' ∧ s.head? ≠ some ',')

theorem write_out (w : Writer) (q : Str) (trail : Bool) (hq : q ≠ []) (hl : q.getLast? ≠ some ' ') :
    (write w (q ++ if trail then [' '] else [])).1.out = w.out ++ pendingBlank w.space (q.headD ' ') ++ q ∧
      (write w (q ++ if trail then [' '] else [])).1.space = trail := by
  cases q with
  | nil => exact absurd rfl hq
  | cons c q =>
    cases trail
    · simp only [write, Bool.false_eq_true, if_false, List.append_nil, List.headD_cons]
      simp [hl]
    · simp only [write, if_true, List.cons_append, List.headD_cons]
      have : (c :: (q ++ [' '])).getLast? = some ' ' := by rw [← List.cons_append, List.getLast?_append]; rfl
      simp only [this, decide_true, if_true]
      rw [← List.cons_append, List.dropLast_concat]
      simp

/-- Writing a text, perhaps with a blank after it. -/
theorem Emits.put {q : Str} {ts : List Str} {m' : Mode} {k : K} (trail : Bool) (hq : q ≠ []) (hl : q.getLast? ≠ some ' ')
    (hx : Lx .idle q ts m') (hm : Clean m') (hs : Start k q) : Emits (put (q ++ if trail then [' '] else [])) k ts
      (if trail then .sep else .any) := by
  intro m0 base w toks h
  obtain ⟨ho, hsp⟩ := write_out w.w q trail hq hl
  have ho' : (Printer.put (q ++ if trail then [' '] else []) w).w.out = w.w.out ++ pendingBlank w.w.space (q.headD ' ') ++ q := ho
  have hs' : (Printer.put (q ++ if trail then [' '] else []) w).w.space = trail := hsp
  -- the lexing of the text with the blank before it
  have key : Lx (lexFrom m0 w.w.out).2 (pendingBlank w.w.space (q.headD ' ') ++ q) ts m' := by
    have hcl := h.fit.clean
    by_cases hb : pendingBlank w.w.space (q.headD ' ') = [' ']
    · rw [hb]
      exact ((Lx.space hcl).append hx).toks (by simp)
    · have hb' : pendingBlank w.w.space (q.headD ' ') = [] := by
        unfold pendingBlank at hb ⊢
        split
        · rename_i h1
          rw [if_pos h1] at hb
          split
          · rename_i h2; rw [if_pos h2] at hb; exact absurd rfl hb
          · rfl
        · rfl
      rw [hb', List.nil_append]
      rcases hs with ⟨c, t, rfl, hc⟩ | ⟨hk, h1, h2⟩
      · exact Lx.hard hcl hc hx
      · have hidle : (lexFrom m0 w.w.out).2 = .idle := by
          have hf := h.fit
          cases k with
          | idle => exact hf
          | any => exact absurd rfl hk
          | sep =>
            rcases hf with hf | ⟨hp, _⟩
            · exact hf
            · exfalso
              cases q with
              | nil => exact hq rfl
              | cons c q =>
                simp only [List.head?_cons, ne_eq, Option.some.injEq] at h1 h2
                simp [pendingBlank, hp, h1, h2] at hb'
        rw [hidle]; exact hx
  obtain ⟨k1, k2⟩ := key
  have hout2 : (lexFrom m0 (Printer.put (q ++ if trail then [' '] else []) w).w.out).2 = m' := by
    rw [ho', List.append_assoc, lexFrom_append]
    exact k2
  refine ⟨?_, ?_, h.ok, ?_⟩
  · rw [hout2, ho', List.append_assoc, lexFrom_append]
    simp only [List.append_assoc]
    rw [k1, ← List.append_assoc, h.lexed]
  · rw [hout2, hs']
    cases trail
    · exact hm
    · exact .inr ⟨rfl, hm⟩
  · rw [ho', List.append_assoc]
    exact h.base.trans (List.prefix_append _ _)

theorem Emits.put_any {q : Str} {ts : List Str} {m' : Mode} {k : K} (hx : Lx .idle q ts m') (hq : q ≠ [])
    (hl : q.getLast? ≠ some ' ') (hm : Clean m') (hs : Start k q) : Emits (Printer.put q) k ts .any := by
  have := Emits.put false hq hl hx hm hs
  simpa using this

theorem Emits.put_sep {q : Str} {ts : List Str} {m' : Mode} {k : K} (hx : Lx .idle q ts m') (hq : q ≠ [])
    (hl : q.getLast? ≠ some ' ') (hm : Clean m') (hs : Start k q) : Emits (Printer.put (q ++ [' '])) k ts .sep := by
  have := Emits.put true hq hl hx hm hs
  simpa using this

theorem Emits.put_idle {q : Str} {ts : List Str} {k : K} (hx : Lx .idle q ts .idle) (hq : q ≠ [])
    (hl : q.getLast? ≠ some ' ') (hs : Start k q) : Emits (Printer.put q) k ts .idle := by
  intro m0 base w toks h
  have h2 := Emits.put_any hx hq hl trivial hs m0 base w toks h
  refine { h2 with fit := ?_ }
  -- the same computation
  obtain ⟨ho, hsp⟩ := write_out w.w q false hq hl
  simp only [Bool.false_eq_true, if_false, List.append_nil] at ho
  show (lexFrom m0 (write w.w q).1.out).2 = .idle
  rw [ho]
  have hcl := h.fit.clean
  by_cases hb : pendingBlank w.w.space (q.headD ' ') = [' ']
  · rw [hb, lexFrom_append, lexFrom_append]
    simp only
    rw [(Lx.space hcl).2, hx.2]
  · have hb' : pendingBlank w.w.space (q.headD ' ') = [] := by
      unfold pendingBlank at hb ⊢
      split
      · rename_i h1
        rw [if_pos h1] at hb
        split
        · rename_i h2; rw [if_pos h2] at hb; exact absurd rfl hb
        · rfl
      · rfl
    rw [hb', List.append_nil, lexFrom_append]
    simp only
    rcases hs with ⟨c, t, rfl, hc⟩ | ⟨hk, h1, h2'⟩
    · exact (Lx.hard hcl hc hx).2
    · have hidle : (lexFrom m0 w.w.out).2 = .idle := by
        have hf := h.fit
        cases k with
        | idle => exact hf
        | any => exact absurd rfl hk
        | sep =>
          rcases hf with hf | ⟨hp, _⟩
          · exact hf
          · exfalso
            cases q with
            | nil => exact hq rfl
            | cons c q =>
              simp only [List.head?_cons, ne_eq, Option.some.injEq] at h1 h2'
              simp [pendingBlank, hp, h1, h2'] at hb'
      rw [hidle]; exact hx.2

theorem Emits.put_nil (k : K) : Emits (Printer.put []) k [] k := fun _ _ w _ h => by
  rw [List.append_nil]; exact h

/-- A blank only. -/
theorem Emits.put_space (k : K) : Emits (Printer.put [' ']) k [] .sep := by
  intro m0 base w toks h
  rw [List.append_nil]
  have ho : (Printer.put [' '] w).w.out = w.w.out ++ pendingBlank w.w.space ' ' := by
    simp [Printer.put, write]
  have hs : (Printer.put [' '] w).w.space = true := by simp [Printer.put, write]
  have hcl := h.fit.clean
  have key : Lx (lexFrom m0 w.w.out).2 (pendingBlank w.w.space ' ') [] (lexFrom (lexFrom m0 w.w.out).2 (pendingBlank w.w.space ' ')).2 ∧
      Clean (lexFrom (lexFrom m0 w.w.out).2 (pendingBlank w.w.space ' ')).2 := by
    cases w.w.space
    · exact ⟨Lx.nil _, hcl⟩
    · have := Lx.space hcl
      rw [show pendingBlank true ' ' = [' '] by decide, this.2]
      exact ⟨this, trivial⟩
  refine ⟨?_, ?_, h.ok, ?_⟩
  · rw [ho, lexFrom_append]
    simp only [List.append_assoc]
    rw [key.1.1, ← List.append_assoc, h.lexed, List.append_nil]
  · rw [ho, hs, lexFrom_append]
    exact .inr ⟨rfl, key.2⟩
  · rw [ho]; exact h.base.trans (List.prefix_append _ _)

/-- Weakening of the state after. -/
def K.le : K → K → Bool
  | .idle, _ => true
  | .sep, .idle => false
  | .sep, _ => true
  | .any, .any => true
  | .any, _ => false

theorem Good.mono {w : W} {ts : List Str} {k k' : K} (h : Good m0 base w ts k) (hk : k.le k' = true) : Good m0 base w ts k' := by
  cases k
  · exact h.idle _
  · cases k'
    · cases hk
    · exact h
    · exact h.any
  · cases k'
    · cases hk
    · cases hk
    · exact h

theorem Emits.mono {g : W → W} {k k0 k' k1 : K} {a : List Str} (hg : Emits g k a k') (h0 : k0.le k = true)
    (h1 : k'.le k1 = true) : Emits g k0 a k1 := fun _ _ _ _ hf => (hg _ _ _ _ (hf.mono h0)).mono h1

/-- A text of white space. -/
theorem Emits.put_blank {s : Str} (h : ∀ c ∈ s, isSpace c = true) (k : K) : Emits (Printer.put s) k [] k := by
  by_cases hs : s = []
  · subst hs; exact Emits.put_nil k
  by_cases hl : s.getLast? = some ' '
  · obtain ⟨q, rfl⟩ : ∃ q, s = q ++ [' '] := by
      refine ⟨s.dropLast, ?_⟩
      rw [List.getLast?_eq_some_getLast hs] at hl
      have := List.dropLast_concat_getLast hs
      rw [← this]
      simp only [Option.some.injEq] at hl
      rw [hl]; simp
    by_cases hq : q = []
    · subst hq
      simp only [List.nil_append]
      intro m0 base w toks hf
      have h1 := hf.after (Emits.put_space k)
      cases k
      · -- idle: the blank is written or not
        refine { h1 with fit := ?_ }
        have ho : (Printer.put [' '] w).w.out = w.w.out ++ pendingBlank w.w.space ' ' := by
          simp [Printer.put, write]
        show (lexFrom m0 (Printer.put [' '] w).w.out).2 = .idle
        rw [ho, lexFrom_append]
        simp only
        rw [show (lexFrom m0 w.w.out).2 = .idle from hf.fit]
        cases w.w.space <;> decide
      · exact h1
      · exact h1.any
    · intro m0 base w toks hf
      -- the written part is white space
      have hbl : ∀ c ∈ pendingBlank w.w.space ((q ++ [' ']).headD ' ') ++ q, isSpace c = true := by
        intro c hc
        rcases List.mem_append.1 hc with hc | hc
        · unfold pendingBlank at hc
          split at hc
          · split at hc
            · rw [List.mem_singleton] at hc; subst hc; decide
            · cases hc
          · cases hc
        · exact h c (List.mem_append_left _ hc)
      have ho : (Printer.put (q ++ [' ']) w).w.out = w.w.out ++ (pendingBlank w.w.space ((q ++ [' ']).headD ' ') ++ q) := by
        cases q with
        | nil => exact absurd rfl hq
        | cons c q =>
          show (write w.w (c :: (q ++ [' ']))).1.out = _
          have hg : (c :: (q ++ [' '])).getLast? = some ' ' := by rw [← List.cons_append, List.getLast?_append]; rfl
          simp only [write, hg, decide_true, if_true]
          rw [← List.cons_append, List.dropLast_concat]
          simp
      have hx := Lx.blank hf.fit.clean hbl (by simp [hq])
      refine ⟨?_, ?_, hf.ok, ?_⟩
      · rw [ho, lexFrom_append]
        simp only [List.append_assoc]
        rw [hx.2, hx.1, ← List.append_assoc, hf.lexed]
      · rw [ho, lexFrom_append]
        simp only
        rw [hx.2]; exact Fit.of_idle
      · rw [ho]; exact hf.base.trans (List.prefix_append _ _)
  · refine (Emits.put_idle (Lx.blank_idle h) hs hl (.inl ?_)).to
    cases s with
    | nil => exact absurd rfl hs
    | cons c s => exact ⟨c, s, rfl, hard_space (h c List.mem_cons_self)⟩

theorem emits_nl (k : K) : Emits nl k [] .idle :=
  Emits.put_idle (Lx.newline trivial) (by simp) (by simp) (.inl ⟨'\n', [], rfl, by decide⟩)

theorem emits_newLine (b : Bool) (k : K) : Emits (newLine b) k [] k := by
  cases b
  · exact (emits_nl k).to
  · exact Emits.id k

/-! ### Comments -/

theorem lx_lines {t : Str} (h : PrintComment.LineComments t) {m : Mode} (hm : Clean m) : Lx m t [] .idle := by
  have one : ∀ (ws text : Str), (∀ c ∈ ws, c = ' ' ∨ c = '\t') → '\n' ∉ text → ∀ {m : Mode}, Clean m →
      Lx m (ws ++ ['/', '/'] ++ text ++ ['\n']) [] .idle := by
    intro ws text hws ht m hm
    have hline : ∀ m, Clean m → Lx m ('/' :: '/' :: (text ++ ['\n'])) [] .idle := by
      intro m hm
      have h1 := lexFrom_lineComment hm ht
      have e : '/' :: '/' :: (text ++ ['\n']) = ('/' :: '/' :: text) ++ ['\n'] := by simp
      rw [e]
      constructor
      · rw [lexFrom_append, h1]; simp [lexFrom, step, done]
      · rw [lexFrom_append, h1]; simp [lexFrom, step]
    by_cases hw : ws = []
    · subst hw
      simpa using hline m hm
    · have hb : ∀ c ∈ ws, isSpace c = true := fun c hc => by rcases hws c hc with h | h <;> subst h <;> decide
      have := (Lx.blank hm hb hw).append (hline .idle trivial)
      simpa using this
  induction h generalizing m with
  | one ws text h1 h2 => exact one ws text h1 h2 hm
  | cons ws text rest h1 h2 _ ih => exact ((one ws text h1 h2 hm).append (ih trivial)).toks rfl

theorem lexFrom_block (body : Str) :
    ((∀ x y, body ++ ['*', '/'] = x ++ ['*', '/'] ++ y → y = []) → lexFrom .block (body ++ ['*', '/']) = ([], .idle)) ∧
    ((∀ x y, '*' :: body ++ ['*', '/'] = x ++ ['*', '/'] ++ y → y = []) →
      lexFrom .star (body ++ ['*', '/']) = ([], .idle)) := by
  induction body with
  | nil => exact ⟨fun _ => by decide, fun _ => by decide⟩
  | cons c body ih =>
    have hsub : (∀ x y, c :: body ++ ['*', '/'] = x ++ ['*', '/'] ++ y → y = []) →
        ∀ x y, body ++ ['*', '/'] = x ++ ['*', '/'] ++ y → y = [] := by
      intro h x y e
      exact h (c :: x) y (by simpa using e)
    constructor
    · intro h
      by_cases hc : c = '*'
      · subst hc
        have := ih.2 (by simpa using h)
        simp only [List.cons_append, lexFrom, step, if_true, this, List.nil_append]
      · have := ih.1 (hsub h)
        simp only [List.cons_append, lexFrom, step, hc, if_false, this, List.nil_append]
    · intro h
      have hne : c ≠ '/' := by
        rintro rfl
        have := h [] (body ++ ['*', '/']) (by simp)
        simp at this
      have h' : ∀ x y, c :: body ++ ['*', '/'] = x ++ ['*', '/'] ++ y → y = [] := by
        intro x y e
        exact h ('*' :: x) y (by simpa using e)
      by_cases hc : c = '*'
      · subst hc
        have := ih.2 (by simpa using h')
        simp [lexFrom, step, this]
      · have := ih.1 (hsub h')
        simp only [List.cons_append, lexFrom, step, hc, hne, if_false, this, List.nil_append]

theorem lx_block {t : Str} (h : PrintComment.BlockComment t) {m : Mode} (hm : Clean m) : Lx m t [] .idle := by
  obtain ⟨body, rfl, hb⟩ := h
  have h1 : Lx .idle ('/' :: '*' :: (body ++ ['*', '/'])) [] .idle := by
    have hx := (lexFrom_block body).1 hb
    have e : lexFrom .idle ('/' :: '*' :: (body ++ ['*', '/'])) = lexFrom .block (body ++ ['*', '/']) := by
      simp only [lexFrom]
      rw [show step .idle '/' = ([], .slash) by decide]
      simp [step]
    exact ⟨by rw [e, hx]; rfl, by rw [e, hx]⟩
  have := Lx.hard hm hard_slash h1
  simpa using this

theorem lineComments_last {t : Str} (h : PrintComment.LineComments t) : t.getLast? = some '\n' := by
  induction h with
  | one => rw [List.getLast?_append]; rfl
  | cons ws text rest _ _ h2 ih => rw [List.getLast?_append, ih]; rfl

theorem lineComments_start {t : Str} (h : PrintComment.LineComments t) : ∃ c s, t = c :: s ∧ hardChar c = true := by
  have : ∀ (ws r : Str), (∀ c ∈ ws, c = ' ' ∨ c = '\t') → ∃ c s, ws ++ '/' :: r = c :: s ∧ hardChar c = true := by
    intro ws r h
    cases ws with
    | nil => exact ⟨'/', r, rfl, by decide⟩
    | cons c ws =>
      refine ⟨c, ws ++ '/' :: r, rfl, ?_⟩
      rcases h c List.mem_cons_self with h | h <;> subst h <;> decide
  cases h with
  | one ws text h1 h2 => simpa using this ws _ h1
  | cons ws text rest h1 h2 _ => simpa using this ws _ h1

variable {c : Cfg}

theorem emits_comment (hi : IndentOk c) {t : Str} (ht : CommentOk t) (ind : Int) (force : Bool) (k : K) :
    Emits (fun w => (comment c t ind force w).1) k [] k := by
  intro m0 base w toks h
  show Good m0 base (comment c t ind force w).1 _ _
  unfold comment
  generalize hr : PrintComment.printComment _ t ind force = r
  cases r with
  | panic => exact absurd ((PrintComment.C34_no_crash_partial _ _ _ _).1 hr).1 ht
  | ok text b =>
    rcases PrintComment.C34_wellformed _ (fun x hx => hi x hx) t ind force text b hr with rfl | ⟨pre, t', post, rfl, hb, hc⟩
    · exact h.after (Emits.put_nil k)
    · have hb' : ∀ x ∈ pre, isSpace x = true := fun x hx => by
        rcases hb x hx with h | h | h <;> subst h <;> decide
      have hpost : post = [] ∨ post = ['\n'] := by
        rcases hc with hc | hc
        · exact hc.2
        · exact .inl hc.2
      have hlx : ∀ {m : Mode}, Clean m → Lx m (t' ++ post) [] .idle := by
        intro m hm
        rcases hc with ⟨hc, _⟩ | ⟨hc, _⟩ <;> rcases hpost with rfl | rfl
        · simpa using lx_block hc hm
        · exact ((lx_block hc hm).append (Lx.newline trivial)).toks rfl
        · simpa using lx_lines hc hm
        · exact ((lx_lines hc hm).append (Lx.newline trivial)).toks rfl
      have hstart : ∃ x s, t' ++ post = x :: s ∧ hardChar x = true := by
        rcases hc with ⟨⟨body, rfl, _⟩, _⟩ | ⟨hc, _⟩
        · exact ⟨'/', _, rfl, by decide⟩
        · obtain ⟨x, s, rfl, hx⟩ := lineComments_start hc
          exact ⟨x, s ++ post, rfl, hx⟩
      have hne : t' ++ post ≠ [] := by
        obtain ⟨x, s, e, _⟩ := hstart
        rw [e]; simp
      have hlast : (t' ++ post).getLast? ≠ some ' ' := by
        rcases hpost with rfl | rfl
        · rw [List.append_nil]
          rcases hc with ⟨⟨body, rfl, _⟩, _⟩ | ⟨hc, _⟩
          · rw [List.getLast?_append]; simp
          · rw [lineComments_last hc]; simp
        · rw [List.getLast?_append]; simp
      have hfull : Lx .idle (pre ++ t' ++ post) [] .idle := by
        rw [List.append_assoc]
        exact ((Lx.blank_idle hb').append (hlx trivial)).toks rfl
      refine h.after ((Emits.put_idle hfull ?_ ?_ (.inl ?_)).to)
      · rw [List.append_assoc]; simp [hne]
      · rw [List.append_assoc, List.getLast?_append]
        cases hg : (t' ++ post).getLast? with
        | none => exact absurd (List.getLast?_eq_none_iff.1 hg) hne
        | some x => rw [hg] at hlast; simpa using hlast
      · obtain ⟨x, s, e, hx⟩ := hstart
        cases pre with
        | nil => exact ⟨x, s, by simpa using e, hx⟩
        | cons y pre => exact ⟨y, pre ++ t' ++ post, rfl, hard_space (hb' y List.mem_cons_self)⟩

theorem emits_puts {ss : List Str} (h : ∀ s ∈ ss, ∀ c ∈ s, isSpace c = true) (k : K) : Emits (puts ss) k [] k := by
  induction ss with
  | nil => exact Emits.id k
  | cons s ss ih =>
    intro m0 base w toks hf
    have := (hf.after (Emits.put_blank (h s List.mem_cons_self) k)).after (ih (fun x hx => h x (List.mem_cons_of_mem _ hx)))
    exact this.toks (by simp)

theorem emits_indentW (hi : IndentOk c) (n : Int) (k : K) : Emits (indentW c n) k [] k :=
  emits_puts (fun s hs x hx => by
    rw [List.eq_of_mem_replicate hs] at hx
    rcases hi x hx with h | h <;> subst h <;> decide) k

theorem emits_afterDetached (hi : IndentOk c) {t : Str} (ht : CommentOk t) (ind : Int) (k : K) :
    Emits (fun w => afterDetached c ind (comment c t ind true w)) k [] k := by
  intro m0 base w toks h
  have h1 := h.after (emits_comment hi ht ind true k)
  rw [List.append_nil] at h1 ⊢
  show Good m0 base (afterDetached c ind (comment c t ind true w)) _ _
  unfold afterDetached
  split
  · simpa using h1.after (emits_newLine c.compactComments k)
  · split
    · simpa using h1.after (Emits.put_blank (s := [' ']) (by simp; decide) k)
    · have h2 := h1.after (emits_nl k)
      simpa using (h2.after (emits_newLine c.compactComments .idle)).idle k

theorem emits_detachedLoop (hi : IndentOk c) (ind : Int) (ts : List Str) (ht : ∀ t ∈ ts, CommentOk t) (k : K) :
    Emits (detachedLoop c ind ts) k [] k := by
  induction ts with
  | nil => exact Emits.id k
  | cons t ts ih =>
    intro m0 base w toks h
    have h1 := h.after (emits_afterDetached hi (ht t List.mem_cons_self) ind k)
    have h2 := h1.after (ih (fun x hx => ht x (List.mem_cons_of_mem _ hx)))
    exact h2.toks (by simp)

theorem emits_leadingComments (hi : IndentOk c) {l : Loc} (hl : LocOk l) (ind : Int) (k : K) :
    Emits (leadingComments c l ind) k [] k := by
  intro m0 base w toks h
  rw [List.append_nil]
  have h1 : Good m0 base (if c.omitDetached then w else detachedLoop c ind l.detached w) toks k := by
    split
    · exact h
    · simpa using h.after (emits_detachedLoop hi ind l.detached hl.detached k)
  show Good m0 base (leadingPart c l ind (if c.omitDetached then w else detachedLoop c ind l.detached w)) _ _
  generalize (if c.omitDetached then w else detachedLoop c ind l.detached w) = w1 at h1
  unfold leadingPart
  split
  · exact h1
  · have h2 := h1.after (emits_comment hi hl.leading ind true k)
    rw [List.append_nil] at h2
    simp only
    split
    · exact h2
    · split
      · simpa using (h2.after (emits_nl k)).idle k
      · simpa using h2.after (Emits.put_blank (s := [' ']) (by simp; decide) k)

theorem emits_trailingComments (hi : IndentOk c) {l : Loc} (hl : LocOk l) (ind : Int) (k : K) :
    Emits (fun w => (trailingComments c l ind w).1) k [] k := by
  intro m0 base w toks h
  rw [List.append_nil]
  show Good m0 base (trailingComments c l ind w).1 _ _
  unfold trailingComments
  split
  · exact h
  · have h2 := h.after (emits_comment hi hl.trailing ind c.trailingSeparate k)
    rw [List.append_nil] at h2
    simp only
    split
    · simpa using (h2.after (emits_nl k)).idle k
    · split
      · simpa using h2.after (Emits.put_blank (s := [' ']) (by simp; decide) k)
      · exact h2

theorem emits_endLine (ind : Int) (k : K) : Emits (endLine ind) k [] k := by
  intro m0 base w toks h
  rw [List.append_nil]
  unfold endLine
  split
  · simpa using (h.after (emits_nl k)).idle k
  · exact h

/-- An optional location. -/
def LocsOk (l : Option Loc) : Prop := ∀ x, l = some x → LocOk x

theorem emits_element (hi : IndentOk c) {l : Option Loc} (hl : LocsOk l) (isDesc : Bool) (ind : Int) {el : W → W} {k k' : K}
    {ts : List Str} (h : Emits el k ts k') : Emits (element c isDesc l ind el) k ts k' := by
  intro m0 base w toks hf
  unfold element
  cases hs : shown c isDesc l with
  | none => simpa using (hf.after h).after (emits_endLine ind k')
  | some x =>
    have hx : LocOk x := by
      unfold shown at hs
      split at hs
      · exact hl x hs
      · cases hs
    have h1 := hf.after (emits_leadingComments hi hx ind k)
    have h2 := ((h1.after h).after (emits_trailingComments hi hx ind k')).after (emits_endLine ind k')
    simpa using h2

theorem emits_trailer (hi : IndentOk c) {l : Option Loc} (hl : LocsOk l) (ind : Int) (want : Bool) (k : K) :
    Emits (trailer c l ind want) k [] k := by
  intro m0 base w toks h
  rw [List.append_nil]
  unfold trailer
  cases l with
  | none => exact h
  | some l =>
    have h1 := h.after (emits_trailingComments hi (hl l rfl) ind k)
    rw [List.append_nil] at h1
    simp only
    split
    · simpa using (h1.after (emits_nl k)).idle k
    · exact h1

theorem emits_blockElement (hi : IndentOk c) {l : Option Loc} (hl : LocsOk l) (ind : Int)
    {el : (Int → Bool → W → W) → W → W} {k k' : K} {ts : List Str}
    (h : ∀ trail, (∀ i b k, Emits (trail i b) k [] k) → Emits (el trail) k ts k') : Emits (blockElement c l ind el) k ts k' := by
  intro m0 base w toks hf
  unfold blockElement
  cases l with
  | none => simpa using (hf.after (h _ (fun _ _ k => Emits.id k))).after (emits_endLine ind k')
  | some x =>
    have h1 := hf.after (emits_leadingComments hi (hl x rfl) ind k)
    have h2 := (h1.after (h _ (fun i b k => emits_trailer hi hl i b k))).after (emits_endLine ind k')
    simpa using h2

theorem emits_elementString (hi : IndentOk c) {l : Option Loc} (hl : LocsOk l) (ind : Int) {s : Str} {k k' : K} {ts : List Str}
    (h : Emits (put s) k ts k') : Emits (elementString c l ind s) k ts k' := emits_element hi hl false _ h

end Verif.Printer
