import Verif.Spec.FormatTokens
import Verif.Lemmas.Lexer
import Verif.Props.InlineComment
import Verif.Props.BlockComment
/-! The effect of the operations of the formatter on the tokens of its output. -/
namespace Verif.Formatter
open Verif.Lexer Verif.Comment
open Verif.InlineComment (Comment)
open Verif.FormatWriter (St)

/-- What may follow: `idle`: between tokens; `free`: anything, perhaps after a space that is pending; `ident`, `dot`,
`slash`: directly after such a token; `any`: directly after some token; `eol`: perhaps in a line comment. -/
inductive K where
  | idle | free | ident | dot | slash | any | eol
deriving DecidableEq

/-- The modes in which the lexer may be, apart from `idle`. -/
def Bare : K → Mode → Prop
  | .ident, .ident _ => True
  | .dot, .dot => True
  | .slash, .slash => True
  | .any, m => Clean m
  | .eol, m => Clean m ∨ m = .line
  | _, _ => False

/-- The same, with a pending space. -/
def Fit (k : K) (p : Bool) (m : Mode) : Prop := m = .idle ∨ (k ≠ .idle ∧ p = true ∧ Clean m) ∨ Bare k m

/-- The tokens of the output are `ts`, and the formatter knows its last character. -/
structure Good (b : Bool) (f : F) (ts : List Str) (k : K) : Prop where
  lexed : (lexFrom .idle f.w.out).1 ++ done (lexFrom .idle f.w.out).2 = ts
  fit : Fit k f.w.pendingSpace (lexFrom .idle f.w.out).2
  last : f.w.out = [] ∨ f.w.out.getLast? = some f.w.last
  ok : f.stuck = false
  flag : f.inCompact = b

/-- The function writes the tokens `ts` in a state `k`, and leads to a state `k'`. -/
def Emits (b : Bool) (g : F → F) (k : K) (ts : List Str) (k' : K) : Prop :=
  ∀ f toks, Good b f toks k → Good b (g f) (toks ++ ts) k'

variable {b : Bool}

theorem Emits.comp {g h : F → F} {k k' k'' : K} {a a' : List Str} (hg : Emits b g k a k') (hh : Emits b h k' a' k'') :
    Emits b (fun f => h (g f)) k (a ++ a') k'' := fun f toks hf => by
  rw [← List.append_assoc]; exact hh _ _ (hg _ _ hf)

/-- `k` is at least as good as `k'`. -/
def K.le : K → K → Bool
  | .idle, k => k != .slash
  | .free, k => k != .idle && k != .slash
  | .ident, k => k == .ident || k == .any || k == .eol
  | .dot, k => k == .dot || k == .any || k == .eol
  | .slash, k => k == .slash
  | .any, k => k == .any || k == .eol
  | .eol, k => k == .eol

theorem fit_mono {k k' : K} (h : k.le k' = true) {p : Bool} {m : Mode} (hf : Fit k p m) : Fit k' p m := by
  rcases hf with hf | ⟨h1, h2, h3⟩ | hb
  · exact .inl hf
  · refine .inr (.inl ⟨?_, h2, h3⟩)
    intro e; subst e; cases k <;> simp [K.le] at h h1
  · refine .inr (.inr ?_)
    cases k <;> cases k' <;> simp [K.le] at h <;> cases m <;> simp_all [Bare, Clean]

theorem Good.mono {f : F} {ts : List Str} {k k' : K} (h : Good b f ts k) (hk : k.le k' = true) : Good b f ts k' :=
  { h with fit := fit_mono hk h.fit }

theorem Good.idle {f : F} {ts : List Str} (h : Good b f ts .idle) (k : K) : Good b f ts k :=
  { h with fit := (by
      rcases h.fit with h | ⟨h, _⟩ | h
      · exact .inl h
      · exact absurd rfl h
      · cases h) }

theorem Good.mode {f : F} {ts : List Str} (h : Good b f ts .idle) : (lexFrom .idle f.w.out).2 = .idle := by
  rcases h.fit with h | ⟨h, _⟩ | h
  · exact h
  · exact absurd rfl h
  · cases h

theorem Emits.mono {g : F → F} {k k0 k' k1 : K} {a : List Str} (hg : Emits b g k a k') (h0 : k0.le k = true)
    (h1 : k'.le k1 = true) : Emits b g k0 a k1 := fun _ _ hf => (hg _ _ (hf.mono h0)).mono h1

theorem Emits.to {g : F → F} {k k' : K} {a : List Str} (hg : Emits b g k a .idle) : Emits b g k a k' :=
  fun _ _ hf => (hg _ _ hf).idle _

theorem Emits.from {g : F → F} {k k' : K} {a : List Str} (hg : Emits b g k a k') : Emits b g .idle a k' :=
  fun _ _ hf => hg _ _ (hf.idle _)

theorem Emits.id (k : K) : Emits b (fun f => f) k [] k := fun f toks hf => by rw [List.append_nil]; exact hf

theorem Emits.fn {g g' : F → F} {k k' : K} {a : List Str} (hg : Emits b g k a k') (h : ∀ f, g' f = g f) : Emits b g' k a k' := by
  have : g' = g := funext h
  rw [this]; exact hg

theorem Emits.toks {g : F → F} {k k' : K} {a a' : List Str} (hg : Emits b g k a k') (h : a = a') : Emits b g k a' k' := h ▸ hg

/-! ### Writing a text -/

/-- The characters before which a pending space is not written. -/
def closer (c : Char) : Bool := ['\n', ';', ',', ')', ']', '}', '>'].contains c

def Before (k : K) (s : Str) (m : Mode) : Prop :=
  m = .idle ∨ (Clean m ∧ closer (FormatWriter.firstRune s) = true) ∨ Bare k m

theorem fit_clean_or {k : K} {p : Bool} {m : Mode} (h : Fit k p m) : Clean m ∨ Bare k m := by
  rcases h with h | h | h
  · rw [h]; exact .inl trivial
  · exact .inl h.2.2
  · exact .inr h

theorem prevBlock_wordish {b : Bool} {c : Char} (h : FormatWriter.prevBlock b c = true) : wordish c = false := by
  unfold FormatWriter.prevBlock at h
  have : c = '\x00' ∨ c = ' ' ∨ c = '\t' ∨ c = '\n' ∨ c = '<' ∨ c = '[' ∨ c = '{' ∨ c = '(' := by
    cases b <;> simp at h <;> tauto
  rcases this with h | h | h | h | h | h | h | h <;> subst h <;> decide

theorem nextBlock_closer {b : Bool} {c : Char} (h : FormatWriter.nextBlock b c = true) : closer c = true := by
  unfold FormatWriter.nextBlock at h
  unfold closer
  cases b <;> simp at h ⊢ <;> tauto

/-- The general rule for writing a text. -/
theorem Good.put {f : F} {ts : List Str} {k : K} (h : Good b f ts k) {s : Str} (hs : s ≠ []) {new : List Str} {k' : K}
    (H : ∀ m, Before k s m → (lexFrom m s).1 ++ done (lexFrom m s).2 = done m ++ new ∧
      ((lexFrom m s).2 = .idle ∨ Bare k' (lexFrom m s).2)) : Good b (put s f) (ts ++ new) k' := by
  have hlast : (f.w.out ++ FormatWriter.spaceFor f.w s ++ s).getLast? = some (s.getLast?.getD f.w.last) := by
    rw [List.getLast?_append, List.getLast?_eq_some_getLast hs]; rfl
  by_cases hsp : FormatWriter.spaceFor f.w s = [' ']
  · -- a space is written
    have hp : f.w.pendingSpace = true := by
      unfold FormatWriter.spaceFor at hsp
      by_contra hp
      simp [hp] at hsp
    have hout : (Formatter.put s f).w.out = f.w.out ++ [' '] ++ s := by
      show f.w.out ++ FormatWriter.spaceFor f.w s ++ s = _
      rw [hsp]
    have key : ∃ m1, lexFrom (lexFrom .idle f.w.out).2 [' '] = (done (lexFrom .idle f.w.out).2, m1) ∧ done m1 = [] ∧
        Before k s m1 := by
      rcases fit_clean_or h.fit with hc | hb
      · exact ⟨.idle, lexFrom_blank_clean hc (BlockComment.blank_spaces 1) (by simp), rfl, .inl rfl⟩
      · revert hb
        generalize (lexFrom .idle f.w.out).2 = m
        intro hb
        have hcase : Clean m ∨ m = .slash ∨ (m = .line ∧ k = .eol) := by
          cases k <;> cases m <;> simp_all [Bare, Clean]
        rcases hcase with hc | rfl | ⟨rfl, rfl⟩
        · exact ⟨.idle, lexFrom_blank_clean hc (BlockComment.blank_spaces 1) (by simp), rfl, .inl rfl⟩
        · exact ⟨.idle, by decide, rfl, .inl rfl⟩
        · exact ⟨.line, by decide, rfl, .inr (.inr (.inr rfl))⟩
    obtain ⟨m1, hm1, hd, hb⟩ := key
    obtain ⟨H1, H2⟩ := H _ hb
    refine ⟨?_, ?_, ?_, h.ok, h.flag⟩
    · rw [hout, lexFrom_append, lexFrom_append, hm1]
      simp only
      rw [List.append_assoc, H1, hd, List.nil_append, h.lexed]
    · rw [hout, lexFrom_append, lexFrom_append, hm1]
      rcases H2 with e | e
      · exact .inl e
      · exact .inr (.inr e)
    · right
      show (f.w.out ++ FormatWriter.spaceFor f.w s ++ s).getLast? = _
      exact hlast
  · have hsp0 : FormatWriter.spaceFor f.w s = [] := by
      unfold FormatWriter.spaceFor at hsp ⊢
      split at hsp
      · exact absurd rfl hsp
      · rename_i hc; rw [if_neg hc]
    have hb : Before k s (lexFrom .idle f.w.out).2 := by
      rcases h.fit with hf | ⟨hk, hp, hcl⟩ | hf
      · exact .inl hf
      · unfold FormatWriter.spaceFor at hsp0
        by_cases h1 : FormatWriter.prevBlock f.w.inline f.w.last = true
        · left
          rcases h.last with ho | ho
          · rw [ho]; rfl
          · exact idle_of_last ho (prevBlock_wordish h1) hcl
        · by_cases h2 : FormatWriter.nextBlock f.w.inline (FormatWriter.firstRune s) = true
          · exact .inr (.inl ⟨hcl, nextBlock_closer h2⟩)
          · simp [hp, h1, h2] at hsp0
      · exact .inr (.inr hf)
    obtain ⟨H1, H2⟩ := H _ hb
    have hout : (Formatter.put s f).w.out = f.w.out ++ s := by
      show f.w.out ++ FormatWriter.spaceFor f.w s ++ s = _
      rw [hsp0, List.append_nil]
    refine ⟨?_, ?_, ?_, h.ok, h.flag⟩
    · rw [hout, lexFrom_append]
      simp only
      rw [List.append_assoc, H1, ← List.append_assoc, h.lexed]
    · rw [hout, lexFrom_append]
      rcases H2 with e | e
      · exact .inl e
      · exact .inr (.inr e)
    · right
      show (f.w.out ++ FormatWriter.spaceFor f.w s ++ s).getLast? = _
      exact hlast

/-! ### The simple operations -/

theorem Good.congr {f g : F} {ts : List Str} {k : K} (h : Good b f ts k) (ho : g.w.out = f.w.out) (hl : g.w.last = f.w.last)
    (hp : g.w.pendingSpace = f.w.pendingSpace) (hs : g.stuck = f.stuck)
    (hc : g.inCompact = f.inCompact) : Good b g ts k :=
  ⟨by rw [ho]; exact h.lexed, by rw [ho, hp]; exact h.fit, by rw [ho, hl]; exact h.last, by rw [hs]; exact h.ok, by rw [hc]; exact h.flag⟩

theorem emits_setPrev (x : Bool) (k : K) : Emits b (setPrev x) k [] k := fun _ _ hf => by
  rw [List.append_nil]; exact hf.congr rfl rfl rfl rfl rfl

theorem emits_setInline (x : Bool) (k : K) : Emits b (setInline x) k [] k := fun _ _ hf => by
  rw [List.append_nil]; exact hf.congr rfl rfl rfl rfl rfl

theorem good_setCompact {f : F} {ts : List Str} {k : K} {b' : Bool} (h : Good b' f ts k) (b : Bool) :
    Good b (setCompact b f) ts k := ⟨h.lexed, h.fit, h.last, h.ok, rfl⟩

theorem emits_indentIn (k : K) : Emits b indentIn k [] k := fun _ _ hf => by
  rw [List.append_nil]; exact hf.congr rfl rfl rfl rfl rfl

theorem emits_indentOut (k : K) : Emits b indentOut k [] k := fun f _ hf => by
  rw [List.append_nil]
  unfold indentOut FormatWriter.decr
  split <;> exact hf.congr rfl rfl rfl rfl rfl

theorem emits_space (k : K) : Emits b space k [] k := fun f _ hf => by
  rw [List.append_nil]
  refine ⟨hf.lexed, ?_, hf.last, hf.ok, hf.flag⟩
  rcases hf.fit with h | ⟨h1, _, h3⟩ | h
  · exact .inl h
  · exact .inr (.inl ⟨h1, rfl, h3⟩)
  · exact .inr (.inr h)

theorem emits_space_free {k : K} (hk : k ≠ .slash) (hk' : k ≠ .eol) : Emits b space k [] .free := fun f _ hf => by
  rw [List.append_nil]
  refine ⟨hf.lexed, ?_, hf.last, hf.ok, hf.flag⟩
  show Fit .free true (lexFrom .idle f.w.out).2
  rcases hf.fit with h | ⟨_, _, h3⟩ | h
  · exact .inl h
  · exact .inr (.inl ⟨by simp, rfl, h3⟩)
  · refine .inr (.inl ⟨by simp, rfl, ?_⟩)
    revert h
    generalize (lexFrom .idle f.w.out).2 = m
    cases k <;> cases m <;> simp_all [Bare, Clean]

theorem settle_parts (st : St) : (FormatWriter.settle st).out = st.out ∧ (FormatWriter.settle st).last = st.last ∧
    (FormatWriter.settle st).pendingSpace = st.pendingSpace := by
  unfold FormatWriter.settle FormatWriter.incr FormatWriter.decr
  repeat' split
  all_goals exact ⟨rfl, rfl, rfl⟩

theorem newline_parts (f : F) : (newline f).w.out = (put ['\n'] f).w.out ∧ (newline f).w.last = '\n' ∧
    (newline f).w.pendingSpace = false ∧ (newline f).stuck = f.stuck := by
  have h : (newline f).w = FormatWriter.settle (FormatWriter.write f.w ['\n']) := rfl
  obtain ⟨h1, h2, h3⟩ := settle_parts (FormatWriter.write f.w ['\n'])
  rw [h, h1, h2, h3]
  exact ⟨rfl, rfl, rfl, rfl⟩

theorem Good.newline_char {f : F} {ts : List Str} {k : K} (hk : k ≠ .slash) (h : Good b f ts k) :
    Good b (Formatter.put ['\n'] f) ts .idle := by
  have := h.put (s := ['\n']) (by simp) (new := []) (k' := .idle) ?_
  · rwa [List.append_nil] at this
  · intro m hm
    have hcase : Clean m ∨ m = .line := by
      rcases hm with rfl | h | h
      · exact .inl trivial
      · exact .inl h.1
      · cases k <;> cases m <;> simp_all [Bare, Clean]
    rcases hcase with hc | rfl
    · rw [lexFrom_blank_clean hc (s := ['\n']) (by intro c hc; simp at hc; subst hc; decide) (by simp)]
      exact ⟨by simp [done], .inl rfl⟩
    · exact ⟨by decide, .inl (by decide)⟩

theorem emits_newline {k : K} (hk : k ≠ .slash) : Emits b newline k [] .idle := fun f _ hf => by
  rw [List.append_nil]
  obtain ⟨h1, h2, h3, h4⟩ := newline_parts f
  exact (hf.newline_char hk).congr h1 (by rw [h2]; rfl) (by rw [h3]; rfl) h4 rfl

theorem getLast?_split {s : Str} {c : Char} (hs : s.getLast? = some c) : ∃ p, s = p ++ [c] := by
  refine ⟨s.dropLast, ?_⟩
  have hne : s ≠ [] := by intro e; rw [e] at hs; cases hs
  rw [List.getLast?_eq_some_getLast hne] at hs
  have := List.dropLast_concat_getLast hne
  rw [Option.some.inj hs] at this
  exact this.symm

theorem idle_of_newline {k : K} {p : Bool} {s : Str} (hs : s.getLast? = some '\n') (h : Fit k p (lexFrom .idle s).2) :
    (lexFrom .idle s).2 = .idle := by
  have hc : Clean (lexFrom .idle s).2 ∨ (lexFrom .idle s).2 = .slash ∨ (lexFrom .idle s).2 = .line := by
    rcases fit_clean_or h with h | h
    · exact .inl h
    · revert h
      generalize (lexFrom .idle s).2 = m
      cases k <;> cases m <;> simp_all [Bare, Clean]
  rcases hc with hc | hc
  · exact idle_of_last hs (by decide) hc
  · exfalso
    obtain ⟨p, rfl⟩ := getLast?_split hs
    rw [lexFrom_concat] at hc
    revert hc
    simp only
    generalize (lexFrom .idle p).2 = m
    have hf : (fresh '\n').2 = .idle := by decide
    have h1 : letter '\n' = false := by decide
    have h2 : digit '\n' = false := by decide
    cases m <;> simp [step, emit, hf, h1, h2, numMore] <;> split_ifs <;> simp

/-- The state at the start of a line, or of an empty buffer. -/
theorem Good.at_newline {f : F} {ts : List Str} {k : K} (h : Good b f ts k) (hl : f.w.last = '\n') :
    (lexFrom .idle f.w.out).2 = .idle := by
  rcases h.last with ho | ho
  · rw [ho]; rfl
  · rw [hl] at ho; exact idle_of_newline ho h.fit

theorem emits_indentation {k : K} (r : Option Char) : Emits b (indentation r) k [] k := fun f _ hf => by
  rw [List.append_nil]
  by_cases hl : f.w.last ≠ '\n'
  · have : indentation r f = f := by
      unfold indentation FormatWriter.indentation
      rw [if_pos hl]
    rw [this]; exact hf
  · have hl : f.w.last = '\n' := Decidable.byContradiction hl
    obtain ⟨n, hn⟩ : ∃ n, indentation r f = put (List.replicate n ' ') f := by
      unfold indentation FormatWriter.indentation
      rw [if_neg (by simp [hl])]
      exact ⟨_, rfl⟩
    have hsp : FormatWriter.spaceFor f.w (List.replicate n ' ') = [] := by
      unfold FormatWriter.spaceFor FormatWriter.prevBlock
      rw [hl]
      cases f.w.inline <;> simp
    have hout : (put (List.replicate n ' ') f).w.out = f.w.out ++ List.replicate n ' ' := by
      show f.w.out ++ FormatWriter.spaceFor f.w _ ++ _ = _
      rw [hsp, List.append_nil]
    have hm := hf.at_newline hl
    have hb : lexFrom .idle (List.replicate n ' ') = ([], .idle) := lexFrom_blank (BlockComment.blank_spaces n)
    have he : lexFrom .idle (f.w.out ++ List.replicate n ' ') = ((lexFrom .idle f.w.out).1, .idle) := by
      rw [lexFrom_append, hm, hb]; simp
    rw [hn]
    refine ⟨?_, ?_, ?_, hf.ok, hf.flag⟩
    · rw [hout, he, ← hf.lexed, hm]
    · rw [hout, he]; exact .inl rfl
    · rw [hout]
      show _ ∨ _ = some ((List.replicate n ' ').getLast?.getD f.w.last)
      cases n with
      | zero => simpa using hf.last
      | succ n => right; rw [List.getLast?_append]; simp [List.getLast?_replicate]

/-! ### Tokens -/

/-- Whether a token of the class may be written in the state. -/
def Accept : K → Cls → Bool
  | .idle, _ => true
  | .free, _ => true
  | .eol, _ => false
  | .slash, c => c == .ident
  | .ident, c => c == .hard || c == .dot || c == .slash
  | .dot, c => c == .hard || c == .ident
  | .any, c => c == .hard

/-- The state after a token of the class. -/
def after : Cls → K
  | .hard => .idle
  | .sign => .idle
  | .ident => .ident
  | .num => .any
  | .dot => .dot
  | .slash => .slash

theorem punct_parts {c : Char} (h : punct c = true) : hardChar c = true ∧ fresh c = ([[c]], .idle) := by
  unfold punct punct.hardChar' at h
  unfold hardChar fresh
  simp only [Bool.and_eq_true, Bool.not_eq_true', bne_iff_ne, ne_eq] at h ⊢
  obtain ⟨⟨⟨⟨⟨⟨⟨h1, h2⟩, h3⟩, h4⟩, h5⟩, h6⟩, h7⟩, h8⟩ := h
  exact ⟨⟨⟨⟨⟨h1, h2⟩, h3⟩, h4⟩, h5⟩, by simp [h1, h2, h3, h6, h7, h8]⟩

theorem lexFrom_requoted (s : Str) (hq : '"' ∉ s) : ∀ (a a' : Str),
    (lexFrom (.str '\'' a) s = ([a ++ s], .idle) →
      ∃ b, s = b ++ ['\''] ∧ lexFrom (.str '"' a') (b ++ ['"']) = ([a' ++ b ++ ['"']], .idle)) ∧
    (lexFrom (.esc '\'' a) s = ([a ++ s], .idle) →
      ∃ b, s = b ++ ['\''] ∧ lexFrom (.esc '"' a') (b ++ ['"']) = ([a' ++ b ++ ['"']], .idle)) := by
  induction s with
  | nil => intro a a'; exact ⟨(by intro h; cases h), (by intro h; cases h)⟩
  | cons c s ih =>
    have hc : c ≠ '"' := fun e => hq (by rw [e]; exact List.mem_cons_self)
    have ih := ih (fun h => hq (List.mem_cons_of_mem _ h))
    intro a a'
    constructor
    · intro h
      by_cases h1 : c = '\\'
      · subst h1
        simp only [lexFrom, step, if_true, List.nil_append] at h
        rw [show a ++ '\\' :: s = (a ++ ['\\']) ++ s by simp] at h
        obtain ⟨b, hb, hl⟩ := (ih (a ++ ['\\']) (a' ++ ['\\'])).2 (Prod.ext (by have := congrArg Prod.fst h; simpa using this) (congrArg Prod.snd h))
        refine ⟨'\\' :: b, by rw [hb]; rfl, ?_⟩
        simp only [List.cons_append, lexFrom, step, if_true, List.nil_append]
        rw [hl]; simp
      · by_cases h2 : c = '\''
        · subst h2
          simp only [lexFrom, step, if_true, if_neg h1] at h
          have h3 := congrArg Prod.fst h
          simp only [List.singleton_append, List.cons.injEq] at h3
          have h4 := h3.1
          have : s = [] := by simpa using h4
          subst this
          exact ⟨[], rfl, by simp [lexFrom, step]⟩
        · simp only [lexFrom, step, if_neg h1, if_neg h2, List.nil_append] at h
          rw [show a ++ c :: s = (a ++ [c]) ++ s by simp] at h
          obtain ⟨b, hb, hl⟩ := (ih (a ++ [c]) (a' ++ [c])).1 (Prod.ext (by have := congrArg Prod.fst h; simpa using this) (congrArg Prod.snd h))
          refine ⟨c :: b, by rw [hb]; rfl, ?_⟩
          simp only [List.cons_append, lexFrom, step, if_neg h1, if_neg hc, List.nil_append]
          rw [hl]; simp
    · intro h
      simp only [lexFrom, step, List.nil_append] at h
      rw [show a ++ c :: s = (a ++ [c]) ++ s by simp] at h
      obtain ⟨b, hb, hl⟩ := (ih (a ++ [c]) (a' ++ [c])).1 (Prod.ext (by have := congrArg Prod.fst h; simpa using this) (congrArg Prod.snd h))
      refine ⟨c :: b, by rw [hb]; rfl, ?_⟩
      simp only [List.cons_append, lexFrom, step, List.nil_append]
      rw [hl]; simp

/-- A string literal is still one string literal after the change of the quotes. -/
theorem stringOk_requote {raw : Str} (h : StringOk raw) :
    lexFrom .idle (requote raw) = ([requote raw], .idle) ∧ (requote raw).head? = some '"' := by
  obtain ⟨h1, h2⟩ := h
  rcases h2 with h2 | ⟨h2, h3⟩
  · have : requote raw = raw := by
      unfold requote; rw [if_neg]; rintro ⟨_, e, _⟩; rw [h2] at e; cases e
    rw [this]; exact ⟨h1, h2⟩
  · cases raw with
    | nil => cases h2
    | cons c s =>
      simp only [List.head?_cons, Option.some.injEq] at h2
      subst h2
      have hf : step .idle '\'' = ([], .str '\'' ['\'']) := by decide
      have hf' : step .idle '"' = ([], .str '"' ['"']) := by decide
      simp only [lexFrom, hf, List.nil_append] at h1
      obtain ⟨b, hb, hl⟩ := (lexFrom_requoted s (fun h => h3 (List.mem_cons_of_mem _ h)) ['\''] ['"']).1
        (Prod.ext (by have := congrArg Prod.fst h1; simpa using this) (congrArg Prod.snd h1))
      subst hb
      have hr : requote ('\'' :: (b ++ ['\''])) = '"' :: b ++ ['"'] := by
        unfold requote
        rw [if_pos ⟨by simp, rfl, by rw [List.getLast?_cons]; simp⟩]
        simp
      rw [hr]
      refine ⟨?_, rfl⟩
      rw [List.cons_append]
      simp only [lexFrom, hf', List.nil_append]
      rw [hl]; simp

theorem closer_hard {c : Char} (h : closer c = true) : hardChar c = true := by
  unfold closer at h
  simp at h
  rcases h with h | h | h | h | h | h | h <;> subst h <;> decide

/-- A text that is a token of its own, and ends every other token. -/
theorem good_hard {f : F} {ts : List Str} {k : K} (h : Good b f ts k) (hk : k ≠ .slash) (hk' : k ≠ .eol) {c : Char} {s : Str}
    (hc : hardChar c = true) (hs : lexFrom .idle (c :: s) = ([c :: s], .idle)) : Good b (put (c :: s) f) (ts ++ [c :: s]) .idle := by
  refine h.put (by simp) ?_
  intro m hm
  have hcl : Clean m := by
    rcases hm with rfl | h | h
    · trivial
    · exact h.1
    · cases k <;> cases m <;> simp_all [Bare, Clean]
  rw [lexFrom_hard hcl hc, hs]
  exact ⟨by simp [done], .inl rfl⟩

theorem put_eq_write (t : Tok) (f : F) (h : ∀ c, t.term ≠ .rune c) : t.write f = put t.str f := by
  unfold Tok.write
  cases ht : t.term with
  | rune c => exact absurd ht (h c)
  | text s => rfl
  | string s => rfl

theorem lexFrom_ident (s : Str) (h : ∀ d ∈ s, letter d = true ∨ digit d = true) : ∀ a,
    lexFrom (.ident a) s = ([], .ident (a ++ s)) := by
  induction s with
  | nil => intro a; simp [lexFrom]
  | cons c s ih =>
    intro a
    have hc : (letter c || digit c) = true := by
      rcases h c List.mem_cons_self with h | h <;> simp [h]
    simp only [lexFrom, step, hc, if_true]
    rw [ih (fun d hd => h d (List.mem_cons_of_mem _ hd))]
    simp

theorem lexFrom_num (s : Str) : ∀ a, NumTail a s → lexFrom (.num a) s = ([], .num (a ++ s)) := by
  induction s with
  | nil => intro a _; simp [lexFrom]
  | cons c s ih =>
    intro a h
    simp only [lexFrom, step, h.1, if_true]
    rw [ih _ h.2]
    simp

theorem letter_class {c : Char} (h : letter c = true) : isSpace c = false ∧ digit c = false ∧ c ≠ '/' ∧ c ≠ '*' := by
  refine ⟨?_, ?_, ?_, ?_⟩
  · by_contra hs
    have := (space_class (Bool.not_eq_false _ ▸ hs)).1
    rw [h] at this; cases this
  · by_contra hd
    have hd : digit c = true := Bool.not_eq_false _ ▸ hd
    unfold digit Char.isDigit at hd
    unfold letter Char.isAlpha Char.isUpper Char.isLower at h
    simp only [Bool.or_eq_true, Bool.and_eq_true, decide_eq_true_eq, beq_iff_eq, ge_iff_le, UInt32.le_iff_toNat_le] at hd h
    have e1 : '0'.val.toNat = 48 := by decide
    have e2 : '9'.val.toNat = 57 := by decide
    have e3 : 'A'.val.toNat = 65 := by decide
    have e4 : 'a'.val.toNat = 97 := by decide
    rcases h with (h | h) | h
    · omega
    · omega
    · subst h
      have : '_'.val.toNat = 95 := by decide
      omega
  · intro e; subst e; revert h; decide
  · intro e; subst e; revert h; decide

theorem digit_class {c : Char} (h : digit c = true) : isSpace c = false ∧ letter c = false := by
  refine ⟨?_, ?_⟩
  · by_contra hs
    have := (space_class (Bool.not_eq_false _ ▸ hs)).2.1
    rw [h] at this; cases this
  · by_contra hl
    have := (letter_class (Bool.not_eq_false _ ▸ hl)).2.1
    rw [h] at this; cases this

/-- The rule for tokens. -/
theorem emits_write {t : Tok} {c : Cls} {k : K} (ht : TermOk c t.term) (hk : Accept k c = true) :
    Emits b t.write k [t.str] (after c) := by
  intro f ts h
  have hrune : ∀ r, t.term = .rune r → ∀ ts' k', Good b (put [r] f) ts' k' → Good b (t.write f) ts' k' := by
    intro r hr ts' k' hg
    unfold Tok.write; rw [hr]
    exact hg.congr rfl rfl rfl rfl rfl
  have hstr : ∀ r, t.term = .rune r → t.str = [r] := by intro r hr; unfold Tok.str; rw [hr]
  cases c with
  | hard =>
    have hk1 : k ≠ .slash := by intro e; subst e; simp [Accept] at hk
    have hk2 : k ≠ .eol := by intro e; subst e; simp [Accept] at hk
    cases hterm : t.term with
    | rune r =>
      rw [hterm] at ht
      obtain ⟨h1, h2⟩ := punct_parts ht
      rw [hstr r hterm]
      refine hrune r hterm _ _ (good_hard h hk1 hk2 h1 ?_)
      have h0 : step .idle r = fresh r := rfl
      simp [lexFrom, h0, h2]
    | text s => rw [hterm] at ht; exact absurd ht id
    | string raw =>
      rw [hterm] at ht
      obtain ⟨h1, h2⟩ := stringOk_requote ht
      rw [put_eq_write t f (by rw [hterm]; intro c hc; cases hc)]
      have hs : t.str = requote raw := by unfold Tok.str; rw [hterm]
      rw [hs]
      cases hr : requote raw with
      | nil => rw [hr] at h2; cases h2
      | cons d s =>
        rw [hr] at h1 h2
        simp only [List.head?_cons, Option.some.injEq] at h2
        subst h2
        exact good_hard h hk1 hk2 (by decide) h1
  | sign =>
    cases hterm : t.term with
    | text s => rw [hterm] at ht; exact absurd ht id
    | string s => rw [hterm] at ht; exact absurd ht id
    | rune r =>
      rw [hterm] at ht
      rw [hstr r hterm]
      refine hrune r hterm _ _ (h.put (by simp) ?_)
      intro m hm
      have hr : r = '-' ∨ r = '+' := ht
      have hm : m = .idle := by
        rcases hm with rfl | hm | hm
        · rfl
        · exfalso
          rcases hr with rfl | rfl
          · have := hm.2; revert this; decide
          · have := hm.2; revert this; decide
        · cases k <;> simp [Accept] at hk <;> cases hm
      subst hm
      rcases hr with rfl | rfl
      · exact ⟨by decide, .inl (by decide)⟩
      · exact ⟨by decide, .inl (by decide)⟩
  | dot =>
    cases hterm : t.term with
    | text s => rw [hterm] at ht; exact absurd ht id
    | string s => rw [hterm] at ht; exact absurd ht id
    | rune r =>
      rw [hterm] at ht
      have hr : r = '.' := ht
      subst hr
      rw [hstr _ hterm]
      refine hrune _ hterm _ _ (h.put (by simp) ?_)
      intro m hm
      have hm : m = .idle ∨ ∃ a, m = .ident a := by
        rcases hm with rfl | hm | hm
        · exact .inl rfl
        · exfalso; have := hm.2; revert this; decide
        · cases k <;> simp [Accept] at hk <;> cases m <;> simp_all [Bare]
      have h1 : fresh '.' = ([], .dot) := by decide
      rcases hm with rfl | ⟨a, rfl⟩
      · exact ⟨by decide, .inr (by simp [lexFrom, step, h1, after, Bare])⟩
      · have h2 : letter '.' = false := by decide
        have h3 : digit '.' = false := by decide
        simp [lexFrom, step, h2, h3, emit, h1, done, after, Bare]
  | slash =>
    cases hterm : t.term with
    | text s => rw [hterm] at ht; exact absurd ht id
    | string s => rw [hterm] at ht; exact absurd ht id
    | rune r =>
      rw [hterm] at ht
      have hr : r = '/' := ht
      subst hr
      rw [hstr _ hterm]
      refine hrune _ hterm _ _ (h.put (by simp) ?_)
      intro m hm
      have hm : m = .idle ∨ ∃ a, m = .ident a := by
        rcases hm with rfl | hm | hm
        · exact .inl rfl
        · exfalso; have := hm.2; revert this; decide
        · cases k <;> simp [Accept] at hk <;> cases m <;> simp_all [Bare]
      have h1 : fresh '/' = ([], .slash) := by decide
      rcases hm with rfl | ⟨a, rfl⟩
      · exact ⟨by decide, .inr (by simp [lexFrom, step, h1, after, Bare])⟩
      · have h2 : letter '/' = false := by decide
        have h3 : digit '/' = false := by decide
        simp [lexFrom, step, h2, h3, emit, h1, done, after, Bare]
  | ident =>
    cases hterm : t.term with
    | rune s => rw [hterm] at ht; exact absurd ht id
    | string s => rw [hterm] at ht; exact absurd ht id
    | text s =>
      rw [hterm] at ht
      rw [put_eq_write t f (by rw [hterm]; intro c hc; cases hc)]
      have hs : t.str = s := by unfold Tok.str; rw [hterm]
      rw [hs]
      cases s with
      | nil => cases ht
      | cons c s =>
        obtain ⟨hc, hr⟩ : letter c = true ∧ ∀ d ∈ s, letter d = true ∨ digit d = true := ht
        refine h.put (by simp) ?_
        intro m hm
        have hm : m = .idle ∨ m = .dot ∨ m = .slash := by
          rcases hm with rfl | hm | hm
          · exact .inl rfl
          · exfalso
            have := closer_hard hm.2
            unfold hardChar FormatWriter.firstRune at this
            simp [hc] at this
          · cases k <;> simp [Accept] at hk <;> cases m <;> simp_all [Bare]
        obtain ⟨c1, c2, c3, c4⟩ := letter_class hc
        have hf : fresh c = ([], .ident [c]) := by unfold fresh; simp [c1, hc]
        have hstep : step m c = (done m, .ident [c]) := by
          rcases hm with rfl | rfl | rfl
          · exact hf
          · simp [step, c2, emit, hf, done]
          · simp [step, c3, c4, emit, hf, done]
        simp only [lexFrom, hstep]
        rw [lexFrom_ident s hr]
        exact ⟨by simp [done], .inr (by simp [after, Bare])⟩
  | num =>
    cases hterm : t.term with
    | rune s => rw [hterm] at ht; exact absurd ht id
    | string s => rw [hterm] at ht; exact absurd ht id
    | text s =>
      rw [hterm] at ht
      rw [put_eq_write t f (by rw [hterm]; intro c hc; cases hc)]
      have hs : t.str = s := by unfold Tok.str; rw [hterm]
      rw [hs]
      cases s with
      | nil => cases ht
      | cons c s =>
        refine h.put (by simp) ?_
        intro m hm
        have hnc : closer c = false := by
          by_contra hcl
          have := closer_hard (Bool.not_eq_false _ ▸ hcl)
          unfold hardChar at this
          rcases ht with ht | ht
          · simp [ht.1] at this
          · simp [ht.1] at this
        have hm : m = .idle := by
          rcases hm with rfl | hm | hm
          · rfl
          · exfalso
            have h1 : closer c = true := hm.2
            rw [hnc] at h1; cases h1
          · cases k <;> simp [Accept] at hk <;> cases hm
        subst hm
        have hl : lexFrom .idle (c :: s) = ([], .num (c :: s)) := by
          rcases ht with ⟨h1, h2⟩ | ⟨h1, h2⟩
          · obtain ⟨c1, c2⟩ := digit_class h1
            have hf : step .idle c = ([], .num [c]) := by show fresh c = _; unfold fresh; simp [c1, c2, h1]
            simp only [lexFrom, hf]
            rw [lexFrom_num s _ h2]
            simp
          · subst h1
            cases s with
            | nil => cases h2
            | cons d s =>
              have hf : step .idle '.' = ([], .dot) := by decide
              have hd : step .dot d = ([], .num ['.', d]) := by simp [step, h2.1]
              simp only [lexFrom, hf, hd]
              rw [lexFrom_num s _ h2.2]
              simp
        rw [hl]
        exact ⟨by simp [done], .inr (by simp [after, Bare, Clean])⟩

/-! ### Comments -/

theorem commentOk_inline {c : Comment} (h : CommentOk c) : IsBlock (InlineComment.inlineText c.text) := by
  rcases h with h | ⟨r, h1, h2, h3⟩
  · exact (InlineComment.C44_block _ h).1
  · rw [h1]; exact (InlineComment.C44_line_partial r h3 h2).1

theorem good_block {f : F} {ts : List Str} {k : K} (h : Good b f ts k) (hk : k ≠ .slash) (hk' : k ≠ .eol) {s : Str}
    (hs : IsBlock s) : Good b (put s f) ts .idle := by
  have hne : s ≠ [] := by obtain ⟨r, rfl, _⟩ := hs; simp
  have := h.put hne (new := []) (k' := .idle) ?_
  · rwa [List.append_nil] at this
  · intro m hm
    have hcl : Clean m := by
      rcases hm with rfl | h | h
      · trivial
      · exact h.1
      · cases k <;> cases m <;> simp_all [Bare, Clean]
    rw [lexFrom_isBlock hcl hs]
    exact ⟨by simp [done], .inl rfl⟩

theorem emits_inlineLoop {k : K} (hk : k ≠ .slash) (hk' : k ≠ .eol) (cs : List Comment) (h : ∀ c ∈ cs, CommentOk c) :
    ∀ i, Emits b (fun f => { f with w := InlineComment.writeLoop i f.w cs }) k [] k := by
  induction cs with
  | nil => intro i; exact Emits.id k
  | cons c cs ih =>
    intro i
    have h1 : Emits b (fun f => { f with w := InlineComment.writeOne i f.w c }) k [] k := by
      intro f ts hf
      rw [List.append_nil]
      beta_reduce
      by_cases hv : c.virtual = true
      · have : InlineComment.writeOne i f.w c = f.w := by unfold InlineComment.writeOne; rw [if_pos hv]
        rw [this]; exact hf
      · have hb := commentOk_inline (h c List.mem_cons_self)
        by_cases hsp : i > 0 ∨ c.leadingWhitespace ≠ [] ∨ f.w.last = ';' ∨ f.w.last = '}'
        · have : ({ f with w := InlineComment.writeOne i f.w c } : F) = put (InlineComment.inlineText c.text) (space f) := by
            unfold InlineComment.writeOne; rw [if_neg hv, if_pos hsp]; rfl
          rw [this]
          have hs : Good b (space f) ts k := by have := emits_space k f ts hf; rwa [List.append_nil] at this
          exact (good_block hs hk hk' hb).idle k
        · have : ({ f with w := InlineComment.writeOne i f.w c } : F) = put (InlineComment.inlineText c.text) f := by
            unfold InlineComment.writeOne; rw [if_neg hv, if_neg hsp]; rfl
          rw [this]
          exact (good_block hf hk hk' hb).idle k
    exact (h1.comp (ih (fun c hc => h c (List.mem_cons_of_mem _ hc)) (i + 1))).fn (fun f => rfl)

theorem emits_inlineComments {k : K} (hk : k ≠ .slash) (hk' : k ≠ .eol) {cs : List Comment} (h : CommentsOk cs) :
    Emits b (inlineComments cs) k [] k := emits_inlineLoop hk hk' cs h.each 0

end Verif.Formatter
