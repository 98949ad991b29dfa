import Verif.Model.FormatWriter
/-!
# Properties of the low-level operations of the formatter: C46
-/
namespace Verif.FormatWriter

/-- Specification: a text without its white space. -/
def ink (s : Str) : Str := s.filter fun c => !isSpace c

/-- Specification: the text that an operation is asked to write. -/
def asked : Op → Str
  | .write s => s
  | .line s => s
  | .rune c => [c]
  | _ => []

theorem ink_append (a b : Str) : ink (a ++ b) = ink a ++ ink b := List.filter_append ..

theorem ink_space (st : St) (e : Str) : ink (spaceFor st e) = [] := by
  unfold spaceFor
  split
  · decide
  · rfl

theorem ink_write (st : St) (e : Str) : ink (write st e).out = ink st.out ++ ink e := by
  unfold write
  simp only [ink_append, ink_space, List.append_nil]

theorem ink_replicate (n : Nat) : ink (List.replicate n ' ') = [] := by
  induction n with
  | zero => rfl
  | succ n ih =>
    have : ink (' ' :: List.replicate n ' ') = ink [' '] ++ ink (List.replicate n ' ') := ink_append [' '] _
    rw [List.replicate_succ, this, ih]
    decide

theorem ink_indentation (st : St) (n : Option Char) : ink (indentation st n).out = ink st.out := by
  unfold indentation
  split
  · rfl
  · rw [ink_write, ink_replicate, List.append_nil]

theorem decr_out (st : St) : (decr st).out = st.out := by
  unfold decr
  split <;> rfl

theorem settle_out (st : St) : (settle st).out = st.out := by
  unfold settle
  simp only
  split
  · rfl
  · split
    · exact decr_out st
    · rfl

theorem ink_blank (s : Str) (h : trimSpace s = []) : ink s = [] := by
  unfold ink
  rw [← filter_trimSpace, h]
  rfl

theorem trim_nil : trimSpace [] = [] := rfl

theorem ink_P (st : St) (e : Str) : ink (P st e).out = ink st.out ++ ink e := by
  unfold P
  rw [settle_out, ink_write]
  have : ink ['\n'] = [] := by decide
  rw [this, List.append_nil]
  split
  · rename_i h
    rw [ink_blank e h, List.append_nil]
  · rw [ink_write, ink_indentation]

/-- **C46** (part): without its white space, the output consists of the written texts, in order. -/
theorem C46_content (ops : List Op) : ∀ (st : St), ink (run st ops).out = ink st.out ++ ink (ops.flatMap asked) := by
  induction ops with
  | nil => intro st; exact (List.append_nil _).symm
  | cons op ops ih =>
    intro st
    show ink (run (apply st op) ops).out = _
    rw [ih, List.flatMap_cons, ink_append, ← List.append_assoc]
    congr 1
    cases op with
    | write s => exact ink_write st s
    | space => exact (List.append_nil _).symm
    | line s => exact ink_P st s
    | incr => exact (List.append_nil _).symm
    | decr => simp only [apply, decr_out, asked]; exact (List.append_nil _).symm
    | indentation n => simp only [apply, ink_indentation, asked]; exact (List.append_nil _).symm
    | rune c => exact ink_write _ [c]
    | inline b => exact (List.append_nil _).symm

/-- Specification: the characters that do not get a space before them, or after them. -/
def NoSpaceBefore (inline : Bool) (c : Char) : Prop :=
  c = '\n' ∨ c = ';' ∨ c = ',' ∨ (inline = true ∧ (c = ')' ∨ c = ']' ∨ c = '}' ∨ c = '>'))
def NoSpaceAfter (inline : Bool) (c : Char) : Prop :=
  c = '\x00' ∨ c = ' ' ∨ c = '\t' ∨ c = '\n' ∨ (inline = true ∧ (c = '<' ∨ c = '[' ∨ c = '{' ∨ c = '('))

theorem nextBlock_iff (b : Bool) (c : Char) : nextBlock b c = true ↔ NoSpaceBefore b c := by
  unfold nextBlock NoSpaceBefore
  cases b <;> simp

theorem prevBlock_iff (b : Bool) (c : Char) : prevBlock b c = true ↔ NoSpaceAfter b c := by
  unfold prevBlock NoSpaceAfter
  cases b <;> simp

/-- **C46** (part): a text is written verbatim, after a space exactly if one is pending and neither the
character before nor the one after forbids it. -/
theorem C46_write (st : St) (c : Char) (t : Str) :
    ((st.pendingSpace = true ∧ ¬ NoSpaceAfter st.inline st.last ∧ ¬ NoSpaceBefore st.inline c) →
      (write st (c :: t)).out = st.out ++ ' ' :: c :: t) ∧
    (¬ (st.pendingSpace = true ∧ ¬ NoSpaceAfter st.inline st.last ∧ ¬ NoSpaceBefore st.inline c) →
      (write st (c :: t)).out = st.out ++ c :: t) := by
  have key : (st.pendingSpace && !prevBlock st.inline st.last && !nextBlock st.inline (firstRune (c :: t))) = true ↔
      (st.pendingSpace = true ∧ ¬ NoSpaceAfter st.inline st.last ∧ ¬ NoSpaceBefore st.inline c) := by
    rw [← nextBlock_iff, ← prevBlock_iff]
    simp [firstRune, and_assoc]
  constructor
  · intro h
    unfold write spaceFor
    simp only
    rw [if_pos (key.2 h)]
    simp
  · intro h
    unfold write spaceFor
    simp only
    rw [if_neg (fun hh => h (key.1 hh))]
    simp

/-! ### Dangling spaces -/

/-- Specification: a space in front of a line break, a semicolon or a comma. -/
def Dangling (s : Str) : Prop := ∃ a c b, s = a ++ ' ' :: c :: b ∧ (c = '\n' ∨ c = ';' ∨ c = ',')

/-- Specification: a token: not empty, without spaces. -/
def Token (s : Str) : Prop := s ≠ [] ∧ ' ' ∉ s
/-- Specification: a token that may follow the indentation of a line. -/
def Start (s : Str) : Prop := Token s ∧ ∀ c, s.head? = some c → c ≠ '\n' ∧ c ≠ ';' ∧ c ≠ ','

/-- Specification: a sequence of operations that writes tokens; the indentation is only written in front
of a token. -/
inductive Good : List Op → Prop where
  | nil : Good []
  | write (s : Str) (ops : List Op) : Token s → Good ops → Good (.write s :: ops)
  | space (ops : List Op) : Good ops → Good (.space :: ops)
  | newline (ops : List Op) : Good ops → Good (.line [] :: ops)
  | line (s : Str) (ops : List Op) : Start s → Good ops → Good (.line s :: ops)
  | incr (ops : List Op) : Good ops → Good (.incr :: ops)
  | decr (ops : List Op) : Good ops → Good (.decr :: ops)
  | indentation (n : Option Char) (s : Str) (ops : List Op) : Start s → Good ops →
      Good (.indentation n :: .write s :: ops)
  | indentationRune (n : Option Char) (c : Char) (ops : List Op) : Start [c] → Good ops →
      Good (.indentation n :: .rune c :: ops)
  | rune (c : Char) (ops : List Op) : c ≠ ' ' → Good ops → Good (.rune c :: ops)
  | inline (b : Bool) (ops : List Op) : Good ops → Good (.inline b :: ops)

/-- Neither dangling spaces nor a space at the end. -/
structure Clean (s : Str) : Prop where
  dangling : ¬ Dangling s
  last : s.getLast? ≠ some ' '

theorem cons_eq_append {c : Char} {s a : Str} {x : Char} {b : Str} (h : c :: s = a ++ x :: b) :
    (a = [] ∧ c = x ∧ s = b) ∨ ∃ a', a = c :: a' ∧ s = a' ++ x :: b := by
  cases a with
  | nil =>
    obtain ⟨h1, h2⟩ := List.cons.inj h
    exact .inl ⟨rfl, h1, h2⟩
  | cons d a' =>
    obtain ⟨h1, h2⟩ := List.cons.inj h
    exact .inr ⟨a', by rw [h1], h2⟩

/-- Appending a token after some spaces. -/
theorem clean_append (s sp t : Str) (hs : Clean s) (hsp : ∀ c ∈ sp, c = ' ') (ht : Token t)
    (hh : sp ≠ [] → ∀ c, t.head? = some c → c ≠ '\n' ∧ c ≠ ';' ∧ c ≠ ',') : Clean (s ++ sp ++ t) := by
  constructor
  · rintro ⟨a, c, b, he, hc⟩
    have hcs : c ≠ ' ' := by rcases hc with rfl | rfl | rfl <;> decide
    -- where is the space?
    rw [List.append_assoc] at he
    rcases List.append_eq_append_iff.1 he with ⟨w, h1, h2⟩ | ⟨w, h1, h2⟩
    · -- the space is after `s`
      rcases List.append_eq_append_iff.1 h2 with ⟨w', h3, h4⟩ | ⟨w', h3, h4⟩
      · -- the space is in the token
        exact ht.2 (by rw [h4]; simp)
      · match w', h3, h4 with
        | [], h3, h4 =>
          rw [List.nil_append] at h4
          exact ht.2 (by rw [← h4]; simp)
        | x :: w', h3, h4 =>
          obtain ⟨_, h4⟩ := List.cons.inj h4
          match w', h3, h4 with
          | [], h3, h4 =>
            have h4 : c :: b = t := h4
            have := hh (by rw [h3]; simp) c (by rw [← h4]; rfl)
            rcases hc with hc | hc | hc
            · exact this.1 hc
            · exact this.2.1 hc
            · exact this.2.2 hc
          | y :: w', h3, h4 =>
            obtain ⟨h5, _⟩ := List.cons.inj h4
            exact hcs (h5.trans (hsp y (by rw [h3]; simp)))
    · -- the space is in `s` or just after it
      match w, h1, h2 with
      | [], h1, h2 =>
        rw [List.append_nil] at h1
        rw [List.nil_append] at h2
        cases sp with
        | nil => exact ht.2 (by rw [List.nil_append] at h2; rw [← h2]; simp)
        | cons x sp =>
          rw [List.cons_append] at h2
          obtain ⟨_, h2⟩ := List.cons.inj h2
          cases sp with
          | nil =>
            rw [List.nil_append] at h2
            have := hh (by simp) c (by rw [← h2]; rfl)
            rcases hc with hc | hc | hc
            · exact this.1 hc
            · exact this.2.1 hc
            · exact this.2.2 hc
          | cons y sp =>
            rw [List.cons_append] at h2
            obtain ⟨h5, _⟩ := List.cons.inj h2
            exact hcs (h5.trans (hsp y (by simp)))
      | [x], h1, h2 =>
        obtain ⟨hx, _⟩ := List.cons.inj h2
        refine hs.last ?_
        rw [h1, ← hx, List.getLast?_append]
        rfl
      | x :: y :: w, h1, h2 =>
        obtain ⟨hx, h2⟩ := List.cons.inj h2
        obtain ⟨hy, _⟩ := List.cons.inj h2
        exact hs.dangling ⟨a, c, w, by rw [h1, ← hx, ← hy], hc⟩
  · intro h
    rw [List.getLast?_append] at h
    obtain ⟨x, hx⟩ : ∃ x, t.getLast? = some x := by
      cases hl : t.getLast? with
      | none => exact absurd (List.getLast?_eq_none_iff.1 hl) ht.1
      | some x => exact ⟨x, rfl⟩
    rw [hx] at h
    cases h
    exact ht.2 (List.mem_of_getLast? hx)

theorem spaceFor_spaces (st : St) (e : Str) : ∀ c ∈ spaceFor st e, c = ' ' := by
  unfold spaceFor
  split
  · intro c hc; exact List.mem_singleton.1 hc
  · intro c hc; cases hc

theorem spaceFor_head (st : St) (e : Str) (h : spaceFor st e ≠ []) (c : Char) (hc : e.head? = some c) :
    c ≠ '\n' ∧ c ≠ ';' ∧ c ≠ ',' := by
  unfold spaceFor at h
  split at h
  · rename_i hh
    simp only [Bool.and_eq_true, Bool.not_eq_true'] at hh
    have h2 := hh.2
    have hf : firstRune e = c := by
      cases e with
      | nil => cases hc
      | cons d t => cases hc; rfl
    rw [hf] at h2
    have : ¬ NoSpaceBefore st.inline c := by rw [← nextBlock_iff, h2]; simp
    exact ⟨fun h => this (.inl h), fun h => this (.inr (.inl h)), fun h => this (.inr (.inr (.inl h)))⟩
  · exact absurd rfl h

theorem clean_write (st : St) (t : Str) (hs : Clean st.out) (ht : Token t) : Clean (write st t).out :=
  clean_append st.out (spaceFor st t) t hs (spaceFor_spaces st t) ht (spaceFor_head st t)

theorem indentation_out (st : St) (n : Option Char) :
    ∃ k, (indentation st n).out = st.out ++ List.replicate k ' ' := by
  unfold indentation
  split
  · exact ⟨0, by simp⟩
  · rename_i h
    have hl : st.last = '\n' := Classical.not_not.1 h
    have hp : prevBlock st.inline '\n' = true := by rw [prevBlock_iff]; exact .inr (.inr (.inr (.inl rfl)))
    unfold write spaceFor
    simp only [hl, hp]
    exact ⟨_, by simp; rfl⟩

theorem clean_indented (st : St) (n : Option Char) (f : St → St) (t : Str) (hs : Clean st.out) (ht : Start t)
    (hf : ∀ s, (f s).out = s.out) : Clean (write (f (indentation st n)) t).out := by
  obtain ⟨k, hk⟩ := indentation_out st n
  show Clean ((f (indentation st n)).out ++ spaceFor (f (indentation st n)) t ++ t)
  rw [hf, hk, List.append_assoc]
  rw [List.append_assoc, ← List.append_assoc (List.replicate k ' '), ← List.append_assoc]
  refine clean_append st.out _ t hs ?_ ht.1 (fun _ => ht.2)
  intro c hc
  rcases List.mem_append.1 hc with h | h
  · exact List.eq_of_mem_replicate h
  · exact spaceFor_spaces _ _ c h

theorem clean_newline (st : St) (hs : Clean st.out) : Clean (write st ['\n']).out :=
  clean_write st ['\n'] hs ⟨by simp, by decide⟩

theorem clean_blank_line (st : St) (s : Str) (hb : trimSpace s = []) : Clean st.out → Clean (P st s).out := by
  intro hs
  unfold P
  rw [settle_out, if_pos hb]
  exact clean_newline st hs

/-- **C46** (partial): as long as only non-empty texts without spaces are written, and the indentation
only in front of such a text, no space ends up in front of a line break, a semicolon or a comma. Missing:
empty texts, for which the property fails (`C46_dangling_violated`). -/
theorem C46_dangling_partial (ops : List Op) (h : Good ops) : ∀ (st : St), Clean st.out → Clean (run st ops).out := by
  induction h with
  | nil => intro st hs; exact hs
  | write s ops ht _ ih => intro st hs; exact ih _ (clean_write st s hs ht)
  | space ops _ ih => intro st hs; exact ih _ hs
  | newline ops _ ih =>
    intro st hs
    refine ih _ ?_
    show Clean (P st []).out
    unfold P
    rw [settle_out, if_pos trim_nil]
    exact clean_newline st hs
  | line s ops ht _ ih =>
    intro st hs
    refine ih _ ?_
    show Clean (P st s).out
    by_cases hb : trimSpace s = []
    · exact clean_blank_line st s hb hs
    · unfold P
      rw [settle_out, if_neg hb]
      exact clean_newline _ (clean_indented st none id s hs ht (fun _ => rfl))
  | incr ops _ ih => intro st hs; exact ih _ hs
  | decr ops _ ih =>
    intro st hs
    refine ih _ ?_
    show Clean (decr st).out
    rw [decr_out]
    exact hs
  | indentation n s ops ht _ ih =>
    intro st hs
    exact ih _ (clean_indented st n id s hs ht (fun _ => rfl))
  | indentationRune n c ops ht _ ih =>
    intro st hs
    exact ih _ (clean_indented st n (fun s => { s with pendingIndent := s.pendingIndent + weight c }) [c] hs ht
      (fun _ => rfl))
  | rune c ops hc _ ih =>
    intro st hs
    exact ih _ (clean_write _ [c] hs ⟨by simp, by simpa using fun h => hc h.symm⟩)
  | inline b ops _ ih => intro st hs; exact ih _ hs

example : Good [.write ['a'], .space, .rune '=', .space, .rune ';', .space, .line []] ∧
    (run {} [.write ['a'], .space, .rune '=', .space, .rune ';', .space, .line []]).out = "a =;\n".toList :=
  ⟨.write _ _ ⟨by simp, by decide⟩ (.space _ (.rune _ _ (by decide) (.space _ (.rune _ _ (by decide)
    (.space _ (.newline _ .nil)))))), by decide⟩

example : Clean ([] : Str) := ⟨(by rintro ⟨a, c, b, h, _⟩; cases a <;> cases h), (by simp)⟩

/-- The code violates C46: writing an empty text turns a pending space into a space, which may then be
followed by a line break. -/
theorem C46_dangling_violated :
    (run {} [.write ['a'], .space, .write [], .line []]).out = "a \n".toList := by decide

/-! ### Indentation -/

/-- Specification: an operation within a line. -/
def InLine : Op → Prop
  | .write _ | .space | .indentation _ | .rune _ | .inline _ => True
  | _ => False

/-- Specification: opening brackets minus closing brackets. -/
def net : List Op → Int
  | [] => 0
  | .rune c :: ops =>
    (if c = '{' ∨ c = '[' ∨ c = '(' ∨ c = '<' then 1
     else if c = '}' ∨ c = ']' ∨ c = ')' ∨ c = '>' then -1 else 0) + net ops
  | _ :: ops => net ops

/-- The change of the indentation by a line. -/
def sign (n : Int) : Int := if n > 0 then 1 else if n < 0 then -1 else 0

theorem weight_eq (c : Char) : weight c = if c = '{' ∨ c = '[' ∨ c = '(' ∨ c = '<' then 1
     else if c = '}' ∨ c = ']' ∨ c = ')' ∨ c = '>' then -1 else 0 := by
  unfold weight
  simp

theorem indentation_state (st : St) (n : Option Char) :
    (indentation st n).indent = st.indent ∧ (indentation st n).pendingIndent = st.pendingIndent ∧
    (indentation st n).failed = st.failed := by
  unfold indentation
  split
  · exact ⟨rfl, rfl, rfl⟩
  · exact ⟨rfl, rfl, rfl⟩

theorem run_line (ops : List Op) (h : ∀ op ∈ ops, InLine op) : ∀ st : St,
    (run st ops).indent = st.indent ∧ (run st ops).pendingIndent = st.pendingIndent + net ops ∧
    (run st ops).failed = st.failed := by
  induction ops with
  | nil => intro st; exact ⟨rfl, (Int.add_zero _).symm, rfl⟩
  | cons op ops ih =>
    intro st
    obtain ⟨h1, h2, h3⟩ := ih (fun o ho => h o (List.mem_cons_of_mem _ ho)) (apply st op)
    have hop := h op List.mem_cons_self
    show (run (apply st op) ops).indent = _ ∧ (run (apply st op) ops).pendingIndent = _ ∧
      (run (apply st op) ops).failed = _
    rw [h1, h2, h3]
    cases op with
    | write s => exact ⟨rfl, rfl, rfl⟩
    | space => exact ⟨rfl, rfl, rfl⟩
    | line s => exact hop.elim
    | incr => exact hop.elim
    | decr => exact hop.elim
    | indentation n =>
      obtain ⟨e1, e2, e3⟩ := indentation_state st n
      exact ⟨e1, by show (indentation st n).pendingIndent + _ = _; rw [e2]; rfl, e3⟩
    | rune c =>
      refine ⟨rfl, ?_, rfl⟩
      show st.pendingIndent + weight c + net ops = _
      rw [weight_eq, Int.add_assoc]
      rfl
    | inline b => exact ⟨rfl, rfl, rfl⟩

theorem settle_state (st : St) (h : 0 ≤ (st.indent : Int) + sign st.pendingIndent) :
    ((settle st).indent : Int) = st.indent + sign st.pendingIndent ∧ (settle st).pendingIndent = 0 ∧
    (settle st).failed = st.failed := by
  unfold settle
  unfold sign at *
  by_cases h1 : st.pendingIndent > 0
  · simp only [if_pos h1]
    refine ⟨?_, trivial, rfl⟩
    simp [incr]
  · simp only [if_neg h1] at *
    by_cases h2 : st.pendingIndent < 0
    · simp only [if_pos h2] at *
      have hi : st.indent ≠ 0 := by omega
      simp only [decr, hi, if_false]
      refine ⟨?_, trivial, trivial⟩
      omega
    · simp only [if_neg h2]
      simp

/-- The indentation after the end of a line. -/
theorem P_state (st : St) (h : 0 ≤ (st.indent : Int) + sign st.pendingIndent) :
    ((P st []).indent : Int) = st.indent + sign st.pendingIndent ∧ (P st []).pendingIndent = 0 ∧
    (P st []).failed = st.failed := by
  unfold P
  rw [if_pos trim_nil]
  exact settle_state (write st ['\n']) h

/-- The indentation after some lines: the sum of the changes. -/
def levels : Int → List (List Op) → Int
  | n, [] => n
  | n, l :: ls => levels (n + sign (net l)) ls

/-- No line starts on a negative level. -/
def Nonneg : Int → List (List Op) → Prop
  | n, [] => 0 ≤ n
  | n, l :: ls => 0 ≤ n ∧ Nonneg (n + sign (net l)) ls

/-- The operations for some lines. -/
def lines (ls : List (List Op)) : List Op := ls.flatMap fun l => l ++ [.line []]

theorem nonneg_head (n : Int) (ls : List (List Op)) (h : Nonneg n ls) : 0 ≤ n := by
  cases ls with
  | nil => exact h
  | cons l ls => exact h.1

/-- **C46** (part): every line changes the indentation by at most one level, in the direction of its
brackets. -/
theorem C46_levels (ls : List (List Op)) (hl : ∀ l ∈ ls, ∀ op ∈ l, InLine op) : ∀ (st : St),
    st.pendingIndent = 0 → Nonneg st.indent ls →
    ((run st (lines ls)).indent : Int) = levels st.indent ls ∧ (run st (lines ls)).failed = st.failed := by
  induction ls with
  | nil => intro st _ _; exact ⟨rfl, rfl⟩
  | cons l ls ih =>
    intro st hp hn
    obtain ⟨h1, h2, h3⟩ := run_line l (hl l List.mem_cons_self) st
    rw [hp, Int.zero_add] at h2
    have hstep : run st (lines (l :: ls)) = run (P (run st l) []) (lines ls) := by
      unfold lines run
      rw [List.flatMap_cons, List.foldl_append, List.foldl_append]
      rfl
    rw [hstep]
    have hn' := nonneg_head _ _ hn.2
    obtain ⟨p1, p2, p3⟩ := P_state (run st l) (by rw [h1, h2]; exact hn')
    rw [h1, h2] at p1
    have := ih (fun m hm => hl m (List.mem_cons_of_mem _ hm)) (P (run st l) []) p2 (by rw [p1]; exact hn.2)
    rw [p1, p3, h3] at this
    exact this

theorem net_append (a b : List Op) : net (a ++ b) = net a + net b := by
  induction a with
  | nil => simp [net]
  | cons op a ih =>
    cases op <;> simp only [List.cons_append, net, ih]
    omega

theorem levels_net (ls : List (List Op)) (h : ∀ l ∈ ls, -1 ≤ net l ∧ net l ≤ 1) :
    ∀ n, levels n ls = n + net (ls.flatMap id) := by
  induction ls with
  | nil => intro n; simp [levels, net]
  | cons l ls ih =>
    intro n
    have hl := h l List.mem_cons_self
    simp only [levels, List.flatMap_cons, id, net_append]
    rw [ih (fun m hm => h m (List.mem_cons_of_mem _ hm))]
    have : sign (net l) = net l := by
      unfold sign
      split
      · omega
      · split <;> omega
    rw [this, Int.add_assoc]

/-- **C46** (partial): if no line opens or closes more than one bracket in sum, the indentation returns to
its value after balanced brackets, and no error is reported. Missing: lines with more brackets, for which
the property fails (`C46_indent_violated`). -/
theorem C46_indent_partial (ls : List (List Op)) (hl : ∀ l ∈ ls, ∀ op ∈ l, InLine op)
    (h1 : ∀ l ∈ ls, -1 ≤ net l ∧ net l ≤ 1) (hb : net (ls.flatMap id) = 0) (st : St) (hp : st.pendingIndent = 0)
    (hn : Nonneg st.indent ls) : (run st (lines ls)).indent = st.indent ∧ (run st (lines ls)).failed = st.failed := by
  obtain ⟨h2, h3⟩ := C46_levels ls hl st hp hn
  rw [levels_net ls h1, hb] at h2
  exact ⟨by omega, h3⟩

/-- `m {` / `a = [ 1 ]` / `}` -/
def sampleLines : List (List Op) :=
  [[.write ['m'], .space, .rune '{'], [.indentation none, .write ['a'], .rune '=', .rune '[', .write ['1'], .rune ']'],
    [.indentation (some '}'), .rune '}']]

example : (∀ l ∈ sampleLines, ∀ op ∈ l, InLine op) ∧ (∀ l ∈ sampleLines, -1 ≤ net l ∧ net l ≤ 1) ∧
    net (sampleLines.flatMap id) = 0 ∧ Nonneg 0 sampleLines ∧
    (run {} (lines sampleLines)).out = "m {\n  a=[1]\n}\n".toList := by
  refine ⟨?_, by decide, by decide, ?_, by decide⟩
  · intro l hl op hop
    simp only [sampleLines, List.mem_cons, List.not_mem_nil, or_false] at hl
    rcases hl with rfl | rfl | rfl <;> simp only [List.mem_cons, List.not_mem_nil, or_false] at hop <;>
      rcases hop with rfl | rfl | rfl | rfl | rfl | rfl <;> trivial
  · simp only [sampleLines, Nonneg]; decide

/-- The code violates C46: after a line that opens two brackets that are closed on different lines, the
indentation is decremented too often; an error is reported. -/
theorem C46_indent_violated :
    (run {} (lines [[.rune '(', .rune '{'], [.rune '}'], [.rune ')']])).failed = true ∧
    net ([[Op.rune '(', .rune '{'], [.rune '}'], [.rune ')']].flatMap id) = 0 := by decide

/-- A closing bracket. -/
def Closing (next : Option Char) : Prop := next = some '}' ∨ next = some ']' ∨ next = some ')' ∨ next = some '>'

instance (next : Option Char) : Decidable (Closing next) := by unfold Closing; infer_instance

theorem settle_end (st : St) : (settle st).last = st.last ∧ (settle st).pendingSpace = st.pendingSpace := by
  unfold settle incr decr
  split
  · exact ⟨rfl, rfl⟩
  · split
    · split <;> exact ⟨rfl, rfl⟩
    · exact ⟨rfl, rfl⟩

theorem lines_end (ls : List (List Op)) (h : ls ≠ []) (st : St) :
    (run st (lines ls)).last = '\n' ∧ (run st (lines ls)).pendingSpace = false := by
  obtain ⟨init, l, rfl⟩ := List.eq_nil_or_concat ls |>.resolve_left h
  have : run st (lines (init.concat l)) = P (run (run st (lines init)) l) [] := by
    simp [lines, run, apply]
  rw [this]
  unfold P
  rw [if_pos trim_nil]
  exact settle_end _

/-- **C46** (part): a new line starts with two spaces for every level, one level less in front of a closing bracket, and
then the text. -/
theorem C46_margin (ls : List (List Op)) (h : ls ≠ []) (hl : ∀ l ∈ ls, ∀ op ∈ l, InLine op) (st : St) (hp : st.pendingIndent = 0)
    (hn : Nonneg st.indent ls) (next : Option Char) (t : Str) :
    (run st (lines ls ++ [.indentation next, .write t])).out = (run st (lines ls)).out ++
      List.replicate (2 * (levels st.indent ls - if Closing next then 1 else 0).toNat) ' ' ++ t := by
  obtain ⟨h1, _⟩ := C46_levels ls hl st hp hn
  obtain ⟨h2, h3⟩ := lines_end ls h st
  have hrun : run st (lines ls ++ [.indentation next, .write t]) = write (indentation (run st (lines ls)) next) t := by
    simp [run, apply]
  rw [hrun]
  generalize run st (lines ls) = s at *
  rw [← h1]
  unfold indentation
  rw [if_neg (by simp [h2])]
  have hw : ∀ n, (write (write s (List.replicate (2 * n) ' ')) t).out = s.out ++ List.replicate (2 * n) ' ' ++ t := by
    intro n
    simp [write, spaceFor, h3]
  rw [hw]
  congr 4
  cases next with
  | none => simp [Closing]
  | some c =>
    simp only [List.contains_eq_mem, List.mem_cons, List.not_mem_nil, or_false, decide_eq_true_eq, Closing, Option.some.injEq]
    split <;> omega

example : (run {} (lines [[.write ['m'], .space, .rune '{']] ++ [.indentation none, .write ['a']])).out = "m {\n  a".toList := by
  decide

/-! ### The last character -/

/-- Specification: the last character of a text, if it has one. -/
def lastChar (s : Str) : Char := s.getLast?.getD '\x00'

theorem last_write (st : St) (e : Str) (h : st.last = lastChar st.out) (he : e ≠ [] ∨ spaceFor st e = []) :
    (write st e).last = lastChar (write st e).out := by
  show e.getLast?.getD st.last = lastChar (st.out ++ spaceFor st e ++ e)
  by_cases hne : e = []
  · subst hne
    rcases he with he | he
    · exact absurd rfl he
    · rw [he, List.append_nil, List.append_nil]; exact h
  · unfold lastChar
    rw [List.getLast?_append, List.getLast?_eq_some_getLast hne]
    rfl

/-- Specification: an operation that does not write an empty text. -/
def NonEmpty : Op → Prop
  | .write s => s ≠ []
  | _ => True

theorem last_indentation (st : St) (n : Option Char) (h : st.last = lastChar st.out) :
    (indentation st n).last = lastChar (indentation st n).out := by
  unfold indentation
  split
  · exact h
  · rename_i hl
    refine last_write st _ h (.inr ?_)
    unfold spaceFor prevBlock
    rw [Decidable.byContradiction hl]
    cases st.inline <;> simp

theorem last_settle (st : St) (h : st.last = lastChar st.out) : (settle st).last = lastChar (settle st).out := by
  unfold settle incr decr
  repeat' split
  all_goals exact h

theorem last_apply (st : St) (op : Op) (hop : NonEmpty op) (h : st.last = lastChar st.out) :
    (apply st op).last = lastChar (apply st op).out := by
  cases op with
  | write s => exact last_write st s h (.inl hop)
  | space => exact h
  | line s =>
    show (P st s).last = lastChar (P st s).out
    unfold P
    refine last_settle _ (last_write _ _ ?_ (.inl (by simp)))
    split
    · exact h
    · rename_i ht
      refine last_write _ _ (last_indentation st none h) (.inl ?_)
      intro hs; subst hs; exact ht trim_nil
  | incr => exact h
  | decr => show (decr st).last = lastChar (decr st).out; unfold decr; split <;> exact h
  | indentation n => exact last_indentation st n h
  | rune c => exact last_write { st with pendingIndent := st.pendingIndent + weight c } [c] h (.inl (by simp))
  | inline b => exact h

/-- **C46** (part): the decision about a pending space is made with the character that was really written last: as
long as no empty text is written, the formatter knows the last character of its output. -/
theorem C46_last (ops : List Op) (h : ∀ op ∈ ops, NonEmpty op) : ∀ (st : St), st.last = lastChar st.out →
    (run st ops).last = lastChar (run st ops).out := by
  induction ops with
  | nil => intro st hs; exact hs
  | cons op ops ih =>
    intro st hs
    exact ih (fun o ho => h o (List.mem_cons_of_mem _ ho)) _ (last_apply st op (h op List.mem_cons_self) hs)

example : (∀ op ∈ [Op.write "ab".toList, .space, .rune '{', .line []], NonEmpty op) ∧
    (run {} [.write "ab".toList, .space, .rune '{', .line []]).out = "ab {\n".toList := by
  refine ⟨?_, by decide⟩
  simp [NonEmpty]

/-! ### Tokens -/

/-- Specification: a text that consists of the given tokens with white space before, between and after
them. -/
inductive Spread : List Str → Str → Prop where
  | nil (w : Str) : Blank w → Spread [] w
  | cons (w t : Str) (ts : List Str) (s : Str) : Blank w → Spread ts s → Spread (t :: ts) (w ++ t ++ s)

/-- Specification: the tokens that an operation is asked to write. -/
def tokens : Op → List Str
  | .write s => [s]
  | .line s => if trimSpace s = [] then [] else [s]
  | .rune c => [[c]]
  | _ => []

theorem spread_blank {w : Str} {ts : List Str} {s : Str} (hw : Blank w) (h : Spread ts s) : Spread ts (w ++ s) := by
  cases h with
  | nil v hv => exact .nil _ (blank_append hw hv)
  | cons v t ts s hv hs =>
    have : w ++ (v ++ t ++ s) = (w ++ v) ++ t ++ s := by simp
    rw [this]
    exact .cons _ _ _ _ (blank_append hw hv) hs

theorem spread_append {ts : List Str} {s : Str} (h : Spread ts s) {us : List Str} {r : Str} (hr : Spread us r) :
    Spread (ts ++ us) (s ++ r) := by
  induction h with
  | nil w hw => exact spread_blank hw hr
  | cons w t ts s hw _ ih =>
    have : w ++ t ++ s ++ r = w ++ t ++ (s ++ r) := by simp
    rw [this]
    exact .cons w t (ts ++ us) _ hw ih

theorem blank_spaceFor (st : St) (e : Str) : Blank (spaceFor st e) := by
  intro c hc
  rw [spaceFor_spaces st e c hc]
  decide

theorem spread_write (st : St) (e : Str) : ∃ s, (write st e).out = st.out ++ s ∧ Spread [e] s :=
  ⟨spaceFor st e ++ e ++ [], by simp [write], .cons _ _ _ _ (blank_spaceFor st e) (.nil _ blank_nil)⟩

theorem blank_indentation (st : St) (n : Option Char) : ∃ w, (indentation st n).out = st.out ++ w ∧ Blank w := by
  obtain ⟨k, hk⟩ := indentation_out st n
  refine ⟨_, hk, ?_⟩
  intro c hc
  rw [List.eq_of_mem_replicate hc]
  decide

theorem spread_newline (st : St) : ∃ w, (write st ['\n']).out = st.out ++ w ∧ Blank w := by
  refine ⟨spaceFor st ['\n'] ++ ['\n'], by simp [write], blank_append (blank_spaceFor st _) ?_⟩
  intro c hc
  rw [List.mem_singleton.1 hc]
  decide

theorem spread_apply (st : St) (op : Op) : ∃ s, (apply st op).out = st.out ++ s ∧ Spread (tokens op) s := by
  cases op with
  | write e => exact spread_write st e
  | space => exact ⟨[], (List.append_nil _).symm, .nil _ blank_nil⟩
  | line e =>
    show ∃ s, (P st e).out = st.out ++ s ∧ Spread (if trimSpace e = [] then [] else [e]) s
    unfold P
    rw [settle_out]
    by_cases h : trimSpace e = []
    · rw [if_pos h, if_pos h]
      obtain ⟨w, h1, h2⟩ := spread_newline st
      exact ⟨w, h1, .nil _ h2⟩
    · rw [if_neg h, if_neg h]
      obtain ⟨w, h1, h2⟩ := blank_indentation st none
      obtain ⟨s, h3, h4⟩ := spread_write (indentation st none) e
      obtain ⟨v, h5, h6⟩ := spread_newline (write (indentation st none) e)
      refine ⟨w ++ (s ++ v), ?_, spread_blank h2 (spread_append h4 (.nil _ h6))⟩
      rw [h5, h3, h1]
      simp
  | incr => exact ⟨[], (List.append_nil _).symm, .nil _ blank_nil⟩
  | decr => exact ⟨[], by rw [List.append_nil]; exact decr_out st, .nil _ blank_nil⟩
  | indentation n =>
    obtain ⟨w, h1, h2⟩ := blank_indentation st n
    exact ⟨w, h1, .nil _ h2⟩
  | rune c => exact spread_write { st with pendingIndent := st.pendingIndent + weight c } [c]
  | inline b => exact ⟨[], (List.append_nil _).symm, .nil _ blank_nil⟩

/-- **C46** (part): what is written are the tokens that the formatter was asked to write, each of them
verbatim, in order, with nothing but white space around them. -/
theorem C46_tokens (ops : List Op) : ∀ (st : St), ∃ s, (run st ops).out = st.out ++ s ∧ Spread (ops.flatMap tokens) s := by
  induction ops with
  | nil => intro st; exact ⟨[], (List.append_nil _).symm, .nil _ blank_nil⟩
  | cons op ops ih =>
    intro st
    obtain ⟨s, h1, h2⟩ := spread_apply st op
    obtain ⟨r, h3, h4⟩ := ih (apply st op)
    refine ⟨s ++ r, ?_, ?_⟩
    · show (run (apply st op) ops).out = _
      rw [h3, h1, List.append_assoc]
    · rw [List.flatMap_cons]
      exact spread_append h2 h4

example : [Op.write ['a'], .space, .rune '=', .line []].flatMap tokens = [['a'], ['=']] := by decide

end Verif.FormatWriter
