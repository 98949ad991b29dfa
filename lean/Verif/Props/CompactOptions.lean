import Verif.Model.CompactOptions
import Verif.Props.FormatWriter
/-!
# Properties of option lists and type names: C45, C62
-/
namespace Verif.CompactOptions
open Verif.FormatWriter

/-! ### Tokens of the operations -/

theorem tokens_inline (t : Term) : (inlineOps t).flatMap tokens = [t.str] := by
  cases t <;> rfl

theorem tokens_inlines (ts : List Term) : (ts.flatMap inlineOps).flatMap tokens = ts.map Term.str := by
  induction ts with
  | nil => rfl
  | cons t ts ih => rw [List.flatMap_cons, List.flatMap_append, tokens_inline, ih]; rfl

theorem tokens_line : tokens (.line []) = [] := rfl

theorem tokens_start (blank : Bool) (t : Term) : (startOps blank t).flatMap tokens = [t.str] := by
  unfold startOps
  cases blank <;> cases t <;> rfl

theorem tokens_strings (blank : Bool) (ss : List Str) : (stringsOps blank ss).flatMap tokens = ss := by
  induction ss with
  | nil => rfl
  | cons s ss ih =>
    cases ss with
    | nil => exact tokens_start blank (.text s)
    | cons s' ss =>
      have : stringsOps blank (s :: s' :: ss) = lineElementOps s ++ stringsOps blank (s' :: ss) := rfl
      rw [this, List.flatMap_append, ih]
      rfl

/-! ### C45 -/

/-- Specification: the tokens of a value. -/
def valueTokens : Value → List Str
  | .strings _ parts => parts
  | .other ops => ops.flatMap tokens

/-- Specification: the tokens of an option. -/
def optionTokens (name : List Term) (value : Value) : List Str := name.map Term.str ++ [['=']] ++ valueTokens value

/-- Specification: the options of an option list, each with its tokens. -/
def options (os : List Opt) : List (List Str) :=
  os.filterMap fun o => match o with
    | .stray => none
    | .option name value _ => some (optionTokens name value)

/-- Specification: lists of tokens with commas between them. -/
def commas : List (List Str) → List Str
  | [] => []
  | [x] => x
  | x :: xs => x ++ [','] :: commas xs

/-- Specification: a well-formed list: separators between options, and an option at its end. -/
def Separated : List Opt → Prop
  | [] => True
  | [.stray] => False
  | [.option _ _ _] => True
  | .stray :: os => Separated os
  | .option _ _ sep :: os => sep ≠ none ∧ Separated os

/-- Specification: strings next to each other occur only as the value of the last option. -/
def StringsLast : List Opt → Prop
  | [] => True
  | .option _ (.strings _ _) _ :: os => os = []
  | _ :: os => StringsLast os

theorem options_ne_nil (os : List Opt) (hne : os ≠ []) (h : Separated os) : options os ≠ [] := by
  induction os with
  | nil => exact absurd rfl hne
  | cons o os ih =>
    cases o with
    | option n v s => simp [options]
    | stray =>
      cases os with
      | nil => exact absurd h (by simp [Separated])
      | cons o' os =>
        have := ih (by simp) h
        simpa [options] using this

theorem commas_cons (x : List Str) (xs : List (List Str)) (h : xs ≠ []) : commas (x :: xs) = x ++ [','] :: commas xs := by
  cases xs with
  | nil => exact absurd rfl h
  | cons y ys => rfl

theorem tokens_options (os : List Opt) (hne : os ≠ []) (h1 : Separated os) (h2 : StringsLast os) :
    (optionsOps os).flatMap tokens = commas (options os) ++ [[']']] := by
  induction os with
  | nil => exact absurd rfl hne
  | cons o os ih =>
    cases o with
    | stray =>
      cases os with
      | nil => exact absurd h1 (by simp [Separated])
      | cons o' os =>
        have := ih (by simp) h1 h2
        simpa [optionsOps, options] using this
    | option name value sep =>
      have hopt : options (.option name value sep :: os) = optionTokens name value :: options os := rfl
      rw [hopt]
      cases value with
      | strings blank parts =>
        have : os = [] := h2
        subst this
        simp only [optionsOps, List.flatMap_append, List.flatMap_cons, List.flatMap_nil, List.append_nil, tokens_inlines,
          tokens_inline, tokens_strings, options, List.filterMap_nil, commas, optionTokens, valueTokens, tokens]
        simp [Term.str, trim_nil]
      | other ops =>
        cases os with
        | nil =>
          simp only [optionsOps, List.flatMap_append, List.flatMap_cons, List.flatMap_nil, List.append_nil, tokens_inlines,
            tokens_inline, options, List.filterMap_nil, commas, optionTokens, valueTokens, tokens]
          simp [Term.str]
        | cons o' os =>
          have hs : sep ≠ none ∧ Separated (o' :: os) := h1
          have hi := ih (by simp) hs.2 h2
          have hsome : sep.isSome = true := by
            cases sep with
            | none => exact absurd rfl hs.1
            | some c => rfl
          rw [commas_cons _ _ (options_ne_nil _ (by simp) hs.2)]
          conv => lhs; unfold optionsOps
          simp only [List.flatMap_append, List.flatMap_cons, List.flatMap_nil, List.append_nil, tokens_inlines,
            tokens_inline, optionTokens, valueTokens, tokens, hi, hsome]
          simp [Term.str, tokens_inline, tokens]

/-- **C45** (part): of a well-formed option list in which strings next to each other only occur in the last
option, all options are written: in order, with commas between them, in brackets, each with its name, the
sign `=` and its value. (Missing: strings next to each other in another option, see `C45_violated`; options
without a value; comments.) -/
theorem C45_partial (st : St) (os : List Opt) (hne : os ≠ []) (h1 : Separated os) (h2 : StringsLast os) :
    ∃ s, (run st (compactOps os)).out = st.out ++ s ∧ Spread ([['[']] ++ commas (options os) ++ [[']']]) s := by
  obtain ⟨s, hs, ht⟩ := C46_tokens (compactOps os) st
  refine ⟨s, hs, ?_⟩
  unfold compactOps at ht
  rw [if_neg hne, List.flatMap_append, tokens_inline, tokens_options os hne h1 h2] at ht
  simpa [Term.str] using ht

/-- The tokens up to the first option whose value are strings next to each other. -/
theorem tokens_cut (os rest : List Opt) (name : List Term) (blank : Bool) (parts : List Str) (sep : Option Char) :
    (optionsOps (os ++ .option name (.strings blank parts) sep :: rest)).flatMap tokens =
    (optionsOps (os ++ [.option name (.strings blank parts) sep])).flatMap tokens := by
  induction os with
  | nil => rfl
  | cons o os ih =>
    cases o with
    | stray => exact ih
    | option n v s =>
      simp only [List.cons_append]
      unfold optionsOps
      cases v with
      | strings b p => rfl
      | other ops =>
        have e1 : (os ++ .option name (.strings blank parts) sep :: rest ≠ []) = True := by simp
        have e2 : (os ++ [.option name (.strings blank parts) sep] ≠ []) = True := by simp
        simp only [e1, e2, List.flatMap_append, ih]

/-- **C45** (violated): everything after the first option whose value are strings next to each other is
lost, whatever it is. -/
theorem C45_violated (st : St) (name : List Term) (blank : Bool) (parts : List Str) (sep : Option Char) (rest : List Opt) :
    ∃ s, (run st (compactOps (.option name (.strings blank parts) sep :: rest))).out = st.out ++ s ∧
      Spread ([['[']] ++ optionTokens name (.strings blank parts) ++ [[']']]) s := by
  obtain ⟨s, hs, ht⟩ := C46_tokens (compactOps (.option name (.strings blank parts) sep :: rest)) st
  refine ⟨s, hs, ?_⟩
  unfold compactOps at ht
  have := tokens_cut [] rest name blank parts sep
  simp only [List.nil_append] at this
  rw [if_neg (by simp), List.flatMap_append, tokens_inline, this,
    tokens_options _ (by simp) (by simp [Separated]) (by simp [StringsLast])] at ht
  simpa [Term.str, options, commas] using ht

/-- `[a = "x" "y", b = 2]` loses `b`. -/
example : (run {} (compactOps [.option [.text ['a']] (.strings false ["'x'".toList, "'y'".toList]) (some ','),
    .option [.text ['b']] (.other [.write ['2']]) none])).out = "[a =\n  'x'\n  'y']".toList := by decide +kernel

example : (run {} (compactOps [.option [.text ['a']] (.other [.write ['1']]) (some ';'), .stray,
    .option [.text ['b']] (.other [.write ['2']]) none])).out = "[a = 1, b = 2]".toList := by decide +kernel

example : Separated [.option [.text ['a']] (.other [.write ['1']]) (some ';'), .stray,
    .option [.text ['b']] (.other [.write ['2']]) none] ∧ StringsLast [.option [.text ['a']] (.other [.write ['1']]) (some ';'), .stray,
    .option [.text ['b']] (.other [.write ['2']]) none] := by simp [Separated, StringsLast]

/-! ### Layout -/

/-- Specification: the layout of a list of options with simple values. -/
def layout : List (Str × Str) → Str
  | [] => []
  | [(a, b)] => a ++ [' ', '=', ' '] ++ b
  | (a, b) :: os => a ++ [' ', '=', ' '] ++ b ++ [',', ' '] ++ layout os

/-- A text that may have spaces around it in the one-line form: it neither starts with a line break, `;`, `,` or a closing
bracket nor ends with white space or an opening bracket. -/
def Plain (s : Str) : Prop := s ≠ [] ∧ nextBlock true (firstRune s) = false ∧ prevBlock true (s.getLast?.getD '\x00') = false

/-- The options with simple values, with commas between them. -/
def simple : List (List Term × Str) → List Opt
  | [] => []
  | [(n, v)] => [.option n (.other [.write v]) none]
  | (n, v) :: os => .option n (.other [.write v]) (some ',') :: simple os

theorem run_append' (st : St) (a b : List Op) : run st (a ++ b) = run (run st a) b := by simp [run, List.foldl_append]

theorem inline_state (st : St) (t : Term) :
    (run st (inlineOps t)).out = st.out ++ spaceFor { st with inline := true } t.str ++ t.str ∧
    (run st (inlineOps t)).pendingSpace = false ∧ (run st (inlineOps t)).last = t.str.getLast?.getD st.last := by
  cases t <;> simp [run, inlineOps, apply, Term.op, Term.str, write, writeRune, spaceFor]

theorem inlines_state (ts : List Term) : ∀ (st : St), st.pendingSpace = false →
    (run st (ts.flatMap inlineOps)).out = st.out ++ ts.flatMap Term.str ∧
    (run st (ts.flatMap inlineOps)).pendingSpace = false ∧
    (run st (ts.flatMap inlineOps)).last = (ts.flatMap Term.str).getLast?.getD st.last := by
  induction ts with
  | nil => intro st h; exact ⟨by simp [run], h, by simp [run]⟩
  | cons t ts ih =>
    intro st h
    obtain ⟨h1, h2, h3⟩ := inline_state st t
    rw [List.flatMap_cons, run_append']
    obtain ⟨k1, k2, k3⟩ := ih _ h2
    refine ⟨?_, k2, ?_⟩
    · rw [k1, h1]
      simp [spaceFor, h]
    · rw [k3, h3, List.flatMap_cons, List.getLast?_append]
      cases (ts.flatMap Term.str).getLast? <;> simp

/-- The first term with a pending space, the others without. -/
theorem name_state (ts : List Term) (hne : ts.flatMap Term.str ≠ []) (hall : ∀ t ∈ ts, t.str ≠ []) (st : St) :
    (run st (ts.flatMap inlineOps)).out = st.out ++ spaceFor { st with inline := true } (ts.flatMap Term.str) ++ ts.flatMap Term.str ∧
    (run st (ts.flatMap inlineOps)).pendingSpace = false ∧
    (run st (ts.flatMap inlineOps)).last = (ts.flatMap Term.str).getLast?.getD st.last := by
  cases ts with
  | nil => simp at hne
  | cons t ts =>
    obtain ⟨h1, h2, h3⟩ := inline_state st t
    rw [List.flatMap_cons, run_append']
    obtain ⟨k1, k2, k3⟩ := inlines_state ts _ h2
    refine ⟨?_, k2, ?_⟩
    · rw [k1, h1]
      have : spaceFor { st with inline := true } (t.str ++ ts.flatMap Term.str) = spaceFor { st with inline := true } t.str := by
        have ht := hall t List.mem_cons_self
        cases hs : t.str with
        | nil => exact absurd hs ht
        | cons c s => simp [spaceFor, firstRune]
      simp [this]
    · rw [k3, h3, List.flatMap_cons, List.getLast?_append]
      cases (ts.flatMap Term.str).getLast? <;> simp

theorem getLast_default {s : Str} (h : s ≠ []) (a b : Char) : s.getLast?.getD a = s.getLast?.getD b := by
  cases hs : s.getLast? with
  | none => exact absurd (List.getLast?_eq_none_iff.1 hs) h
  | some c => rfl

/-- One option with its value: `name = value`. -/
theorem option_state (n : List Term) (v : Str) (hn : Plain (n.flatMap Term.str)) (hall : ∀ t ∈ n, t.str ≠ []) (hv : Plain v) (st : St) :
    let r := run st (n.flatMap inlineOps ++ [.space] ++ inlineOps (.rune '=') ++ ([.space, .inline true] ++ [.write v] ++ [.inline false]))
    r.out = st.out ++ spaceFor { st with inline := true } (n.flatMap Term.str) ++ (n.flatMap Term.str ++ [' ', '=', ' '] ++ v) ∧
    r.pendingSpace = false ∧ r.last = v.getLast?.getD '\x00' := by
  obtain ⟨n1, n2, n3⟩ := hn
  obtain ⟨v1, v2, v3⟩ := hv
  obtain ⟨h1, h2, h3⟩ := name_state n n1 hall st
  intro r
  have hr : r = run (run (run (run st (n.flatMap inlineOps)) [.space]) (inlineOps (.rune '='))) [.space, .inline true, .write v, .inline false] := by
    rw [← run_append', ← run_append', ← run_append']
    simp [r]
  generalize hs1 : run st (n.flatMap inlineOps) = s1 at *
  have e1 : run s1 [.space] = { s1 with pendingSpace := true } := rfl
  rw [e1] at hr
  obtain ⟨k1, k2, k3⟩ := inline_state { s1 with pendingSpace := true } (.rune '=')
  generalize hs2 : run { s1 with pendingSpace := true } (inlineOps (.rune '=')) = s2 at *
  have hsp : spaceFor { s1 with pendingSpace := true, inline := true } ['='] = [' '] := by
    have : prevBlock true s1.last = false := by rw [h3, getLast_default n1 _ '\x00']; exact n3
    simp [spaceFor, this, nextBlock, firstRune]
  have hlast : s2.last = '=' := by rw [k3]; rfl
  have e2 : run s2 [.space, .inline true, .write v, .inline false] =
      { s2 with out := s2.out ++ [' '] ++ v, pendingSpace := false, last := v.getLast?.getD s2.last, inline := false } := by
    simp [run, apply, space, write, spaceFor, hlast, prevBlock, v2]
  rw [e2] at hr
  rw [hr]
  refine ⟨?_, rfl, getLast_default v1 _ _⟩
  have k1' : s2.out = s1.out ++ [' '] ++ ['='] := by
    have : ({ s1 with pendingSpace := true } : St).out = s1.out := rfl
    rw [k1, this]
    show s1.out ++ spaceFor { s1 with pendingSpace := true, inline := true } ['='] ++ ['='] = _
    rw [hsp]
  simp only [k1', h1]
  simp

theorem options_layout (os : List (List Term × Str)) (hne : os ≠ [])
    (h : ∀ o ∈ os, Plain (o.1.flatMap Term.str) ∧ (∀ t ∈ o.1, t.str ≠ []) ∧ Plain o.2) : ∀ (st : St),
    st.pendingSpace = false ∨ prevBlock true st.last = false →
    (run st (optionsOps (simple os))).out = st.out ++ (if st.pendingSpace then [' '] else []) ++
      layout (os.map fun o => (o.1.flatMap Term.str, o.2)) ++ [']'] := by
  induction os with
  | nil => exact absurd rfl hne
  | cons o os ih =>
    intro st hst
    obtain ⟨n, v⟩ := o
    obtain ⟨hn, hall, hv⟩ := h (n, v) List.mem_cons_self
    obtain ⟨h1, h2, h3⟩ := option_state n v hn hall hv st
    have hsp : spaceFor { st with inline := true } (n.flatMap Term.str) = if st.pendingSpace then [' '] else [] := by
      have := hn.2.1
      rcases hst with hst | hst
      · simp [spaceFor, hst]
      · simp [spaceFor, hst, this]
    rw [hsp] at h1
    cases os with
    | nil =>
      simp only [simple, optionsOps, Option.isSome_none, Bool.false_eq_true, false_and, if_false, List.append_nil]
      rw [← List.append_assoc, run_append']
      generalize hr : run st (n.flatMap inlineOps ++ [.space] ++ inlineOps (.rune '=') ++
        ([.space, .inline true] ++ [.write v] ++ [.inline false])) = r at *
      obtain ⟨k1, _, _⟩ := inline_state r (.rune ']')
      rw [k1]
      simp only [h1, h2, spaceFor, Bool.false_and, Bool.false_eq_true, if_false]
      simp [layout, Term.str]
    | cons o' os =>
      have hs : simple ((n, v) :: o' :: os) = .option n (.other [.write v]) (some ',') :: simple (o' :: os) := rfl
      have hne' : simple (o' :: os) ≠ [] := by obtain ⟨_, _⟩ := o'; cases os <;> simp [simple]
      simp only [hs, optionsOps]
      rw [if_pos ⟨rfl, hne'⟩, ← List.append_assoc, ← List.append_assoc, run_append', run_append']
      generalize hr : run st (n.flatMap inlineOps ++ [.space] ++ inlineOps (.rune '=') ++
        ([.space, .inline true] ++ [.write v] ++ [.inline false])) = r at *
      have hc : run r (inlineOps (.rune ',') ++ [.space]) =
          { r with out := r.out ++ [','], pendingSpace := true, last := ',', inline := false,
                   pendingIndent := (run r (inlineOps (.rune ',') ++ [.space])).pendingIndent } := by
        simp [run, inlineOps, apply, Term.op, writeRune, write, space, spaceFor, h2]
      rw [hc, ih (by simp) (fun o ho => h o (List.mem_cons_of_mem _ ho)) _ (.inr (by simp [prevBlock]))]
      rw [h1]
      obtain ⟨n', v'⟩ := o'
      simp [layout]

/-- **C45** (part): options with simple values are written as `[a = 1, b = 2]`. -/
theorem C45_layout (os : List (List Term × Str)) (hne : os ≠ [])
    (h : ∀ o ∈ os, Plain (o.1.flatMap Term.str) ∧ (∀ t ∈ o.1, t.str ≠ []) ∧ Plain o.2) (st : St) (hst : st.pendingSpace = false) :
    (run st (compactOps (simple os))).out = st.out ++ '[' :: layout (os.map fun o => (o.1.flatMap Term.str, o.2)) ++ [']'] := by
  have hne' : simple os ≠ [] := by
    cases os with
    | nil => exact absurd rfl hne
    | cons o os => obtain ⟨_, _⟩ := o; cases os <;> simp [simple]
  unfold compactOps
  rw [if_neg hne', run_append']
  obtain ⟨h1, h2, _⟩ := inline_state st (.rune '[')
  rw [options_layout os hne h _ (.inl h2), h1, h2]
  simp [spaceFor, hst, Term.str]

/-- `[(x).y = 1, b = 2]` -/
example : (run {} (compactOps (simple [([.rune '(', .text ['x'], .rune ')', .rune '.', .text ['y']], ['1']), ([.text ['b']], ['2'])]))).out =
    "[(x).y = 1, b = 2]".toList := by decide +kernel

/-! ### C62 -/

/-- **C62** (part): the type of a field with a label is written as it is. -/
theorem C62_label (st : St) (ts : List Term) :
    ∃ s, (run st (compoundOps ts)).out = st.out ++ s ∧ Spread (ts.map Term.str) s := by
  obtain ⟨s, hs, ht⟩ := C46_tokens (compoundOps ts) st
  exact ⟨s, hs, by rw [compoundOps, tokens_inlines] at ht; exact ht⟩

/-- **C62** (part): the type of a field without a label is written as it is, if it does not start with a dot.
(Missing: a type that starts with a dot; see `C62_violated`.) -/
theorem C62_partial (st : St) (blank : Bool) (s : Str) (ts : List Term) :
    ∃ r, (run st (fieldTypeOps blank (.text s :: ts))).out = st.out ++ r ∧ Spread ((Term.text s :: ts).map Term.str) r := by
  obtain ⟨r, hr, ht⟩ := C46_tokens (fieldTypeOps blank (.text s :: ts)) st
  refine ⟨r, hr, ?_⟩
  simp only [fieldTypeOps, List.flatMap_append, tokens_start, tokens_inlines] at ht
  simpa using ht

/-- **C62** (violated): every type that starts with a dot is written with two dots, if the field has no
label. -/
theorem C62_violated (st : St) (blank : Bool) (ts : List Term) :
    ∃ r, (run st (fieldTypeOps blank (.rune '.' :: ts))).out = st.out ++ r ∧
      Spread (['.'] :: (Term.rune '.' :: ts).map Term.str) r := by
  obtain ⟨r, hr, ht⟩ := C46_tokens (fieldTypeOps blank (.rune '.' :: ts)) st
  refine ⟨r, hr, ?_⟩
  simp only [fieldTypeOps, List.flatMap_append, tokens_start, tokens_inlines] at ht
  exact ht

example : (run {} (fieldTypeOps false [.rune '.', .text ['a'], .rune '.', .text ['B']])).out = "..a.B".toList := by decide +kernel
example : (run {} (fieldTypeOps false [.text ['a'], .rune '.', .text ['B']])).out = "a.B".toList := by decide +kernel

end Verif.CompactOptions
