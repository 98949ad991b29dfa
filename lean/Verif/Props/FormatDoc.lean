import Verif.Lemmas.FormatDoc
/-!
# C89: formatting changes the current text into its formatted form and erases nothing
-/
namespace Verif.FormatDoc

open Documents

variable {T : Type}

/-- **C89** (what is formatted): after any notifications about a document that is open, a formatting request that returns edits
returns none at all if the text has syntax errors or the pragma `nofmt`; otherwise the edits change exactly the current text into
the output of the formatter for the tree of the current text. (Partial: a document opened with another language than `protobuf` is
not parsed, see `C89_language_violated`, and neither is a closed document, see `C89_closed_violated`.) -/
theorem C89_current_partial (parse : Parser T) (tools : Tools T) (hp : Reports parse) (hs : Sound tools) (disk : Option Str)
    (es : List Event) (hes : Protobuf es) (d : Doc T) (hr : run parse (start parse disk) es = some d) (text : Str)
    (hsh : showing none es = some text) (cs : List Change) (hf : formatDocument tools d = .ok cs) :
    (¬ Fine parse text ∧ cs = []) ∨
    ∃ tree, (parse text).1 = some tree ∧
      ((tools.nofmt tree = true ∧ cs = []) ∨
       (tools.nofmt tree = false ∧ ∃ out, tools.format tree = some out ∧ clientApply text cs = .ok out)) := by
  have ho : d.overlay = some text := (overlay_start hr).trans hsh
  have hfr : Fresh parse d := fresh_run es _ _ (fresh_compile _ _) hes hr
  obtain ⟨h1, h2⟩ := hfr text ho
  have hc : d.current = some text := by simp [Doc.current, ho]
  by_cases hw : wellFormed true d.diags = true
  · have hfine : Fine parse text := by
      rw [wellFormed_strict, h1] at hw
      exact hw
    cases ht : (parse text).1 with
    | none => exact absurd (hp text ht) hfine.1
    | some tree =>
      right
      refine ⟨tree, rfl, ?_⟩
      have h3 := h2 tree ht
      cases hn : tools.nofmt tree with
      | true =>
        left
        unfold formatDocument at hf
        simp only [hw, if_true, hc, h3, hn] at hf
        cases hf
        exact ⟨rfl, rfl⟩
      | false =>
        right
        refine ⟨rfl, ?_⟩
        cases ho' : tools.format tree with
        | none =>
          unfold formatDocument at hf
          simp [hw, hc, h3, hn, ho'] at hf
        | some out =>
          obtain ⟨cs', h4, h5⟩ := format_sound hs hw hc h3 hn ho'
          rw [hf] at h4
          cases h4
          exact ⟨out, rfl, h5⟩
  · left
    constructor
    · intro hfine
      rw [wellFormed_strict, h1] at hw
      exact hw hfine
    · unfold formatDocument at hf
      simp only [hw, Bool.false_eq_true, if_false] at hf
      cases hf
      rfl

/-- **C89** (it is formatted): a text without syntax errors and without the pragma that the formatter can format is formatted:
the request returns edits with which the client gets the formatted text. -/
theorem C89_formats_partial (parse : Parser T) (tools : Tools T) (hs : Sound tools) (disk : Option Str)
    (es : List Event) (hes : Protobuf es) (d : Doc T) (hr : run parse (start parse disk) es = some d) (text : Str)
    (hsh : showing none es = some text) (hfine : Fine parse text) (tree : T) (ht : (parse text).1 = some tree)
    (hn : tools.nofmt tree = false) (out : Str) (hout : tools.format tree = some out) :
    ∃ cs, formatDocument tools d = .ok cs ∧ clientApply text cs = .ok out := by
  have ho : d.overlay = some text := (overlay_start hr).trans hsh
  have hfr : Fresh parse d := fresh_run es _ _ (fresh_compile _ _) hes hr
  obtain ⟨h1, h2⟩ := hfr text ho
  refine format_sound hs ?_ (by simp [Doc.current, ho]) (h2 tree ht) hn hout
  rw [wellFormed_strict, h1]
  exact hfine

/-! ## Violations -/

/-- A parser for which every text is its own tree, and a formatter that keeps the text. -/
def copy : Parser Str := fun text => (some text, [])

def same (diff : Str → Str → List Edit) : Tools Str := ⟨fun _ => false, some, diff⟩

/-- documents.go:66-68: a document that is opened with another language (some editors call the language `proto`) gets an overlay
but is not compiled; a formatting request then replaces the text of the editor by the text of the file, although the formatter
keeps every text as it is. -/
theorem C89_language_violated (diff : Str → Str → List Edit) (hs : Sound (same diff)) (text onDisk : Str) :
    ∃ d, run copy (start copy (some onDisk)) [.opened false text] = some d ∧ showing none [.opened false text] = some text ∧
      ∃ cs, formatDocument (same diff) d = .ok cs ∧ clientApply text cs = .ok onDisk :=
  ⟨_, rfl, rfl, format_sound hs (d := ⟨some text, some onDisk, some onDisk, []⟩) (tree := onDisk) rfl rfl rfl rfl rfl⟩

/-- documents.go:79: closing a document does not compile it again: a formatting request for the file puts the text that was thrown
away into the file. -/
theorem C89_closed_violated (diff : Str → Str → List Edit) (hs : Sound (same diff)) (text onDisk : Str) :
    ∃ d, run copy (start copy (some onDisk)) [.opened true text, .closed] = some d ∧ d.current = some onDisk ∧
      ∃ cs, formatDocument (same diff) d = .ok cs ∧ clientApply onDisk cs = .ok text :=
  ⟨_, rfl, rfl, format_sound hs (d := ⟨none, some onDisk, some text, []⟩) (tree := text) rfl rfl rfl rfl rfl⟩

/-! ## Examples -/

/-- The difference that replaces everything. -/
def replaceAll (a b : Str) : List Edit := [⟨0, a.length, b⟩]

theorem replaceAll_sound : Sound (same replaceAll) := by
  intro a b
  simp [same, replaceAll, apply, isort, insertBy, validate, applyLoop]

/-- `C89_current_partial`, `C89_formats_partial`: a document that is opened and changed. -/
example : ∃ cs, formatDocument (same replaceAll) ⟨some ['b', '\n'], some ['a'], some ['b', '\n'], []⟩ = .ok cs ∧
    clientApply ['b', '\n'] cs = .ok ['b', '\n'] :=
  C89_formats_partial copy _ replaceAll_sound (some ['a']) [.opened true ['a', 'c'], .changed ['b', '\n']] (by intro t; simp) _ rfl
    _ rfl (by simp [Fine, copy]) _ rfl rfl _ rfl

example : Reports copy := by intro text h; simp [copy] at h

end Verif.FormatDoc
