import Verif.Model.InlayHints
import Verif.Spec.QuickFix
/-!
# What hints and links are to show
-/
namespace Verif.InlayHints
open Verif.QuickFix (posAfter sourcePosAfter applyEdit)

/-- A complete import statement in a text: `path` is the value of the literal (or of the adjacent literals) with the opening quotation mark
`q` and the closing one `q'`. -/
structure Site where
  above : Str
  q : Char
  body : Str
  q' : Char
  rest : Str
  path : Str

/-- The text of the literal. -/
def Site.literal (s : Site) : Str := s.q :: (s.body ++ [s.q'])

/-- The text of the document. -/
def Site.content (s : Site) : Str := s.above ++ s.literal ++ s.rest

/-- The same text with something else between the quotation marks. -/
def Site.with (s : Site) (value : Str) : Str := s.above ++ s.q :: (value ++ [s.q']) ++ s.rest

/-- The statement as the compiler sees it. -/
def Site.import (s : Site) : Import := ⟨s.path, sourcePosAfter s.above, sourcePosAfter (s.above ++ s.literal), true⟩

/-- `deps` are the dependencies of a file with the imports `names` that stand for the files `paths`: these files, or these files and
descriptor.proto, which the compiler adds to files that need it for options. -/
inductive Deps (descriptor : Str) (names paths : List Str) : List Str → Prop
  | plain (h : descriptor ∈ names ∨ descriptor ∉ paths) : Deps descriptor names paths paths
  | added (a b : List Str) (hn : descriptor ∉ names) (hp : paths = a ++ b) (ha : descriptor ∉ a) : Deps descriptor names paths (a ++ descriptor :: b)

/-- The hint for an import that stands for the file `p`. -/
structure HintFor {L : Type} (content : Str) (s : Site) (p : Str) (h : Hint L) : Prop where
  /-- Accepting it writes the path into the statement. -/
  edit : ∃ e, h.edits = [e] ∧ applyEdit content e = some (s.with p)
  /-- The beginning of the path is shown at the beginning of the literal. -/
  inside : s.path <:+ p → h.pos = posAfter (s.above ++ [s.q]) ∧ h.label ++ s.path = p ∧ h.paddingLeft = false
  /-- The path is shown behind the statement: behind the literal, a semicolon and a space. -/
  behind : ¬ s.path <:+ p → h.label = p ∧ h.paddingLeft = true ∧
    ('\n' ∉ s.body → h.pos = ⟨(posAfter (s.above ++ s.literal)).line, (posAfter (s.above ++ s.literal)).char + 3⟩)
  tooltip : h.tooltip = some ("Import resolves to ".toList ++ p)

/-- The value of a literal without escapes, from behind its opening quotation mark, and the text behind it. -/
def readPlain (q : Char) : Str → Option (Str × Str)
  | [] => none
  | c :: s =>
    if c = q then some ([], s)
    else if c = '\\' ∨ c = '\n' then none
    else (readPlain q s).map fun r => (c :: r.1, r.2)

/-- Tokens in the order of the text. -/
def Ordered (toks : List (Nat × Nat)) : Prop := (∀ t ∈ toks, t.1 < t.2) ∧ toks.Pairwise (fun a b => a.2 ≤ b.1)

/-- The offset `o` is in a token. -/
def OnToken (toks : List (Nat × Nat)) (o : Nat) : Prop := ∃ t ∈ toks, t.1 ≤ o ∧ o < t.2

/-- The reference `r` touches the text between the offsets `a` and `b`. -/
def Touches {M : Type} (toks : List (Nat × Nat)) (a b : Nat) (r : Ref M) : Prop :=
  ∃ (i j : Nat) (s t : Nat × Nat), r.first = i ∧ r.last = j ∧ toks[i]? = some s ∧ toks[j]? = some t ∧ s.1 ≤ b ∧ a < t.2

/-- A reference in parentheses to an extension field that is a single message. -/
def Extension {M : Type} (r : Ref M) : Prop :=
  r.reference = true ∧ r.anyType = false ∧ r.close.isSome ∧ r.isMessage = true ∧ r.isMap = false ∧ r.isList = false

instance {M : Type} (r : Ref M) : Decidable (Extension r) := inferInstanceAs (Decidable (_ ∧ _))

end Verif.InlayHints
