import Verif.Model.ImportComplete
import Verif.Spec.QuickFix
import Verif.Spec.GoPath
/-!
# What the completion of a string literal in a line is to do
-/
namespace Verif.ImportComplete

/-- The beginning of a line: nothing, or text that ends with a line break. -/
def LineStart (a : Str) : Prop := a = [] ∨ ∃ b, a = b ++ ['\n']

/-- The text after an item has been accepted. -/
def accept (content : Str) (it : Item) : Option Str := it.edit.bind (QuickFix.applyEdit content)

/-- A string literal in double quotes that stands behind the beginning `kw` of a line; the cursor is between `p` and `s`. -/
structure Literal where
  above : Str
  kw : Str
  p : Str
  s : Str
  rest : Str

def Literal.content (l : Literal) : Str := l.above ++ l.kw ++ '"' :: (l.p ++ l.s ++ '"' :: l.rest)

/-- The cursor. -/
def Literal.pos (l : Literal) : Documents.Pos := QuickFix.posAfter (l.above ++ l.kw ++ '"' :: l.p)

/-- The same text with another literal. -/
def Literal.with (l : Literal) (value : Str) : Str := l.above ++ l.kw ++ '"' :: (value ++ '"' :: l.rest)

/-- The literal is the first in its line, has no line break, quotation mark or white space at the ends of its two parts, and the line
is not too long. -/
structure Literal.Ok (l : Literal) : Prop where
  above : LineStart l.above
  kw : '"' ∉ l.kw ∧ '\n' ∉ l.kw
  p : '"' ∉ l.p ∧ '\n' ∉ l.p ∧ Trimmed l.p
  s : '"' ∉ l.s ∧ '\n' ∉ l.s ∧ Trimmed l.s
  fits : QuickFix.Fits l.content

/-- A file of the server that begins as typed and is not imported by another statement of the file than that of `cur`. -/
def Wanted (uriOf : Str → Option Str) (imports : List Str) (cur typed : Str) (x : Str × Str) : Prop :=
  typed <+: x.2 ∧ ∀ i ∈ imports, i ≠ cur → uriOf i ≠ some x.1

instance (uriOf : Str → Option Str) (imports : List Str) (cur typed : Str) (x : Str × Str) : Decidable (Wanted uriOf imports cur typed x) :=
  inferInstanceAs (Decidable (_ ∧ _))

/-- A cursor behind the keywords of an import without literal; `u` is the rest of the line, `v` what follows. -/
structure Bare where
  above : Str
  kw : Str
  u : Str
  v : Str

def Bare.content (l : Bare) : Str := l.above ++ l.kw ++ (l.u ++ l.v)

def Bare.pos (l : Bare) : Documents.Pos := QuickFix.posAfter (l.above ++ l.kw)

/-- The same text with a literal at the cursor. -/
def Bare.with (l : Bare) (value : Str) : Str := l.above ++ l.kw ++ '"' :: (value ++ '"' :: (l.u ++ l.v))

/-- No quotation marks in the line. -/
structure Bare.Ok (l : Bare) : Prop where
  above : LineStart l.above
  kw : '"' ∉ l.kw ∧ '\n' ∉ l.kw
  u : '"' ∉ l.u ∧ '\n' ∉ l.u
  v : l.v = [] ∨ ∃ w, l.v = '\n' :: w
  fits : QuickFix.Fits l.content

end Verif.ImportComplete
