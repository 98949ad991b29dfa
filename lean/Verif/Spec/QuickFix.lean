import Verif.Model.QuickFix
import Verif.Spec.FindTypes
import Verif.Spec.Documents
import Verif.Spec.Names

/-!
# Specification: positions in a text and edits
-/
namespace Verif.QuickFix
open Verif.Documents (Pos)

/-- The position behind the text `a`, counted from 0: the number of its line breaks, and the
number of the characters behind the last of them. -/
def posAfter (a : Str) : Pos := ⟨a.count '\n', (a.reverse.takeWhile (· ≠ '\n')).length⟩

/-- The same position as the compiler counts it: from 1. -/
def sourcePosAfter (a : Str) : SourcePos := ⟨(posAfter a).line + 1, (posAfter a).char + 1⟩

/-- Positions of a text that fit into 32 bits, with room for some more lines. -/
def Fits (a : Str) : Prop := a.length + 8 < 4294967296

/-- The text after an edit, as the protocol prescribes; `none`: not a range of the text. -/
def applyEdit (text : Str) (e : Edit) : Option Str :=
  Documents.applyChange text ⟨some (e.start, e.stop), 0, e.text⟩

/-- `n` is the last component of the name `full`. -/
def LastComponent (n full : Str) : Prop := '.' ∉ n ∧ (full = n ∨ ∃ a, full = a ++ '.' :: n)

/-- Types and fields, but not the messages of map fields. -/
def Importable (d : FindTypes.Decl) : Prop :=
  d.kind = .enum ∨ d.kind = .field ∨ ∃ e, d.kind = .message false e

end Verif.QuickFix
