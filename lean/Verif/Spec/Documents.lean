import Verif.Model.Documents

/-!
LSP 3.17 `textDocument/didChange`: "the actual content changes describe single state
changes to the document. So if there are two content changes c1 (at array index 0) and
c2 (at array index 1) for a document in state S then c1 moves the document from S to S'
and c2 from S' to S''."
-/
namespace Verif.Documents

/-- One content change. A change without range is the new full text. `none`: the range
is not a range of the text. -/
def applyChange (text : List Char) (c : Change) : Option (List Char) :=
  match c.range with
  | none => some c.text
  | some (a, b) =>
    match offset text a.line a.char, offset text b.line b.char with
    | some x, some y => if x ≤ y then some (text.take x ++ c.text ++ text.drop y) else none
    | _, _ => none

/-- All changes, one after the other. -/
def applyChanges (text : List Char) : List Change → Option (List Char)
  | [] => some text
  | c :: cs => (applyChange text c).bind (applyChanges · cs)

end Verif.Documents
