import Verif.Model.TokenCells

/-!
# Which characters a token covers
-/
namespace Verif.TokenCells

/-- A place in the document: line and character, from 0. -/
abbrev Cell := Nat × Nat

/-- The place behind a character. -/
def advance (p : Cell) (c : Char) : Cell := if c = '\n' then (p.1 + 1, 0) else (p.1, p.2 + 1)

/-- The places of the characters of a text that begins at `p`; line feeds have none. -/
def cells : Cell → Str → List Cell
  | _, [] => []
  | p, c :: rest => (if c = '\n' then [] else [p]) ++ cells (advance p c) rest

/-- `n` places in a line. -/
def row (line start n : Nat) : List Cell := (List.range n).map fun k => (line, start + k)

/-- The places a token covers. -/
def Item.cells (it : Item) : List Cell := row it.line it.start it.len

/-- Positions from 1. -/
def Pos.of (p : Cell) : Pos := ⟨p.1 + 1, p.2 + 1⟩

/-- The text fits into a document whose lines and columns are numbers of type `uint32`. -/
def Fits (p : Cell) (text : Str) : Prop := p.1 + text.length < 4294967295 ∧ p.2 + text.length < 4294967295

/-- The comment begins at `p`. Comments are not empty, and the line feed behind a comment is not part of it. -/
structure Comment.Placed (c : Comment) (p : Cell) : Prop where
  fits : Fits p c.text
  nonempty : c.text ≠ []
  last : c.text.getLast? ≠ some '\n'
  start : c.start = Pos.of p
  stop : c.stop = Pos.of (c.text.dropLast.foldl advance p)

/-- The node begins at `p`; its text. -/
structure Node.Placed (n : Node) (p : Cell) (text : Str) : Prop where
  fits : Fits p text
  valid : n.valid = true
  start : n.start = Pos.of p
  stop : n.stop = Pos.of (text.foldl advance p)

/-- A comment `//protols:key value`. -/
def IsPragma (c : Comment) (key value : Str) : Prop :=
  c.text = ['/', '/', 'p', 'r', 'o', 't', 'o', 'l', 's', ':'] ++ key ++ value ∧ key ≠ [] ∧ ' ' ∉ key ∧ (value = [] ∨ value.head? = some ' ')

end Verif.TokenCells
