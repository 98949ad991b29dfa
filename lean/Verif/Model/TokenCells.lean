import Verif.Util.Str

/-!
# Semantic tokens of names and comments

Models `/repo/pkg/lsp/semantic.go:288-314, 331-443, 686-702`.

A character is a byte. Positions, comments and texts of nodes are those of the parser (`NodeInfo`), which is external.
-/
namespace Verif.TokenCells

/-- `ast.SourcePos`: line and column, from 1. -/
structure Pos where
  line : Nat
  col : Nat
deriving DecidableEq, Repr

/-- `ast.Comment`: `RawText`, `Start`, `End` (the position of the last character), `IsVirtual`. -/
structure Comment where
  text : Str
  start : Pos
  stop : Pos
  virtual : Bool
deriving DecidableEq, Repr

/-- `ast.NodeInfo` of a node: `IsValid`, `Start`, `End` (behind the last character), and comments; `keyword` is the text of an
`ast.IdentNode` with `IsKeyword`. -/
structure Node where
  valid : Bool
  start : Pos
  stop : Pos
  keyword : Option Str
  leading : List Comment
  trailing : List Comment
deriving DecidableEq, Repr

/-- `tokenType`; those used by callers are numbers. -/
inductive Typ
  | comment | macro | other (n : Nat)
deriving DecidableEq, Repr

/-- `semanticItem`, /repo/pkg/lsp/semantic.go:79-91, without language, node and path. -/
structure Item where
  line : Nat
  start : Nat
  len : Nat
  typ : Typ
  mods : Nat
deriving DecidableEq, Repr

/-- Conversion to `uint32`. -/
def u32 (x : Int) : Nat := (x % 4294967296).toNat

/-- `multilineComment`, semantic.go:413-443. -/
def multilineComment (c : Comment) : List Item :=
  let lines := splitOn '\n' c.text
  [⟨u32 (c.start.line - 1), u32 (c.start.col - 1), u32 (lines.head?.getD []).length, .comment, 0⟩]
    ++ ((lines.drop 1).dropLast.zipIdx 1).map (fun x => ⟨u32 (c.start.line - 1 + x.2), 0, u32 x.1.length, .comment, 0⟩)
    ++ [⟨u32 (c.stop.line - 1), 0, u32 c.stop.col, .comment, 0⟩]

/-- The token for a comment in one line, semantic.go:384-389, 404-409. -/
def lineComment (c : Comment) : List Item :=
  [⟨u32 (c.start.line - 1), u32 (c.start.col - 1), u32 (c.stop.col - (c.start.col - 1 : Int)), .comment, 0⟩]

def kwPragma : Str := ['/', '/', 'p', 'r', 'o', 't', 'o', 'l', 's', ':']
def kwSyntax : Str := ['s', 'y', 'n', 't', 'a', 'x']
def kwEdition : Str := ['e', 'd', 'i', 't', 'i', 'o', 'n']

/-- `strings.CutPrefix(text, "//protols:")`. -/
def cutPragma (text : Str) : Option Str := if kwPragma.isPrefixOf text then some (text.drop kwPragma.length) else none

/-- The tokens for a pragma, semantic.go:349-380; `text` is what follows the prefix, as the variable is shadowed (line 347). -/
def pragma (c : Comment) (text key : Str) : List Item :=
  let keyLen := 8 + key.length
  [⟨u32 (c.start.line - 1), u32 (c.start.col - 1), u32 2, .comment, 0⟩,
   ⟨u32 (c.start.line - 1), u32 (c.start.col - 1 + 2), u32 keyLen, .macro, 0⟩]
    ++ if text.length > keyLen + 2 then
      [⟨u32 (c.start.line - 1), u32 (c.start.col - 1 + 2 + keyLen), u32 (c.stop.col - (c.start.col - 1 : Int) - 2 - keyLen), .comment, 0⟩]
    else []

/-- The loop over leading comments, semantic.go:339-390. -/
def leadingComment (keyword : Option Str) (c : Comment) : List Item :=
  if c.start.line < c.stop.line then multilineComment c
  else
    match cutPragma c.text with
    | none => lineComment c
    | some text =>
      let key := text.takeWhile (· ≠ ' ')
      if 0 < key.length ∧ (keyword = some kwSyntax ∨ keyword = some kwEdition) then pragma c text key else lineComment c

/-- The loop over trailing comments, semantic.go:393-410. -/
def trailingComment (c : Comment) : List Item :=
  if c.virtual then []
  else if c.start.line < c.stop.line then multilineComment c
  else lineComment c

/-- `mkcomments`, semantic.go:331-411. -/
def mkcomments (skipComments : Bool) (n : Node) : List Item :=
  if skipComments then [] else n.leading.flatMap (leadingComment n.keyword) ++ n.trailing.flatMap trailingComment

/-- `mktokens`, semantic.go:288-314; `none` is a nil node. -/
def mktokens (skipComments : Bool) (node : Option Node) (tt : Nat) (mods : Nat) : List Item :=
  match node with
  | none => []
  | some n =>
    if !n.valid then []
    else
      ⟨u32 (n.start.line - 1), u32 (n.start.col - 1), u32 ((n.stop.col - 1 : Int) - (n.start.col - 1)), .other tt, mods⟩
        :: mkcomments skipComments n

/-- An `ast.CompoundIdentNode`: its text in the file, the identifier it stands for, and its parts. -/
structure Compound where
  node : Node
  raw : Str
  name : Str
  components : List Node
deriving DecidableEq, Repr

def kwGoogleProtobuf : Str := ['g', 'o', 'o', 'g', 'l', 'e', '.', 'p', 'r', 'o', 't', 'o', 'b', 'u', 'f', '.']

/-- The modifier for a type, semantic.go:687-691. -/
def libraryModifier (name : Str) : Nat :=
  let name := if name.head? = some '.' then name.drop 1 else name
  if (indexSub kwGoogleProtobuf name).isSome then 512 else 0

/-- `inspectCompoundIdent`, semantic.go:686-702; `semanticTypeType` is 1. -/
def inspectCompoundIdent (skipComments : Bool) (c : Compound) : List Item :=
  if c.raw = c.name then mktokens skipComments (some c.node) 1 (libraryModifier c.name)
  else c.components.flatMap fun n => mktokens skipComments (some n) 1 (libraryModifier c.name)

end Verif.TokenCells
