import Verif.Model.FormatWriter
/-!
# Model of how the formatter writes option lists and type names

/repo/pkg/format/formatter.go:938-976 (`writeField`, the type), 1321-1396 (`writeCompactOptions`, the
one-line form), 1639-1668 (`writeCompoundIdent`, `writeCompountIdentForFieldName`), 1677-1715
(`writeCompoundStringLiteral`), 1955-2049 (`writeStart`, `writeInline`). The nodes have no comments.
Every function yields the operations of `Verif.FormatWriter` that it performs.
-/
namespace Verif.CompactOptions
open Verif.FormatWriter

/-- A terminal node: a rune or another token. -/
inductive Term where
  | rune (c : Char)
  | text (s : Str)
deriving DecidableEq, Repr

/-- `writeNode` of a terminal node, formatter.go:1826-1834 and e.g. 1736-1738. -/
def Term.op : Term → Op
  | .rune c => .rune c
  | .text s => .write s

/-- The text of a terminal node. -/
def Term.str : Term → Str
  | .rune c => [c]
  | .text s => s

/-- The rune of the node, which `Indent` looks at. -/
def Term.rune? : Term → Option Char
  | .rune c => some c
  | .text _ => none

/-- `writeInline` of a terminal node without comments, formatter.go:2025-2049. -/
def inlineOps (t : Term) : List Op := [.inline true, t.op, .inline false]

/-- `writeStart` of a terminal node without comments, formatter.go:1955-2014; `blank` says that there is an
empty line before it and the previous node is not an open brace. -/
def startOps (blank : Bool) (t : Term) : List Op :=
  (if blank then [.line []] else []) ++ [.indentation t.rune?, t.op]

/-- `writeLineElement` of a string literal without comments, formatter.go:2069-2109. -/
def lineElementOps (s : Str) : List Op := [.indentation none, .write s, .line []]

/-- `writeCompoundStringLiteral` with a trailing punctuation and without indentation, formatter.go:1677-1697. -/
def stringsOps (blank : Bool) : List Str → List Op
  | [] => []
  | [s] => startOps blank (.text s)
  | s :: ss => lineElementOps s ++ stringsOps blank ss

/-- A value: string literals next to each other, or another value, of which the operations that write it
are given. -/
inductive Value where
  | strings (blank : Bool) (parts : List Str)
  | other (ops : List Op)

/-- An element of an option list; `stray` is a separator without an option. An option has a name, the sign
`=` and a value. -/
inductive Opt where
  | stray
  | option (name : List Term) (value : Value) (sep : Option Char)

/-- The loop of `writeCompactOptions`, formatter.go:1343-1371, with the closing bracket; `more` says that
the element is not the last one. -/
def optionsOps : List Opt → List Op
  | [] => inlineOps (.rune ']')
  | .stray :: os => optionsOps os
  | .option name value sep :: os =>
    name.flatMap inlineOps ++ [.space] ++ inlineOps (.rune '=') ++
    match value with
    | .strings blank parts => .line [] :: stringsOps blank parts ++ inlineOps (.rune ']')
    | .other ops => [.space, .inline true] ++ ops ++ [.inline false] ++
      (if sep.isSome ∧ os ≠ [] then inlineOps (.rune ',') ++ [.space] else []) ++ optionsOps os

/-- `writeCompactOptions` in the one-line form, formatter.go:1341-1372. -/
def compactOps (os : List Opt) : List Op := if os = [] then [] else inlineOps (.rune '[') ++ optionsOps os

/-- `writeCompountIdentForFieldName`, formatter.go:1655-1668. -/
def fieldTypeOps (blank : Bool) (components : List Term) : List Op :=
  match components with
  | [] => []
  | .rune c :: ts => startOps blank (.rune c) ++ (Term.rune c :: ts).flatMap inlineOps
  | .text s :: ts => startOps blank (.text s) ++ ts.flatMap inlineOps

/-- `writeCompoundIdent`, formatter.go:1639-1643, as used for a field with a label. -/
def compoundOps (components : List Term) : List Op := components.flatMap inlineOps

end Verif.CompactOptions
