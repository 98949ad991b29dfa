import Verif.Util.Trim
import Verif.Model.GoPath
import Verif.Model.QuickFix
/-!
# Completion of imports and of the syntax version

`/repo/pkg/lsp/completion.go:60-81` (the line of the cursor), 424-459 and 486-497 (cases of `GetCompletions`), 1102-1168
(`completeImports`, `completeSyntaxVersions`), `/repo/pkg/lsp/resolver.go:624-634` (`findImportPathsByPrefix`) and
`/repo/pkg/lsp/search.go:186-198` (which import stands at the cursor). Kinds of items are left out.
-/
namespace Verif.ImportComplete
open Verif.Documents (Pos offset)
open Verif.QuickFix (Edit)
open Verif.TokenCells (u32)

/-- `protocol.CompletionItem`: label and text edit (an item without edit inserts its label). -/
structure Item where
  label : Str
  edit : Option Edit
deriving DecidableEq, Repr

/-- `adjustColumn`, `/repo/pkg/lsp/range.go:51-56`. -/
def adjustColumn (p : Pos) (adjust : Int) : Pos := ⟨p.line, u32 (p.char + adjust)⟩

/-- Dependency `protocol.Mapper.PositionOffset` (gopls): in addition to `offset`, column 0 behind the last line is the end. -/
def mapperOffset (content : Str) (p : Pos) : Option Nat :=
  if p.line = content.count '\n' + 1 ∧ p.char = 0 then some content.length else offset content p.line p.char

/-- `mapper.Content[start:end]` for a range, `none` if the range is invalid (the request fails). -/
def between (content : Str) (a b : Pos) : Option Str :=
  match mapperOffset content a, mapperOffset content b with
  | some x, some y => if x ≤ y then some ((content.drop x).take (y - x)) else none
  | _, _ => none

/-- `textPrecedingCursor`, completion.go:60-70. -/
def lineBefore (content : Str) (pos : Pos) : Option Str := between content ⟨pos.line, 0⟩ pos

/-- `textFollowingCursor`, completion.go:71-81. -/
def lineAfter (content : Str) (pos : Pos) : Option Str := between content pos ⟨pos.line + 1, 0⟩

/-- `strings.TrimPrefix`. -/
def trimPrefix (s p : Str) : Str := if p.isPrefixOf s then s.drop p.length else s

/-- `fmt.Sprintf("%q", s)` for text of printable characters. -/
def quoted (s : Str) : Str := '"' :: (s.flatMap (fun c => if c = '"' ∨ c = '\\' then ['\\', c] else [c]) ++ ['"'])

/-- `ast.ImportNode`: is the keyword `public` present, and the name (`none`: `Name == nil`). -/
structure Node where
  isPublic : Bool
  name : Option Str
deriving DecidableEq, Repr

/-- `findImportPathsByPrefix`, resolver.go:624-634: files known to the server, by URI; the order of a map is arbitrary. -/
def pathsByPrefix (known : List (Str × Str)) (p : Str) : List (Str × Str) := known.filter fun x => p.isPrefixOf x.2

/-- The label of an import path, completion.go:1117-1120. -/
def label (partialPath path : Str) : Str :=
  let l := trimPrefix path (GoPath.dirOf partialPath ++ ['/'])
  let base := GoPath.baseOf path
  if l.length < base.length then base else l

/-- The item of an import path, completion.go:1117-1138. -/
def importItem (partialPath sfx : Str) (pos : Pos) (insertQuotes : Bool) (path : Str) : Item :=
  let text := trimPrefix path partialPath
  ⟨label partialPath path, some ⟨pos, adjustColumn pos sfx.length, if insertQuotes then quoted text else text⟩⟩

/-- The URIs of existing imports, completion.go:1105-1112; paths without URI are skipped. -/
def existingURIs (uriOf : Str → Option Str) (existing : List Str) : List Str := existing.filterMap uriOf

/-- The order of the items, completion.go:1140-1142. -/
def itemLess (a b : Item) : Bool := decide (a.label < b.label)

/-- `completeImports`, completion.go:1102-1144: `out` is a possible result. -/
def CompleteImports (known : List (Str × Str)) (uriOf : Str → Option Str) (partialPath sfx : Str) (existing : List Str) (pos : Pos)
    (insertQuotes : Bool) (out : List Item) : Prop :=
  SortSlice itemLess (((pathsByPrefix known partialPath).filter fun x => !(existingURIs uriOf existing).contains x.1).map
    fun x => importItem partialPath sfx pos insertQuotes x.2) out

/-- The import at the cursor, search.go:186-198: nothing if the statement is incomplete or not among the imports of the linked file. -/
def importAt (imports : List Str) (node : Node) : Option Str := node.name.bind fun n => imports.find? (· = n)

/-- The other imports of the file, completion.go:444-455. -/
def existingPaths (imports : List Str) (node : Node) : List Str :=
  match importAt imports node with
  | none => []
  | some cur => imports.filter (· ≠ cur)

def kwPublic : Str := ['p', 'u', 'b', 'l', 'i', 'c']

/-- What stands between the cursor and the next quotation mark in the line, completion.go:440-442 and 491-495. -/
def untilQuote (following : Str) : Str :=
  match indexChar '"' following with
  | some i => trimSpace (following.take i)
  | none => []

/-- The case `*ast.ImportNode` of `GetCompletions`, completion.go:424-459; `before` and `following` are the parts of the line. -/
def ImportItems (known : List (Str × Str)) (uriOf : Str → Option Str) (imports : List Str) (node : Node) (before following : Str)
    (pos : Pos) (out : List Item) : Prop :=
  let quote := indexChar '"' before
  let first : List Item := if quote = none ∧ node.isPublic = false then [⟨kwPublic, none⟩] else []
  if quote ≠ none ∨ node.name = none then
    let partialPath := match quote with
      | some i => trimSpace (before.drop (i + 1))
      | none => []
    ∃ items, CompleteImports known uriOf partialPath (untilQuote following) (existingPaths imports node) pos (node.name == none) items ∧
      out = first ++ items
  else out = first

def versions : List Str := [['p', 'r', 'o', 't', 'o', '2'], ['p', 'r', 'o', 't', 'o', '3']]

/-- `completeSyntaxVersions`, completion.go:1146-1168. -/
def completeSyntaxVersions (partialVersion sfx : Str) (pos : Pos) : List Item :=
  (versions.filter fun v => partialVersion.isPrefixOf v).map fun v =>
    ⟨v, some ⟨pos, adjustColumn pos sfx.length, trimPrefix v partialVersion⟩⟩

/-- The case `*ast.SyntaxNode` of `GetCompletions`, completion.go:486-497. -/
def syntaxItems (before following : Str) (pos : Pos) : List Item :=
  match indexChar '"' before with
  | some i => completeSyntaxVersions (trimSpace (before.drop (i + 1))) (untilQuote following) pos
  | none => []

/-- The import case of a request at `pos`; `none` as `out` if the request fails. -/
def ImportRequest (known : List (Str × Str)) (uriOf : Str → Option Str) (imports : List Str) (node : Node) (content : Str) (pos : Pos)
    (out : Option (List Item)) : Prop :=
  match lineBefore content pos, lineAfter content pos with
  | some b, some f => ∃ items, out = some items ∧ ImportItems known uriOf imports node b f pos items
  | _, _ => out = none

/-- The syntax case of a request at `pos`. -/
def syntaxRequest (content : Str) (pos : Pos) : Option (List Item) :=
  match lineBefore content pos, lineAfter content pos with
  | some b, some f => some (syntaxItems b f pos)
  | _, _ => none

end Verif.ImportComplete
