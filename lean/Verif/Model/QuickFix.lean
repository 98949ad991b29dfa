import Verif.Model.FindTypes
import Verif.Model.Documents
import Verif.Model.TokenCells

/-!
# Quick fixes for unused imports and undeclared names

`codeActionsForError`, `tagsForError`, `severityForError`, `metadataForError`,
`/repo/pkg/lsp/diagnostics.go:256-387`, and `RefactorUndeclaredName`,
`/repo/pkg/lsp/refactor.go:132-189`. Titles and commands are left out except for the ranges that
the command reveals and selects; the kinds are those that the model of code actions uses.
-/
namespace Verif.QuickFix
open Verif.FindTypes (Decl Query)
open Verif.TokenCells (u32)
open Verif.Documents (Pos)

/-- `ast.SourcePos`: line and column, both counted from 1. -/
structure SourcePos where
  line : Nat
  col : Nat
deriving DecidableEq, Repr

/-- `toPosition`, `/repo/pkg/lsp/range.go:17-22`. -/
def toPosition (p : SourcePos) : Pos := ⟨u32 ((p.line : Int) - 1), u32 ((p.col : Int) - 1)⟩

/-- `protocol.TextEdit`. -/
structure Edit where
  start : Pos
  stop : Pos
  text : Str
deriving DecidableEq, Repr

/-- The kinds of the actions created here. -/
inductive Kind
  | organizeImports | quickFix
deriving DecidableEq, Repr

/-- `CodeAction`, `/repo/pkg/lsp/diagnostics.go:162-169`, without title; `path` is the file that is
edited; `reveal` and `select` are the ranges of the command. -/
structure Action where
  kind : Kind
  path : Str
  preferred : Bool
  edits : List Edit
  reveal : Option (Pos × Pos) := none
  select : Option (Pos × Pos) := none
deriving DecidableEq, Repr

/-- What an error of the compiler says: an unused import; an undeclared name together with the
path of the file and the end of the last token before the end of the file; anything else. -/
inductive Err
  | unusedImport (imp : Str)
  | undeclared (name hint path : Str) (lastEnd : SourcePos)
  | other
deriving DecidableEq, Repr

/-- The text inserted for a new message, `/repo/pkg/lsp/diagnostics.go:325`. -/
def newMessage (name : Str) : Str :=
  ['\n', '\n', 'm', 'e', 's', 's', 'a', 'g', 'e', ' '] ++ name ++ [' ', '{', '\n', ' ', ' ', '\n', '}']

/-- `codeActionsForError`, `/repo/pkg/lsp/diagnostics.go:278-369`; `file`, `start` and `stop` are
the position of the error. -/
def codeActionsForError (e : Err) (file : Str) (start stop : SourcePos) : List Action :=
  match e with
  | .unusedImport _ =>
    [{ kind := .organizeImports
       path := file
       preferred := true
       edits := [⟨⟨u32 ((start.line : Int) - 1), 0⟩, ⟨u32 stop.line, 0⟩, []⟩] }]
  | .undeclared name _ path lastEnd =>
    if name.contains '.' then []
    else
      let pos : Pos := ⟨u32 ((lastEnd.line : Int) - 1), u32 ((lastEnd.col : Int) - 1)⟩
      [{ kind := .quickFix
         path := path
         preferred := false
         edits := [⟨pos, pos, newMessage name⟩]
         reveal := some (⟨u32 (lastEnd.line + 1), 0⟩, ⟨u32 (lastEnd.line + 3), 1⟩)
         select := some (⟨u32 (lastEnd.line + 2), 2⟩, ⟨u32 (lastEnd.line + 2), 2⟩) }]
  | .other => []

/-- `protocol.DiagnosticSeverity`, as far as it matters. -/
inductive Severity
  | error | warning
deriving DecidableEq, Repr

/-- `severityForError`, `/repo/pkg/lsp/diagnostics.go:267-276`. -/
def severityForError (original : Severity) (e : Err) : Severity :=
  match e with
  | .unusedImport _ => .warning
  | _ => original

/-- `tagsForError`, `/repo/pkg/lsp/diagnostics.go:256-265`: is the diagnostic tagged as
unnecessary? -/
def unnecessary (e : Err) : Bool :=
  match e with
  | .unusedImport _ => true
  | _ => false

/-- `metadataForError`, `/repo/pkg/lsp/diagnostics.go:371-387`: the metadata entry "kind". -/
inductive Meta
  | unusedImport (path : Str)
  | undeclaredName (name hint : Str)
deriving DecidableEq, Repr

/-- `metadataForError`, `/repo/pkg/lsp/diagnostics.go:371-387`. -/
def metadataForError (e : Err) : Option Meta :=
  match e with
  | .unusedImport imp => some (.unusedImport imp)
  | .undeclared name hint _ _ => some (.undeclaredName name hint)
  | .other => none

/-! ## Imports for undeclared names -/

/-- The filter of `RefactorUndeclaredName`, `/repo/pkg/lsp/refactor.go:137-147`; `cur` is the path
of the file with the undeclared name. -/
def importable (cur : Str) (d : Decl) : Bool :=
  match d.kind with
  | .message mapEntry _ => !mapEntry && decide (d.path ≠ cur)
  | .enum => decide (d.path ≠ cur)
  | .field => decide (d.path ≠ cur)
  | .other => false

/-- Which search is started, `/repo/pkg/lsp/refactor.go:149-153`. -/
def importQuery (pkg name : Str) : Query :=
  if name.contains '.' then .qualified name else .qualified (Completion.append pkg name)

/-- The part of a name after its last dot, `/repo/pkg/lsp/refactor.go:157`. -/
def baseName (name : Str) : Str :=
  match lastIndexChar '.' name with
  | some i => name.drop (i + 1)
  | none => name

/-- The conditions of the loop over the candidates, `/repo/pkg/lsp/refactor.go:156-170`. -/
def isMatch (name : Str) (d : Decl) : Bool :=
  if Completion.name d.fullName = baseName name then
    if name.contains '.' then
      (Completion.parent name).isSuffixOf (Completion.parent d.fullName)
    else decide (Completion.name d.fullName = name)
  else false

/-- `editAddImport`, `/repo/pkg/lsp/completion.go:588-595`; `point` is the result of the external
`ImportInsertionPoint`. -/
def editAddImport (point : SourcePos) (path : Str) : Edit :=
  ⟨toPosition point, toPosition point,
    ['\n', 'i', 'm', 'p', 'o', 'r', 't', ' ', '"'] ++ path ++ ['"', ';']⟩

/-- An offered import: the declaration that it is for, and the edit. -/
structure Import where
  decl : Decl
  edit : Edit
deriving DecidableEq, Repr

/-- `RefactorUndeclaredName`, `/repo/pkg/lsp/refactor.go:155-189`, applied to the candidates that
the search has found. -/
def imports (point : SourcePos) (name : Str) (candidates : List Decl) : List Import :=
  (candidates.filter (isMatch name)).map (fun d => ⟨d, editAddImport point d.path⟩)

end Verif.QuickFix
