import Verif.Util.Sort

/-!
# Document changes

Models `/repo/pkg/lsp/documents.go:18-103`.
-/
namespace Verif.Documents

/-- Outcome of a Go call: a value, a returned error, or a run-time panic. -/
inductive Res (α : Type)
  | ok (a : α)
  | err
  | panic
deriving DecidableEq, Repr

/-- `protocol.Position`. Columns count characters (simplification: the code counts
UTF-16 units; they agree for texts of the Basic Multilingual Plane). -/
structure Pos where
  line : Nat
  char : Nat
deriving DecidableEq, Repr

/-- `protocol.TextDocumentContentChangeEvent`. -/
structure Change where
  range : Option (Pos × Pos)
  rangeLength : Nat := 0
  text : List Char
deriving DecidableEq, Repr

/-- Dependency `protocol.Mapper.PositionOffset` (gopls): offset of a position in a
text; `none` if line or column lie outside. Simplification: gopls also accepts column
0 of the line after the last one as the end of the text; here that is an error. -/
def offset : List Char → Nat → Nat → Option Nat
  | _, 0, 0 => some 0
  | [], _, _ => none
  | c :: t, 0, k + 1 => if c = '\n' then none else (offset t 0 k).map (· + 1)
  | c :: t, l + 1, k =>
    if c = '\n' then (offset t l k).map (· + 1) else (offset t (l + 1) k).map (· + 1)

/-- `diff.Edit`: replace `[start, stop)` by `new`. -/
structure Edit where
  start : Nat
  stop : Nat
  new : List Char
deriving DecidableEq, Repr

/-- Dependency `diff.SortEdits` (gopls): stable sort by start, then by end. -/
def Edit.le (a b : Edit) : Bool :=
  decide (a.start < b.start) || (decide (a.start = b.start) && decide (a.stop ≤ b.stop))

/-- Dependency `diff.validate` (gopls), after sorting: every edit lies inside the text
and no edit starts before the end of the previous one. -/
def validate (len : Nat) (lastEnd : Nat) : List Edit → Bool
  | [] => true
  | e :: es => decide (e.start ≤ e.stop) && decide (e.stop ≤ len) && decide (lastEnd ≤ e.start) &&
      validate len e.stop es

/-- Dependency `diff.Apply` (gopls): the copying loop over sorted edits. -/
def applyLoop (src : List Char) (lastEnd : Nat) : List Edit → List Char
  | [] => src.drop lastEnd
  | e :: es => (src.take e.start).drop lastEnd ++ e.new ++ applyLoop src e.stop es

/-- Dependency `diff.ApplyBytes` (gopls). -/
def apply (src : List Char) (edits : List Edit) : Res (List Char) :=
  let es := isort Edit.le edits
  if validate src.length 0 es then .ok (applyLoop src 0 es) else .err

/-- `protocol.EditsToDiffEdits` (gopls), used by `contentChangeEventsToDiffEdits`,
`/repo/pkg/lsp/documents.go:40-50`: all ranges are converted with the mapper of the
*current* content. The loop of lines 42-47 dereferences `change.Range` (nil: panic)
before any conversion takes place. -/
def toEdit (src : List Char) (c : Change) : Option Edit :=
  match c.range with
  | none => none
  | some (a, b) =>
    match offset src a.line a.char, offset src b.line b.char with
    | some x, some y => some ⟨x, y, c.text⟩
    | _, _ => none

/-- Conversion of all changes; `none` if a position is outside the text. -/
def toEdits (src : List Char) : List Change → Option (List Edit)
  | [] => some []
  | c :: cs =>
    match toEdit src c, toEdits src cs with
    | some e, some es => some (e :: es)
    | _, _ => none

/-- `Cache.ChangedText`, `/repo/pkg/lsp/documents.go:18-38`. `content` is the result of
`GetMapper` (`none`: it returned an error). -/
def changedText (content : Option (List Char)) (changes : List Change) : Res (List Char) :=
  if changes = [] then .err
  else
    match changes with
    | [⟨none, 0, text⟩] => .ok text
    | _ =>
      match content with
      | none => .err
      | some src =>
        if changes.any (fun c => c.range.isNone) then .panic
        else
          match toEdits src changes with
          | none => .err
          | some es => apply src es

/-- `file.Action` (gopls). -/
inductive Action
  | open | change | close | save | create | delete
deriving DecidableEq, Repr

/-- `file.Modification` (the fields used). -/
structure Modification where
  uri : String
  action : Action
  version : Int := 0
  languageID : String := "protobuf"
deriving DecidableEq, Repr

/-- Go's `slices.Delete(s, i, i+1)`; panics if `i+1 > len(s)`. -/
def sliceDelete {α : Type} (l : List α) (i : Nat) : Res (List α) :=
  if i + 1 ≤ l.length then .ok (l.take i ++ l.drop (i + 1)) else .panic

/-- The loop `for _, idx := range toDelete`, `/repo/pkg/lsp/documents.go:89-91`. -/
def deleteAll {α : Type} (l : List α) : List Nat → Res (List α)
  | [] => .ok l
  | i :: is =>
    match sliceDelete l i with
    | .ok l' => deleteAll l' is
    | .err => .err
    | .panic => .panic

/-- Does the second loop (lines 65-77) put this modification on the `toDelete` list?
`resolves u` says whether `URIToPath(u)` succeeds after the mapping update. -/
def isDropped (resolves : String → Bool) (m : Modification) : Bool :=
  !(decide (m.action = .open) && decide (m.languageID ≠ "protobuf")) && !resolves m.uri

/-- The indices collected in `toDelete`, `/repo/pkg/lsp/documents.go:64-77`. -/
def toDelete (resolves : String → Bool) : Nat → List Modification → List Nat
  | _, [] => []
  | i, m :: ms =>
    if isDropped resolves m then i :: toDelete resolves (i + 1) ms
    else toDelete resolves (i + 1) ms

/-- The batch that `DidModifyFiles` passes on to `UpdateOverlays` and, when something
is recompiled, to the version queue: `/repo/pkg/lsp/documents.go:64-100`. -/
def processedBatch (resolves : String → Bool) (ms : List Modification) :
    Res (List Modification) :=
  deleteAll ms (toDelete resolves 0 ms)

end Verif.Documents
