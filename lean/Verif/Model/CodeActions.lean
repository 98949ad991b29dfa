import Verif.Util.Str
import Verif.Util.Assoc
/-!
# Model of code action requests

`/repo/pkg/lsp/codeactions.go`.
-/
namespace Verif.CodeActions

/-- `protocol.CodeActionKind` -/
abbrev Kind := Str

/-- `protocol.DocumentURI` -/
abbrev Uri := String

/-- A text edit: an identification of its range and its new text. -/
structure Edit where
  range : Nat
  newText : Str
deriving DecidableEq, Repr

/-- A code action. `edit`: `Edit.Changes` (a map; the list is its iteration order), or `none` if
`Edit` is nil. Not modelled: diagnostics, command, preference. -/
structure Action where
  title : String
  kind : Kind
  edit : Option (List (Uri × List Edit))
deriving DecidableEq, Repr

/-- `protocol.SourceOrganizeImports` -/
def organizeImports : Kind := "source.organizeImports".toList
/-- `protocol.SourceFixAll` -/
def fixAll : Kind := "source.fixAll".toList
/-- `protocol.QuickFix` -/
def quickFix : Kind := "quickfix".toList
/-- `protocol.RefactorRewrite` -/
def refactorRewrite : Kind := "refactor.rewrite".toList
/-- `protocol.RefactorInline` -/
def refactorInline : Kind := "refactor.inline".toList
/-- `protocol.RefactorExtract` -/
def refactorExtract : Kind := "refactor.extract".toList

/-- `supportedCodeActions`, codeactions.go:149-156. -/
def supported : List Kind :=
  [fixAll, organizeImports, quickFix, refactorRewrite, refactorInline, refactorExtract]

/-- `changes[uri] = append(changes[uri], edit)`, codeactions.go:132. -/
def addEdit (m : List (Uri × List Edit)) (u : Uri) (e : Edit) : List (Uri × List Edit) :=
  Assoc.set m u ((Assoc.get m u).getD [] ++ [e])

/-- The state of the loop: `changes` and `seen`. -/
structure Agg where
  changes : List (Uri × List Edit) := []
  seen : List Str := []

/-- The body of the inner loop for one edit, codeactions.go:126-132. -/
def aggEdit (u : Uri) (s : Agg) (e : Edit) : Agg :=
  if e.newText.length > 0 then
    if e.newText ∈ s.seen then s
    else { changes := addEdit s.changes u e, seen := e.newText :: s.seen }
  else { s with changes := addEdit s.changes u e }

/-- The loop over the edits of one document, codeactions.go:125-133. -/
def aggDoc (s : Agg) (d : Uri × List Edit) : Agg := d.2.foldl (aggEdit d.1) s

/-- The outer loop, codeactions.go:122-138; `none`: `action.Edit` is nil and the access panics. -/
def aggLoop : List Action → List Action × Agg → Option (List Action × Agg)
  | [], st => some st
  | a :: as, (filtered, s) =>
    if a.kind = organizeImports then
      match a.edit with
      | none => none
      | some ch => aggLoop as (filtered, ch.foldl aggDoc s)
    else aggLoop as (filtered ++ [a], s)

/-- `aggregateOrganizeImportsActions`, codeactions.go:110-147. -/
def aggregate (actions : List Action) : Option (List Action) :=
  match actions with
  | [] => some []
  | actions =>
    match aggLoop actions ([], {}) with
    | none => none
    | some (filtered, s) =>
      if s.changes = [] then some filtered
      else some (filtered ++ [⟨"Organize Imports", organizeImports, some s.changes⟩])

/-- The condition at codeactions.go:177. -/
def matchesOnly (only k : Kind) : Bool := decide (only = k) || (only ++ ['.']).isPrefixOf k

/-- The inner loop, codeactions.go:176-180; `order` is the iteration order of the map of supported
kinds. The values of the map are all `true`. -/
def wantSupported (order : List Kind) (want : List (Kind × Bool)) (only : Kind) : List (Kind × Bool) :=
  order.foldl (fun w k => if matchesOnly only k then Assoc.set w k ((Assoc.get w k).getD false || true) else w) want

/-- The body of the outer loop, codeactions.go:175-182. -/
def wantOne (order explicit : List Kind) (want : List (Kind × Bool)) (only : Kind) : List (Kind × Bool) :=
  let w := wantSupported order want only
  Assoc.set w only ((Assoc.get w only).getD false || decide (only ∈ explicit))

/-- `requestedActionKinds`, codeactions.go:159-188. `explicit` are the kinds that are only given on
request (`GoTest`). `none` is the error. -/
def requestedKinds (order explicit only : List Kind) : Option (List (Kind × Bool)) :=
  let want := if only.length = 0 then supported.map (fun k => (k, true))
    else only.foldl (wantOne order explicit) []
  if want.length = 0 then none else some want

/-- `want[k]` -/
def wants (want : List (Kind × Bool)) (k : Kind) : Bool := (Assoc.get want k).getD false

/-- A code action stored in the data of a diagnostic; `uri` is the result of `PathToURI`. -/
structure Raw where
  title : String
  kind : Kind
  uri : Option Uri
  edits : List Edit
deriving DecidableEq, Repr

/-- A diagnostic of the request: whether it has data, whether the data can be read, the raw actions,
and the name for diagnostics of kind "undeclared name". -/
structure Diag where
  hasData : Bool
  readable : Bool := true
  actions : List Raw := []
  undeclared : Option Str := none
deriving DecidableEq, Repr

/-- `toProtocolCodeActions`, codeactions.go:78-108. -/
def toActions (want : List (Kind × Bool)) (raws : List Raw) : List Action :=
  raws.filterMap fun r => match r.uri with
    | none => none
    | some u => if wants want r.kind then some ⟨r.title, r.kind, some [(u, r.edits)]⟩ else none

/-- The kind chosen at codeactions.go:39-48. -/
def undeclaredKind (want : List (Kind × Bool)) : Option Kind :=
  if wants want quickFix then some quickFix
  else if wants want organizeImports then some organizeImports
  else if wants want fixAll then some fixAll
  else none

/-- The actions for an undeclared name, codeactions.go:36-56; `imports` is the result of
`RefactorUndeclaredName`, one action per candidate, with the given kind. -/
def undeclaredActions (imports : Str → Kind → List Action) (want : List (Kind × Bool)) :
    Option Str → List Action
  | none => []
  | some name =>
    if name = [] then []
    else match undeclaredKind want with
      | none => []
      | some k =>
        let actions := imports name k
        if actions.length ≠ 1 ∧ k = organizeImports then [] else actions

/-- The loop over the diagnostics, codeactions.go:21-60. `none` is an error. -/
def diagLoop (imports : Str → Kind → List Action) (want : List (Kind × Bool)) :
    List Diag → Option (List Action)
  | [] => some []
  | d :: ds =>
    if d.hasData = false then diagLoop imports want ds
    else if d.readable = false then none
    else (diagLoop imports want ds).map
      (fun rest => toActions want d.actions ++ undeclaredActions imports want d.undeclared ++ rest)

/-- The kinds of the analyzers, refactor.go:26-38. -/
def analyzerKinds : List Kind := [refactorRewrite, refactorExtract, refactorInline]

/-- `FindRefactorActions`, refactor.go:106-130: the results of the wanted analyzers (in some order,
here by kind); `refactors k` are the actions found by the analyzers of kind `k`. -/
def refactorActions (refactors : Kind → List Action) (want : List (Kind × Bool)) : List Action :=
  (analyzerKinds.filter (fun k => wants want k)).flatMap refactors

/-- The result of a request. -/
inductive Result where
  | panic
  | err
  | ok (actions : List Action)
deriving DecidableEq, Repr

/-- The end of `GetCodeActions`, codeactions.go:72-75. -/
def finish (want : List (Kind × Bool)) (result : List Action) : Result :=
  if wants want organizeImports then
    match aggregate result with
    | none => .panic
    | some r => .ok r
  else .ok result

/-- `GetCodeActions`, codeactions.go:13-76. `linked`: a (partial) link result exists;
`mapperOk`: the mapper of the document is available. -/
def getCodeActions (order explicit : List Kind) (imports : Str → Kind → List Action)
    (refactors : Kind → List Action) (linked mapperOk : Bool) (only : List Kind) (diags : List Diag) : Result :=
  match requestedKinds order explicit only with
  | none => .err
  | some want =>
    match diagLoop imports want diags with
    | none => .err
    | some result =>
      if (wants want refactorExtract || wants want refactorInline || wants want refactorRewrite) && linked then
        if mapperOk then finish want (result ++ refactorActions refactors want) else .err
      else finish want result

end Verif.CodeActions
