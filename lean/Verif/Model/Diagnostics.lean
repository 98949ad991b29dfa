import Verif.Util.Str

/-!
# Diagnostics

Models `/repo/pkg/lsp/diagnostics.go` (lists, handler, severity elevation) and
`/repo/pkg/lsp/pragmas.go:32-37`.
-/
namespace Verif.Diagnostics

abbrev Path := String

/-- `RelatedInformation`, `/repo/pkg/lsp/diagnostics.go:146-149`: a span and the file it
lies in (`rel.Range.Start().Filename`). The message is left out. -/
structure Related where
  file : Path
  range : Nat
deriving DecidableEq, Repr

/-- `protocol.DiagnosticSeverity`. -/
inductive Severity
  | error | warning | information | hint
deriving DecidableEq, Repr

/-- `ProtoDiagnostic`, `/repo/pkg/lsp/diagnostics.go:130-144`. `ident` stands for the
remaining payload (error, tags, code actions, metadata, version). Spans are abstract
(compared for equality only, line 220). -/
structure Diag where
  ident : Nat
  range : Nat
  severity : Severity := .error
  related : List Related := []
  werrorCategory : Str := []
deriving DecidableEq, Repr

/-- A result id: the time stamp of the last reset (`resetResultId`, line 239), `none` is
the empty string. Simplification: ids are the clock readings themselves, not their
RFC3339Nano text (distinct readings have distinct texts). -/
abbrev ResultId := Option Nat

/-- `DiagnosticList`, `/repo/pkg/lsp/diagnostics.go:177-182`. -/
structure DList where
  diags : List Diag := []
  resultId : ResultId := none
  dirty : Bool := false
deriving DecidableEq, Repr

/-- `resetResultId`, `/repo/pkg/lsp/diagnostics.go:239-242`; `now` is the clock. -/
def DList.reset (l : DList) (now : Nat) : DList := { l with resultId := some now, dirty := true }

/-- `Add`, `/repo/pkg/lsp/diagnostics.go:184-192`. -/
def DList.add (l : DList) (now : Nat) (d : Diag) : DList :=
  ({ l with diags := l.diags ++ [d] } : DList).reset now

/-- `Clear`, `/repo/pkg/lsp/diagnostics.go:207-214` (the returned list is `l.diags`). -/
def DList.clear (l : DList) (now : Nat) : DList := ({ l with diags := [] } : DList).reset now

/-- Remove the first diagnostic with the given range; `none` if there is none. -/
def deleteFirst (range : Nat) : List Diag → Option (List Diag)
  | [] => none
  | d :: t => if d.range = range then some t else (deleteFirst range t).map (d :: ·)

/-- `DeleteRelated`, `/repo/pkg/lsp/diagnostics.go:216-226`. -/
def DList.deleteRelated (l : DList) (now : Nat) (r : Related) : DList :=
  match deleteFirst r.range l.diags with
  | none => l
  | some ds => ({ l with diags := ds } : DList).reset now

/-- Answer of `Get`: diagnostics, result id, unchanged. -/
inductive Answer
  | full (ds : List Diag) (id : ResultId)
  | unchanged (id : ResultId)
deriving DecidableEq, Repr

/-- `Get`/`getLocked`, `/repo/pkg/lsp/diagnostics.go:194-205`. `prev = none`: called
without previous id. -/
def DList.get (l : DList) (prev : Option ResultId) : Answer :=
  match prev with
  | some p => if l.resultId = p then .unchanged l.resultId else .full l.diags l.resultId
  | none => .full l.diags l.resultId

/-- `Flush`, `/repo/pkg/lsp/diagnostics.go:228-236`: what is to be published, if
anything, and the new state. -/
def DList.flush (l : DList) : Option (List Diag) × DList :=
  if l.dirty then (some l.diags, { l with dirty := false }) else (none, l)

/-- The operations on one list. -/
inductive Op
  | add (now : Nat) (d : Diag)
  | clear (now : Nat)
  | deleteRelated (now : Nat) (r : Related)
  | flush
deriving DecidableEq, Repr

def DList.step (l : DList) : Op → DList
  | .add now d => l.add now d
  | .clear now => l.clear now
  | .deleteRelated now r => l.deleteRelated now r
  | .flush => l.flush.2

def DList.run (l : DList) (ops : List Op) : DList := ops.foldl DList.step l

/-- `DiagnosticHandler`, `/repo/pkg/lsp/diagnostics.go:249-254`. `listening`: is a
listener installed; `log`: everything ever passed to a listener, oldest first. The map
is a function together with the list of its keys. -/
structure Handler where
  keys : List Path := []
  lists : Path → DList := fun _ => {}
  listening : Bool := false
  log : List (Path × List Diag) := []

def Handler.set (h : Handler) (p : Path) (l : DList) : Handler :=
  { h with lists := fun q => if q = p then l else h.lists q }

/-- Operations of the handler. `create` and `add` are the two critical sections of
`HandleError`/`HandleWarning` (lines 433-435 and 449, 474-476 and 490). -/
inductive HOp
  | create (p : Path)
  | add (p : Path) (now : Nat) (d : Diag)
  | clearPath (p : Path) (now : Nat)
  | subscribe
  | unsubscribe
  | flush
deriving DecidableEq, Repr

/-- The loop of `ClearDiagnosticsForPath` over related information,
`/repo/pkg/lsp/diagnostics.go:558-566`. -/
def Handler.deleteAllRelated (h : Handler) (now : Nat) (rs : List Related) : Handler :=
  rs.foldl (fun h r =>
    if r.file ∈ h.keys then h.set r.file ((h.lists r.file).deleteRelated now r) else h) h

/-- The loop body of `Flush`, `/repo/pkg/lsp/diagnostics.go:597-607`. -/
def Handler.flushOne (h : Handler) (p : Path) : Handler :=
  match (h.lists p).flush with
  | (none, l) => h.set p l
  | (some ds, l) =>
    if h.listening then { h.set p l with log := h.log ++ [(p, ds)] } else h.set p l

/-- `Flush`, `/repo/pkg/lsp/diagnostics.go:593-608`, over the keys in some order. -/
def Handler.flush (h : Handler) : Handler := h.keys.foldl Handler.flushOne h

/-- One operation of the handler: `getOrCreateDiagnosticListLocked` (410-417), `Add`,
`ClearDiagnosticsForPath` (537-569), `Stream` (571-591: install the listener, remove it
when the context is done), `Flush` (593-608). An `add` is only issued after `create`. -/
def Handler.step (h : Handler) : HOp → Handler
  | .create p => if p ∈ h.keys then h else { h.set p {} with keys := h.keys ++ [p] }
  | .add p now d => if p ∈ h.keys then h.set p ((h.lists p).add now d) else h
  | .clearPath p now =>
    if p ∈ h.keys then
      let prev := (h.lists p).diags
      (h.set p ((h.lists p).clear now)).deleteAllRelated now (prev.flatMap (·.related))
    else h
  | .subscribe => { h with listening := true }
  | .unsubscribe => { h with listening := false }
  | .flush => h.flush

def Handler.run (h : Handler) (ops : List HOp) : Handler := ops.foldl Handler.step h

/-- The loop over `strings.Fields(dbg)`, `/repo/pkg/lsp/diagnostics.go:70-77`. -/
def suppressed (category : Str) (dbg : Str) : Bool :=
  (fieldsBy isSpace dbg).any fun f =>
    match cut '=' f with
    | some (k, v) => decide (k = "Wnoerror".toList) && (decide (v = category) || decide (v = "all".toList))
    | none => false

/-- Severity elevation in `toProtocolDiagnostics`, `/repo/pkg/lsp/diagnostics.go:65-83`.
`pragma` is the value of the file's `debug` pragma, if the file and the pragma exist. -/
def reportedSeverity (d : Diag) (pragma : Option Str) : Severity :=
  if d.severity = .warning ∧ d.werrorCategory ≠ [] then
    match pragma with
    | some dbg => if suppressed d.werrorCategory dbg then d.severity else .error
    | none => .error
  else d.severity

end Verif.Diagnostics
