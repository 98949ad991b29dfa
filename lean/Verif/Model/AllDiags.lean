import Verif.Model.Diagnostics
import Verif.Model.Documents
import Verif.Util.Assoc

/-!
# The report of all diagnostics

Models `HandleError` and `HandleWarning` (/repo/pkg/lsp/diagnostics.go:419-497), `FullDiagnosticSnapshot` (512-535),
`ClearDiagnosticsForPath` (537-569), `toProtocolDiagnostics` (49-108), the callback of `StreamWorkspaceDiagnostics` (112-128) and
`XGetAllDiagnostics` (/repo/pkg/lsp/externalapi.go:12-26). Diagnostics are pointers: an address is an index into the heap, and
`toProtocolDiagnostics` writes to the diagnostic that it is given. Result ids and the flag `dirty` are left out (C07, C08). The
mutexes are left out: all writers hold `resultsMu` or `diagnosticsMu`. Tags, code actions and metadata (C84) are part of `ident`.
-/
namespace Verif.AllDiags

open Diagnostics (Path Related Severity Diag)
open Documents (Res)

/-- A document URI. -/
abbrev Uri := Nat

/-- `ProtoDiagnostic`, diagnostics.go:130-144, with the path and the version. -/
structure Stored where
  path : Path
  version : Int
  diag : Diag
deriving DecidableEq, Repr

/-- An error of the compiler: the file and the range of its position, the version of the file, the other declaration of a
`SymbolRedeclaredError` (`relatedInformationForError`, diagnostics.go:396-408), and the category of an `ExtendedSyntaxError`, or nothing
(`werrorCategoryForError`, 388-394). -/
structure Err where
  file : Path
  version : Int
  range : Nat
  ident : Nat
  other : Option Related
  category : Str
deriving DecidableEq, Repr

/-- What the conversion asks the cache for: `PathToURI`, and the value of the pragma `debug` of a file (`FindPragmasByPath` and `Lookup`). -/
structure Env where
  uriOf : Path → Option Uri
  pragma : Path → Option Str

/-- `protocol.Diagnostic`. -/
structure Item where
  range : Nat
  severity : Severity
  ident : Nat
  related : List (Uri × Nat)
  code : Option Str
deriving DecidableEq, Repr

/-- The heap, and `DiagnosticHandler.diagnostics` with the keys of the map. -/
structure State where
  heap : List Stored := []
  keys : List Path := []
  lists : Path → List Nat := fun _ => []

/-- `getOrCreateDiagnosticListLocked` and `Add` of a new diagnostic, diagnostics.go:410-417, 184-192. -/
def State.add (s : State) (d : Stored) : State :=
  { heap := s.heap ++ [d]
    keys := if d.path ∈ s.keys then s.keys else s.keys ++ [d.path]
    lists := fun q => if q = d.path then s.lists q ++ [s.heap.length] else s.lists q }

/-- `HandleError`, diagnostics.go:419-457. The category is not set. -/
def State.handleError (s : State) (e : Err) : State :=
  s.add ⟨e.file, e.version, ⟨e.ident, e.range, .error, e.other.toList, []⟩⟩

/-- `HandleWarning`, diagnostics.go:459-497; `severityForError` (267-276) of a warning is a warning. -/
def State.handleWarning (s : State) (e : Err) : State :=
  s.add ⟨e.file, e.version, ⟨e.ident, e.range, .warning, e.other.toList, e.category⟩⟩

/-- `DeleteRelated` on the list of the file, diagnostics.go:216-226, 560-565. -/
def State.deleteRelated (s : State) (r : Related) : State :=
  if r.file ∈ s.keys then
    { s with lists := fun q =>
        if q = r.file then (s.lists q).eraseP fun a => decide ((s.heap[a]?).map (·.diag.range) = some r.range) else s.lists q }
  else s

/-- `ClearDiagnosticsForPath`, diagnostics.go:537-569. -/
def State.clear (s : State) (p : Path) : State :=
  if p ∈ s.keys then
    (((s.lists p).filterMap (s.heap[·]?)).flatMap (·.diag.related)).foldl State.deleteRelated
      { s with lists := fun q => if q = p then [] else s.lists q }
  else s

/-- The new value of a diagnostic in `toProtocolDiagnostics`, diagnostics.go:65-83. -/
def promote (env : Env) (d : Stored) : Stored :=
  { d with diag := { d.diag with severity := Diagnostics.reportedSeverity d.diag (env.pragma d.path) } }

/-- The related information, diagnostics.go:52-64: that in unknown files is left out. -/
def relatedOf (env : Env) (rs : List Related) : List (Uri × Nat) :=
  rs.filterMap fun r => (env.uriOf r.file).map fun u => (u, r.range)

/-- The report, diagnostics.go:84-95, made from the diagnostic after it was written. -/
def itemOf (env : Env) (d : Stored) : Item :=
  ⟨d.diag.range, d.diag.severity, d.diag.ident, relatedOf env d.diag.related,
    if d.diag.werrorCategory = [] then none else some d.diag.werrorCategory⟩

/-- `toProtocolDiagnostics`, diagnostics.go:49-108; `none` is a nil pointer dereference. -/
def toProtocol (env : Env) (heap : List Stored) : List Nat → Option (List Stored × List Item)
  | [] => some (heap, [])
  | a :: as =>
    match heap[a]? with
    | none => none
    | some d =>
      match toProtocol env (heap.set a (promote env d)) as with
      | none => none
      | some (heap', items) => some (heap', itemOf env (promote env d) :: items)

/-- The callback of `StreamWorkspaceDiagnostics`, diagnostics.go:113-127, with the list of a path. -/
def State.stream (s : State) (env : Env) (p : Path) : Option (State × Option (Uri × List Item)) :=
  match env.uriOf p with
  | none => some (s, none)
  | some u =>
    match toProtocol env s.heap (s.lists p) with
    | none => none
    | some (heap', items) => some ({ s with heap := heap' }, some (u, items))

/-- The inner loop of `FullDiagnosticSnapshot`, diagnostics.go:517-531: each diagnostic is copied. -/
def copy (heap : List Stored) : List Nat → Option (List Stored × List Nat)
  | [] => some (heap, [])
  | a :: as =>
    match heap[a]? with
    | none => none
    | some d =>
      match copy (heap ++ [d]) as with
      | none => none
      | some (heap', bs) => some (heap', heap.length :: bs)

/-- `FullDiagnosticSnapshot`, diagnostics.go:512-535, over the keys in some order. -/
def snapshot (lists : Path → List Nat) (heap : List Stored) : List Path → Option (List Stored × List (Path × List Nat))
  | [] => some (heap, [])
  | p :: ps =>
    match copy heap (lists p) with
    | none => none
    | some (heap', bs) =>
      match snapshot lists heap' ps with
      | none => none
      | some (heap'', rest) => some (heap'', (p, bs) :: rest)

/-- The loop of `XGetAllDiagnostics`, externalapi.go:18-24. -/
def collect (env : Env) (heap : List Stored) (res : List (Uri × List Item)) :
    List (Path × List Nat) → List Stored × Res (List (Uri × List Item))
  | [] => (heap, .ok res)
  | (p, as) :: rest =>
    match env.uriOf p with
    | none => (heap, .err)
    | some u =>
      match toProtocol env heap as with
      | none => (heap, .panic)
      | some (heap', items) => collect env heap' (Assoc.set res u items) rest

/-- `XGetAllDiagnostics`, externalapi.go:12-26; `order` is the order in which the map of the snapshot is read. -/
def getAll (s : State) (env : Env) (order : List (Path × List Nat) → List (Path × List Nat)) : State × Res (List (Uri × List Item)) :=
  match snapshot s.lists s.heap s.keys with
  | none => (s, .panic)
  | some (heap, snap) =>
    let r := collect env heap [] (order snap)
    ({ s with heap := r.1 }, r.2)

/-- What happens to the diagnostics: reports of the compiler, invalidation of a file, publication of the diagnostics of a file, and calls of
`XGetAllDiagnostics`, in any order of the map. -/
inductive Op where
  | error (e : Err)
  | warning (e : Err)
  | clear (p : Path)
  | stream (env : Env) (p : Path)
  | all (env : Env) (order : List (Path × List Nat) → List (Path × List Nat)) (perm : ∀ l, (order l).Perm l)

/-- One operation; `none` is a panic. -/
def step (s : State) : Op → Option State
  | .error e => some (s.handleError e)
  | .warning e => some (s.handleWarning e)
  | .clear p => some (s.clear p)
  | .stream env p => (s.stream env p).map (·.1)
  | .all env order _ =>
    match getAll s env order with
    | (_, .panic) => none
    | (s', _) => some s'

/-- A history. -/
def run (s : State) : List Op → Option State
  | [] => some s
  | op :: ops =>
    match step s op with
    | none => none
    | some s' => run s' ops

end Verif.AllDiags
