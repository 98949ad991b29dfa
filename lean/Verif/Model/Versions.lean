/-!
# Document version queue

Models `/repo/pkg/lsp/versions.go` (whole file) as a transition system.
Every critical section guarded by `documentVersionQueue.mu` is one atomic step;
the `select` of `Wait` (lines 46-51) is a separate step, so that an arbitrary
number of other steps may happen between registration and wake-up.
-/
namespace Verif.Versions

/-- `protocol.DocumentURI`. -/
abbrev Uri := String

/-- The two fields of `file.Modification` used by `Update`
(`/repo/pkg/lsp/versions.go:54-66`). -/
structure Mod where
  uri : Uri
  version : Int
deriving DecidableEq, Repr

/-- Where a pending call of `Wait` is: `ready` = took the early return
(`/repo/pkg/lsp/versions.go:32-35`), `blocked c` = about to block, or blocking,
on channel `c` in the `select` (lines 46-51). -/
inductive Status
  | ready
  | blocked (chan : Nat)
deriving DecidableEq, Repr

/-- A pending call of `Wait(ctx, uri, version)`; `id` identifies the call. -/
structure Waiter where
  id : Nat
  uri : Uri
  version : Int
  status : Status
deriving DecidableEq, Repr

/-- State of `documentVersionQueue` (`/repo/pkg/lsp/versions.go:11-15`) together
with the pending calls. Channels are numbered in order of creation; `closed`
lists the closed ones; `panicked` records a close of a closed channel (a Go
run-time panic). `queue u` is the inner map `queue[uri]` as a list of
(version, channel) entries; an absent inner map is the empty list. -/
structure State where
  versions : Uri → Option Int := fun _ => none
  queue : Uri → List (Int × Nat) := fun _ => []
  nextChan : Nat := 0
  closed : List Nat := []
  panicked : Bool := false
  waiters : List Waiter := []
  nextId : Nat := 0

/-- `newDocumentVersionQueue`, `/repo/pkg/lsp/versions.go:17-22`. -/
def init : State := {}

/-- Go map assignment `m[k] = x`. -/
def set {β : Type} (f : Uri → β) (k : Uri) (x : β) : Uri → β :=
  fun u => if u = k then x else f u

/-- The condition of line 32: `currentVersion >= version || currentVersion == -1`. -/
def waitFast (cur : Option Int) (v : Int) : Bool :=
  match cur with
  | none => false
  | some c => decide (c ≥ v) || decide (c = -1)

/-- `Wait` up to the unlock, `/repo/pkg/lsp/versions.go:30-44`. -/
def waitEnter (s : State) (u : Uri) (v : Int) : State :=
  if waitFast (s.versions u) v then
    { s with waiters := ⟨s.nextId, u, v, .ready⟩ :: s.waiters, nextId := s.nextId + 1 }
  else
    match (s.queue u).lookup v with
    | some c =>
      { s with waiters := ⟨s.nextId, u, v, .blocked c⟩ :: s.waiters, nextId := s.nextId + 1 }
    | none =>
      { s with
        waiters := ⟨s.nextId, u, v, .blocked s.nextChan⟩ :: s.waiters
        nextId := s.nextId + 1
        queue := set s.queue u ((v, s.nextChan) :: s.queue u)
        nextChan := s.nextChan + 1 }

/-- Go's `close(ch)`: closing a closed channel panics. -/
def closeChan (s : State) (c : Nat) : State :=
  if c ∈ s.closed then { s with panicked := true } else { s with closed := c :: s.closed }

/-- The condition of line 60: `mod.Version == -1 || v <= mod.Version`. -/
def due (version : Int) (v : Int) : Bool :=
  decide (version = -1) || decide (v ≤ version)

/-- One iteration of the outer loop of `Update`,
`/repo/pkg/lsp/versions.go:57-65`. The inner `range` over the map visits each
entry once, in some order; the model closes the channels in list order (which
channels get closed does not depend on it). -/
def updateOne (s : State) (m : Mod) : State :=
  let q := s.queue m.uri
  let s1 := { s with
    versions := set s.versions m.uri (some m.version)
    queue := set s.queue m.uri (q.filter fun e => !due m.version e.1) }
  (q.filter fun e => due m.version e.1).foldl (fun s e => closeChan s e.2) s1

/-- `Update`, `/repo/pkg/lsp/versions.go:54-66`. -/
def update (s : State) (ms : List Mod) : State := ms.foldl updateOne s

/-- What an observer of the API sees. `request id uri v`: call `Wait(uri, v)`;
`granted id`: that call returns nil; `failed id`: it returns the context's
error; `update ms`: `Update(ms...)` was executed. -/
inductive Event
  | request (id : Nat) (uri : Uri) (version : Int)
  | granted (id : Nat)
  | failed (id : Nat)
  | update (ms : List Mod)
deriving DecidableEq, Repr

/-- Is the `case <-qc` branch of the select (line 49), resp. the early return
(line 34), enabled? -/
def canReturn (s : State) (w : Waiter) : Bool :=
  match w.status with
  | .ready => true
  | .blocked c => decide (c ∈ s.closed)

/-- The transition relation. A blocked call can always be cancelled through its
context (line 47). -/
inductive Step : State → Event → State → Prop
  | request (s : State) (u : Uri) (v : Int) :
      Step s (.request s.nextId u v) (waitEnter s u v)
  | granted (s : State) (w : Waiter) (h : w ∈ s.waiters) (hr : canReturn s w = true) :
      Step s (.granted w.id) { s with waiters := s.waiters.filter (fun x => x.id ≠ w.id) }
  | failed (s : State) (w : Waiter) (h : w ∈ s.waiters) (hb : w.status ≠ .ready) :
      Step s (.failed w.id) { s with waiters := s.waiters.filter (fun x => x.id ≠ w.id) }
  | update (s : State) (ms : List Mod) :
      Step s (.update ms) (Versions.update s ms)

/-- Executions from the initial state, with the trace of observed events
(oldest first). -/
inductive Exec : List Event → State → Prop
  | init : Exec [] init
  | step {es : List Event} {s s' : State} {e : Event} :
      Exec es s → Step s e s' → Exec (es ++ [e]) s'

end Verif.Versions
