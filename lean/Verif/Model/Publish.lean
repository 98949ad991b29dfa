import Verif.Model.Diagnostics

/-!
# Model of the way of diagnostics to the client

`Server.cacheInitLocked` (`/repo/pkg/lsp/server.go:81-107`), `StreamWorkspaceDiagnostics` (`/repo/pkg/lsp/diagnostics.go:112-128`), `Stream` and
`Flush` (`/repo/pkg/lsp/diagnostics.go:571-608`) as a transition system. Three goroutines take part: the one that compiles (several requests
may, but `resultsMu` lets in one at a time, `/repo/pkg/lsp/compiler.go:62-69`), the one that installs and removes the listener, and the one
that publishes.

Simplifications: the URI of a path does not change; the conversion of a diagnostic (C09) is the identity; `listenerMu` is represented by the
condition that the listener is not removed during a call of it; log messages are left out.
-/
namespace Verif.Publish

open Diagnostics

abbrev Uri := Nat

/-- `WorkspaceFullDocumentDiagnosticReport`, diagnostics.go:118-126, without the kind and the result id. -/
structure Report where
  uri : Uri
  version : Int
  items : List Diag
deriving DecidableEq, Repr

/-- The goroutine of `Stream`: before line 574, at line 586, after line 590. -/
inductive Stream
  | starting | waiting | done
deriving DecidableEq, Repr

/-- The goroutine that publishes: at the `select` (server.go:92), in `PublishDiagnostics` (line 97), after the return (line 94). -/
inductive Publisher
  | idle
  | busy (r : Report)
  | stopped
deriving DecidableEq, Repr

/-- `handler` has the lists and whether there is a listener; `flush`: the paths that `Flush` still has to look at, if it runs; `calling`: the
report that the listener is about to send (diagnostics.go:118); `channel`: the buffer of the channel; `versions`: `documentVersions`. -/
structure State where
  handler : Handler := {}
  versions : Uri → Int := fun _ => 0
  flush : Option (List Path) := none
  calling : Option Report := none
  channel : List Report := []
  stream : Stream := .starting
  publisher : Publisher := .idle
  cancelled : Bool := false

/-- The size of the buffer of the channel, server.go:88. -/
def capacity : Nat := 1

inductive Event
  /-- A diagnostic is added, or those of a path are cleared. -/
  | modify (op : HOp)
  /-- The versions of some documents. -/
  | update (versions : List (Uri × Int))
  | startFlush
  | clean (p : Path)
  | unheard (p : Path)
  | unknown (p : Path)
  | call (p : Path) (r : Report)
  | send (r : Report)
  | endFlush
  | install
  | remove
  | cancel
  | receive (r : Report)
  | published (r : Report)
  | failed (r : Report)
  | stop
deriving DecidableEq, Repr

/-- The operations of the compiler on the lists: not those of the listener, and not `Flush`. -/
def isModification : HOp → Bool
  | .create _ => true
  | .add _ _ _ => true
  | .clearPath _ _ => true
  | _ => false

/-- `documentVersions.Update`, `/repo/pkg/lsp/versions.go:54-58`, without the waiting requests (C01). -/
def setVersions (versions : Uri → Int) (mods : List (Uri × Int)) : Uri → Int :=
  mods.foldl (fun vs m => fun u => if u = m.1 then m.2 else vs u) versions

inductive Step (uriOf : Path → Option Uri) : State → Event → State → Prop
  /-- The compiler calls `HandleError`, `HandleWarning` or `ClearDiagnosticsForPath`. -/
  | modify (s : State) (op : HOp) (h : isModification op = true) (hf : s.flush = none) :
      Step uriOf s (.modify op) { s with handler := s.handler.step op }
  /-- `/repo/pkg/lsp/documents.go:97-99`. -/
  | update (s : State) (mods : List (Uri × Int)) (hf : s.flush = none) :
      Step uriOf s (.update mods) { s with versions := setVersions s.versions mods }
  /-- `Flush`, diagnostics.go:594-597; a map is traversed in any order. -/
  | startFlush (s : State) (order : List Path) (h : order.Perm s.handler.keys) (hf : s.flush = none) :
      Step uriOf s .startFlush { s with flush := some order }
  /-- Line 599: the list is not dirty. -/
  | clean (s : State) (p : Path) (rest : List Path) (hf : s.flush = some (p :: rest)) (hc : s.calling = none)
      (hd : (s.handler.lists p).dirty = false) :
      Step uriOf s (.clean p) { s with handler := s.handler.flushOne p, flush := some rest }
  /-- Line 602: there is no listener. -/
  | unheard (s : State) (p : Path) (rest : List Path) (hf : s.flush = some (p :: rest)) (hc : s.calling = none)
      (hd : (s.handler.lists p).dirty = true) (hl : s.handler.listening = false) :
      Step uriOf s (.unheard p) { s with handler := s.handler.flushOne p, flush := some rest }
  /-- Line 603 and lines 114-117: the path has no URI. -/
  | unknown (s : State) (p : Path) (rest : List Path) (hf : s.flush = some (p :: rest)) (hc : s.calling = none)
      (hd : (s.handler.lists p).dirty = true) (hl : s.handler.listening = true) (hu : uriOf p = none) :
      Step uriOf s (.unknown p) { s with handler := s.handler.flushOne p, flush := some rest }
  /-- Line 603 and lines 114, 118-126. -/
  | call (s : State) (p : Path) (rest : List Path) (u : Uri) (hf : s.flush = some (p :: rest)) (hc : s.calling = none)
      (hd : (s.handler.lists p).dirty = true) (hl : s.handler.listening = true) (hu : uriOf p = some u) :
      Step uriOf s (.call p ⟨u, s.versions u, (s.handler.lists p).diags⟩)
        { s with handler := s.handler.flushOne p, flush := some rest, calling := some ⟨u, s.versions u, (s.handler.lists p).diags⟩ }
  /-- Line 118: there is room in the channel. -/
  | send (s : State) (r : Report) (hc : s.calling = some r) (hr : s.channel.length < capacity) :
      Step uriOf s (.send r) { s with calling := none, channel := s.channel ++ [r] }
  /-- Line 608; the locks are released. -/
  | endFlush (s : State) (hf : s.flush = some []) (hc : s.calling = none) :
      Step uriOf s .endFlush { s with flush := none }
  /-- `Stream`, lines 574-576. -/
  | install (s : State) (h : s.stream = .starting) :
      Step uriOf s .install { s with stream := .waiting, handler := s.handler.step .subscribe }
  /-- `Stream`, lines 586-590; the lock is held by readers while the listener is called. -/
  | remove (s : State) (h : s.stream = .waiting) (hx : s.cancelled = true) (hc : s.calling = none) :
      Step uriOf s .remove { s with stream := .done, handler := s.handler.step .unsubscribe }
  /-- `cacheDestroyLocked`, server.go:115. -/
  | cancel (s : State) : Step uriOf s .cancel { s with cancelled := true }
  /-- server.go:95. -/
  | receive (s : State) (r : Report) (rest : List Report) (hp : s.publisher = .idle) (hr : s.channel = r :: rest) :
      Step uriOf s (.receive r) { s with publisher := .busy r, channel := rest }
  /-- server.go:97-105, without error. -/
  | published (s : State) (r : Report) (hp : s.publisher = .busy r) :
      Step uriOf s (.published r) { s with publisher := .idle }
  /-- server.go:101-103: the error is logged. -/
  | failed (s : State) (r : Report) (hp : s.publisher = .busy r) :
      Step uriOf s (.failed r) { s with publisher := .idle }
  /-- server.go:93-94. -/
  | stop (s : State) (hp : s.publisher = .idle) (hx : s.cancelled = true) :
      Step uriOf s .stop { s with publisher := .stopped }

/-- Executions; the latest event is last. -/
inductive Run (uriOf : Path → Option Uri) (s : State) : List Event → State → Prop
  | nil : Run uriOf s [] s
  | snoc {tr t e u} : Run uriOf s tr t → Step uriOf t e u → Run uriOf s (tr ++ [e]) u

end Verif.Publish
