/-!
# Model of the asynchronous request handler

`AsyncHandler`, `/repo/pkg/lsprpc/handler.go:61-93`, as a transition system. Requests are
numbered in the order of arrival; request `i` waits for channel `i` and unlocks channel
`i + 1`. Channel 0 is closed at the start (lines 68-69).
-/
namespace Verif.Async

/-- A request: whether its method is long-lived (`streamingRequestMethods`, lines 62-65), whether
the inner handler was called for it, and whether the inner handler has called `reply`. -/
structure Req where
  streaming : Bool
  started : Bool := false
  replied : Bool := false
deriving DecidableEq, Repr

/-- `closed`: the closed channels; `panicked`: a channel was closed twice. -/
structure State where
  reqs : List Req := []
  closed : List Nat := [0]
  panicked : Bool := false
deriving DecidableEq, Repr

/-- Events, in the order in which they happen. `reply i`: the handler of request `i` calls
`reply`, i.e. it has its answer. -/
inductive Event where
  | arrive (streaming : Bool)
  | start (i : Nat)
  | reply (i : Nat)
deriving DecidableEq, Repr

/-- `close(c)` -/
def close (s : State) (c : Nat) : State :=
  if c ∈ s.closed then { s with panicked := true } else { s with closed := c :: s.closed }

/-- The steps. -/
inductive Step : State → Event → State → Prop
  /-- handler.go:71-75: a long-lived request unlocks the next one at once. -/
  | arriveStreaming (s) :
      Step s (.arrive true) (close { s with reqs := s.reqs ++ [⟨true, false, false⟩] } (s.reqs.length + 1))
  /-- handler.go:71-82: an ordinary request unlocks the next one by its reply. -/
  | arrive (s) : Step s (.arrive false) { s with reqs := s.reqs ++ [⟨false, false, false⟩] }
  /-- handler.go:85-88: the goroutine passes `<-waitForPrevious` and calls the handler. -/
  | start (s i q) (hq : s.reqs[i]? = some q) (hn : q.started = false) (hc : i ∈ s.closed) :
      Step s (.start i) { s with reqs := s.reqs.set i { q with started := true } }
  /-- The handler of a long-lived request replies; `reply` was not replaced. -/
  | replyStreaming (s i q) (hq : s.reqs[i]? = some q) (hs : q.started = true) (hr : q.replied = false)
      (hk : q.streaming = true) :
      Step s (.reply i) { s with reqs := s.reqs.set i { q with replied := true } }
  /-- The handler of an ordinary request replies, handler.go:78-81. A handler replies once
  (contract of `jsonrpc2.Handler`). -/
  | reply (s i q) (hq : s.reqs[i]? = some q) (hs : q.started = true) (hr : q.replied = false)
      (hk : q.streaming = false) :
      Step s (.reply i) (close { s with reqs := s.reqs.set i { q with replied := true } } (i + 1))

/-- Executions; the log has the latest event last. -/
inductive Run : List Event → State → Prop
  | init : Run [] {}
  | step {log s e t} : Run log s → Step s e t → Run (log ++ [e]) t

end Verif.Async
