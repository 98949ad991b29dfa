/-!
# Model of the queue of deferred code actions

`/repo/pkg/lsp/refactor.go:40-104` as a transition system. The queue is a concurrent map;
each of its operations is atomic. Identifiers are random UUIDs: that they never repeat is an
assumption of the model (precondition of `create`). The closure of an action is represented by
a number.
-/
namespace Verif.ActionQueue

/-- `queue`: the map of pending actions; `created`: actions whose identifier was made and
whose timer runs, but which are not yet stored (between lines 61 and 66); `used`: all
identifiers made so far. -/
structure State where
  queue : List (Nat × Nat) := []
  created : List (Nat × Nat) := []
  used : List Nat := []
deriving DecidableEq, Repr

/-- The empty manager. -/
def init : State := {}

/-- Observable events. `handOut id a`: the action `a` is stored and its identifier returned to
the client. `resolved id a`: resolving `id` runs the closure `a`; `refused id`: resolving `id`
returns an error. `expired id`: the 30 s timer of `id` fires. -/
inductive Event where
  | create (id a : Nat)
  | handOut (id a : Nat)
  | expired (id : Nat)
  | resolved (id a : Nat)
  | refused (id : Nat)
deriving DecidableEq, Repr

/-- Remove a key from the map. -/
def delete (id : Nat) (q : List (Nat × Nat)) : List (Nat × Nat) := q.filter (fun e => e.1 ≠ id)

/-- The steps. -/
inductive Step : State → Event → State → Prop
  /-- `enqueue`, refactor.go:60-64: make an identifier, start the timer. -/
  | create (s : State) (id a : Nat) (h : id ∉ s.used) :
      Step s (.create id a) { s with created := (id, a) :: s.created, used := id :: s.used }
  /-- `enqueue`, refactor.go:65-81: store and return. -/
  | handOut (s : State) (id a : Nat) (h : (id, a) ∈ s.created) :
      Step s (.handOut id a)
        { s with created := delete id s.created, queue := (id, a) :: delete id s.queue }
  /-- The timer's function, refactor.go:62-64. It may still run after `cancelDelete` (line 98)
  if it was started before. -/
  | expired (s : State) (id : Nat) (h : id ∈ s.used) :
      Step s (.expired id) { s with queue := delete id s.queue }
  /-- `resolve`, refactor.go:94-100: `LoadAndDelete` finds the action. -/
  | resolved (s : State) (id a : Nat) (h : (id, a) ∈ s.queue) :
      Step s (.resolved id a) { s with queue := delete id s.queue }
  /-- `resolve`, refactor.go:95-97: nothing found (also for malformed data, lines 85-92). -/
  | refused (s : State) (id : Nat) (h : ∀ a, (id, a) ∉ s.queue) :
      Step s (.refused id) s

/-- Executions; the log has the latest event last. -/
inductive Run : List Event → State → Prop
  | init : Run [] init
  | step {log s e t} : Run log s → Step s e t → Run (log ++ [e]) t

end Verif.ActionQueue
