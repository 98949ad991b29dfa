/-!
# Model of the parallel reference search

`findNodeReferences`, `/repo/pkg/lsp/search.go:906-930`, and its consumer, the loops over the
returned channel (`/repo/pkg/lsp/references.go:16`, `:34`), as a transition system. One
goroutine per file; `sync.Map.LoadOrStore`, channel operations and `WaitGroup` operations are
atomic. References are values of a type `R`; `key` is `ref.String()`.
-/
namespace Verif.FanIn

/-- A goroutine: the references it still has to look at, the reference it is about to send,
and whether it has called `wg.Done()`. -/
structure Prod (R : Type) where
  todo : List R
  sending : Option R
  done : Bool

/-- `seen`: the keys in the `sync.Map`; `buffer`: the contents of the channel; `received`: what
the consumer got, in order; `ended`: the consumer's loop has ended; `panicked`: a value was
sent on the closed channel, or it was closed twice. -/
structure State (R K : Type) where
  prods : List (Prod R)
  seen : List K := []
  buffer : List R := []
  closed : Bool := false
  received : List R := []
  ended : Bool := false
  panicked : Bool := false

/-- Start: one goroutine for each file that is not a placeholder (search.go:910-914); `files`
are the results of `FindReferences` for these. -/
def init {R K : Type} (files : List (List R)) : State R K :=
  { prods := files.map (fun rs => ⟨rs, none, false⟩) }

/-- The steps; `cap` is the capacity of the channel, `len(files)` (search.go:908). -/
inductive Step {R K : Type} (key : R → K) (cap : Nat) : State R K → State R K → Prop
  /-- search.go:918-919: the reference was seen before. -/
  | skip (s a r rs b) (hp : s.prods = a ++ ⟨r :: rs, none, false⟩ :: b) (h : key r ∈ s.seen) :
      Step key cap s { s with prods := a ++ ⟨rs, none, false⟩ :: b }
  /-- search.go:918-919: the reference is new; its key is stored. -/
  | store (s a r rs b) (hp : s.prods = a ++ ⟨r :: rs, none, false⟩ :: b) (h : key r ∉ s.seen) :
      Step key cap s { s with prods := a ++ ⟨rs, some r, false⟩ :: b, seen := key r :: s.seen }
  /-- search.go:920: the send, possible if the buffer is not full. -/
  | send (s a r rs b) (hp : s.prods = a ++ ⟨rs, some r, false⟩ :: b)
      (h : s.buffer.length < cap) (hc : s.closed = false) :
      Step key cap s { s with prods := a ++ ⟨rs, none, false⟩ :: b, buffer := s.buffer ++ [r] }
  /-- search.go:920: sending on a closed channel panics. -/
  | sendClosed (s a r rs b) (hp : s.prods = a ++ ⟨rs, some r, false⟩ :: b) (hc : s.closed = true) :
      Step key cap s { s with prods := a ++ ⟨rs, none, false⟩ :: b, panicked := true }
  /-- search.go:917: the goroutine ends. -/
  | done (s a b) (hp : s.prods = a ++ ⟨[], none, false⟩ :: b) :
      Step key cap s { s with prods := a ++ ⟨[], none, true⟩ :: b }
  /-- search.go:926-929: all goroutines have called `wg.Done()`; the channel is closed. -/
  | close (s) (h : ∀ p ∈ s.prods, p.done = true) (hc : s.closed = false) :
      Step key cap s { s with closed := true }
  /-- The consumer receives a value. -/
  | recv (s r rest) (h : s.buffer = r :: rest) (he : s.ended = false) :
      Step key cap s { s with buffer := rest, received := s.received ++ [r] }
  /-- The consumer's loop ends: the channel is closed and empty. -/
  | finish (s) (h : s.buffer = []) (hc : s.closed = true) (he : s.ended = false) :
      Step key cap s { s with ended := true }

/-- `n` steps lead from `s` to `t`. -/
inductive Steps {R K : Type} (key : R → K) (cap : Nat) : Nat → State R K → State R K → Prop
  | refl (s) : Steps key cap 0 s s
  | step {n s t u} : Steps key cap n s t → Step key cap t u → Steps key cap (n + 1) s u

end Verif.FanIn
