/-!
# Model of the lock `Cache.resultsMu` and of the requests that take it

`sync.RWMutex` with its writer preference: a writer that has announced itself keeps out all new
readers (also those that already hold the lock) and waits for the present ones; `Unlock` lets in all
readers that wait.
-/
namespace Verif.RWLock

/-- The operations on the mutex. -/
inductive Act where
  | rlock
  | runlock
  | lock
  | unlock
deriving DecidableEq, Repr

/-- A goroutine: the operations still to be done; `waiting`: it has called the first of them and is
blocked in it. -/
structure Thread where
  prog : List Act
  waiting : Bool := false
deriving DecidableEq, Repr

/-- The writer side of the mutex; a number is the index of a goroutine. `pending`: it owns the inner
mutex and has announced itself; `active`: it holds the lock. -/
inductive Writer where
  | none
  | pending (i : Nat)
  | active (i : Nat)
deriving DecidableEq, Repr

/-- The mutex and the goroutines. `readers`: number of read locks held; `fatal`: an unlock without
lock. -/
structure State where
  threads : List Thread
  readers : Nat := 0
  writer : Writer := .none
  fatal : Bool := false
deriving DecidableEq, Repr

/-- A waiting reader gets the lock. -/
def grant (t : Thread) : Thread := if t.waiting then ⟨t.prog.tail, false⟩ else t

/-- One step of goroutine `i` whose next operation is given; `none`: it is blocked. -/
def stepAct (s : State) (i : Nat) (t : Thread) : Option State :=
  match t.prog with
  | [] => none
  | .rlock :: p =>
    if t.waiting then none
    else match s.writer with
      | .none => some { s with threads := s.threads.set i ⟨p, false⟩, readers := s.readers + 1 }
      | _ => some { s with threads := s.threads.set i ⟨.rlock :: p, true⟩ }
  | .runlock :: p =>
    if s.readers = 0 then some { s with threads := s.threads.set i ⟨p, false⟩, fatal := true }
    else some { s with threads := s.threads.set i ⟨p, false⟩, readers := s.readers - 1 }
  | .lock :: p =>
    match s.writer with
    | .none => some { s with threads := s.threads.set i ⟨.lock :: p, true⟩, writer := .pending i }
    | .pending j =>
      if j = i ∧ s.readers = 0 then
        some { s with threads := s.threads.set i ⟨p, false⟩, writer := .active i }
      else none
    | .active _ => none
  | .unlock :: p =>
    if s.writer = .active i then
      some { s with threads := (s.threads.set i ⟨p, false⟩).map grant,
                    readers := s.readers + (s.threads.filter (·.waiting)).length,
                    writer := .none }
    else some { s with threads := s.threads.set i ⟨p, false⟩, fatal := true }

/-- One step of goroutine `i`. -/
def step (s : State) (i : Nat) : Option State :=
  match s.threads[i]? with
  | none => none
  | some t => stepAct s i t

/-- A schedule; `none` if it picks a blocked goroutine. -/
def run (s : State) : List Nat → Option State
  | [] => some s
  | i :: is => match step s i with
    | none => none
    | some t => run t is

/-- The initial state with the given goroutines. -/
def init (progs : List (List Act)) : State := ⟨progs.map (fun p => ⟨p, false⟩), 0, .none, false⟩

/-- The requests and updates that use `resultsMu`. -/
inductive Request where
  | update
  | lookup
  | typeAtLocation
  | references
  | semanticTokens
  | documentLinks
  | documentSymbols
  | inlayHints
  | codeLens
  | prepareRename
  | rename
  | generatedDefinition
  | workspaceSymbols (results : Nat)
deriving DecidableEq, Repr

/-- A function that takes and releases the read lock once, e.g. `FindResultByURI`. -/
def once : List Act := [.rlock, .runlock]

/-- The lock operations of each request on its path without error:
* `update`: `Compile`, `/repo/pkg/lsp/compiler.go:62-69`;
* `lookup`: any of the functions that take the lock once, `cache.go:117-235`, `documents.go:107-111`;
* `typeAtLocation`: `FindTypeDescriptorAtLocation`, `cache.go:252-261` (no lock around the two calls);
* `references`: `FindReferences`, `references.go:40-73`;
* `semanticTokens`: `semantic.go:119-133,151-157`;
* `documentLinks`: `links.go:12-18`;
* `documentSymbols`: `symbols.go:16-24`;
* `inlayHints`: `inlayhints.go:12-32,93-99` (all hints enabled);
* `codeLens`: `codelens.go:11-20`;
* `prepareRename`, `rename`: `rename.go:11-30,52-68,72-110`;
* `generatedDefinition`: `generated.go:18-24`;
* `workspaceSymbols`: `symbols.go:50-107`, one nested lookup (line 62) per result of `store.Results()`,
  line 104. -/
def trace : Request → List Act
  | .update => [.lock, .unlock]
  | .lookup => once
  | .typeAtLocation => once ++ once
  | .references => once ++ once ++ once ++ once
  | .semanticTokens => [.rlock] ++ once ++ once ++ [.runlock]
  | .documentLinks => [.rlock] ++ once ++ [.runlock]
  | .documentSymbols => [.rlock] ++ once ++ [.runlock]
  | .inlayHints => [.rlock] ++ once ++ ([.rlock] ++ once ++ [.runlock]) ++ [.runlock]
  | .codeLens => [.rlock] ++ once ++ [.runlock]
  | .prepareRename => [.rlock] ++ once ++ once ++ once ++ once ++ [.runlock]
  | .rename => [.rlock] ++ once ++ once ++ once ++ once ++ once ++ [.runlock]
  | .generatedDefinition => [.rlock] ++ once ++ once ++ [.runlock]
  | .workspaceSymbols n => [.rlock] ++ (List.replicate n once).flatten ++ [.runlock]

end Verif.RWLock
