import Mathlib.Logic.Function.Basic
import Verif.Model.Async
import Verif.Model.RWLock

/-!
# Model of the accesses to the shared maps of the server

The requests of a client, with the asynchronous handler of `Model/Async.lean`. Each request has a
program: the operations on the mutexes and the accesses to the maps and slices that are shared
between requests. An access takes two steps, so that two accesses may overlap.
-/
namespace Verif.Races

/-- The mutexes; a number stands for a cache (a workspace folder).
* `caches`: `Server.cachesMu`, `/repo/pkg/lsp/server.go:28`;
* `once`: the mutex of `Server.shutdownOnce`, server.go:759-768;
* `results`: `Cache.resultsMu`, `/repo/pkg/lsp/cache.go:32`;
* `paths`: `Resolver.pathsMu`, `/repo/pkg/lsp/resolver.go:47`. -/
inductive Lock where
  | caches
  | once
  | results (c : Nat)
  | paths (c : Nat)
deriving DecidableEq, Repr

/-- The shared data.
* `caches`: the maps `Server.caches` and `Server.cacheCancels`, server.go:29-30;
* `results`: the slice `Cache.results`, cache.go:33;
* `partials`: the maps `unlinkedResults` and `partiallyLinkedResults`, cache.go:40-41;
* `paths`: the five maps of the resolver, resolver.go:48-52. -/
inductive Var where
  | caches
  | results (c : Nat)
  | partials (c : Nat)
  | paths (c : Nat)
deriving DecidableEq, Repr

/-- The operations of a request. -/
inductive Act where
  | rlock (l : Lock)
  | runlock (l : Lock)
  | lock (l : Lock)
  | unlock (l : Lock)
  | read (v : Var)
  | write (v : Var)
deriving DecidableEq, Repr

/-! ### The parts of the programs -/

/-- `URIToPath`, `PathToURI`, `SyntheticFileContents`, `findImportPathsByPrefix`,
`IsRealWorkspaceLocalFile`: resolver.go:74-108,577-589,624-634. -/
def pathLookup (c : Nat) : List Act := [.rlock (.paths c), .read (.paths c), .runlock (.paths c)]

/-- `UpdateURIPathMappings`, `FindFileByPath`: resolver.go:110-112,277-280. -/
def pathUpdate (c : Nat) : List Act := [.lock (.paths c), .write (.paths c), .unlock (.paths c)]

/-- `CacheForURI`, server.go:216-247; `cs`: the caches that are asked with `TracksURI`. -/
def cacheForURI (cs : List Nat) : List Act :=
  [.rlock .caches, .read .caches, .runlock .caches] ++ cs.flatMap pathLookup

/-- `CacheForWorkspace`, server.go:250-259. -/
def cacheForWorkspace : List Act := [.rlock .caches, .read .caches, .runlock .caches]

/-- The functions that take `resultsMu` for reading once, e.g. `FindResultOrPartialResultByURI`,
cache.go:151-222; the functions that do not need a path are included (see `Step.skip`). -/
def resultLookup (c : Nat) : List Act :=
  [.rlock (.results c)] ++ pathLookup c ++ [.read (.partials c), .read (.results c), .runlock (.results c)]

/-- One round of `compileLocked`, `/repo/pkg/lsp/compiler.go:71-162`: the compiler calls
`FindFileByPath` for `m` paths, and its hooks (lines 31-52) and lines 85-151 change the results; then
`CheckIncompleteDescriptors`, resolver.go:210-212. `partialResultsMu` only separates goroutines of one
and the same request and is left out. -/
def compileRound (c : Nat) (m : Nat) : List Act :=
  [.write (.partials c)] ++ (List.replicate m (pathUpdate c)).flatten ++
    [.write (.results c), .write (.partials c)] ++
    [.lock (.paths c), .read (.results c), .write (.paths c), .unlock (.paths c)]

/-- `Compile`, compiler.go:62-69; `rounds`: the rounds of `compileLocked`, which calls itself at its
end (line 161), with the number of paths that each looks for. -/
def compile (c : Nat) (rounds : List Nat) : List Act :=
  [.lock (.results c)] ++ rounds.flatMap (compileRound c) ++ [.unlock (.results c)]

/-- `DidModifyFiles`, `/repo/pkg/lsp/documents.go:50-99`, for `n` modifications. -/
def modify (c n : Nat) (rounds : List Nat) : List Act :=
  (List.replicate n (pathLookup c)).flatten ++ pathUpdate c ++ (List.replicate n (pathLookup c)).flatten ++
    compile c rounds

/-- A request that reads the results as described by `RWLock.trace`: after each `RLock` of `resultsMu`
the results and the paths may be read. -/
def expand (c : Nat) : RWLock.Act → List Act
  | .rlock => [.rlock (.results c)] ++ pathLookup c ++ [.read (.partials c), .read (.results c)]
  | .runlock => [.runlock (.results c)]
  | .lock => [.lock (.results c)]
  | .unlock => [.unlock (.results c)]

/-- The program of a reading request, see `RWLock.trace`. -/
def query (c : Nat) (r : RWLock.Request) : List Act := (RWLock.trace r).flatMap (expand c)

/-- `cacheInitLocked` for a new cache, server.go:80-88: `LoadFiles` calls `DidModifyFiles`
(cache.go:103-113) before the cache is put into the map. The goroutines of lines 90-106 are left
out. -/
def cacheInit (c n : Nat) (rounds : List Nat) : List Act := modify c n rounds ++ [.write .caches]

/-- `XGetURIPathMappings`, `/repo/pkg/lsp/externalapi.go:63-71`. -/
def xPathMappings (c : Nat) : List Act := [.rlock (.results c), .read (.paths c), .runlock (.results c)]

/-- `XListWorkspaceLocalURIs`, externalapi.go:73-83, with `n` known files. -/
def xListLocal (c n : Nat) : List Act :=
  [.rlock (.results c), .read (.paths c)] ++
    (List.replicate n (pathLookup c ++ [.read (.paths c)])).flatten ++ [.runlock (.results c)]

/-- `doGenerate`, `/repo/pkg/lsprpc/handler.go:123-131`, for `n` documents. -/
def doGenerate (c n : Nat) : List Act :=
  xPathMappings c ++ (List.replicate n (resultLookup c)).flatten

/-- A new workspace folder: the number of its cache, the number of files, the rounds of the compiler. -/
abbrev Folder := Nat × Nat × List Nat

/-- The requests. `cs`: see `cacheForURI`; `c`: the cache of the document. -/
inductive Kind where
  /-- `Initialize`, server.go:120-131 -/
  | init (folders : List Folder)
  /-- server.go:779-796; `removed`: the number of removed folders. -/
  | didChangeWorkspaceFolders (added : List Folder) (removed : Nat)
  /-- server.go:879-900; `n`: the number of caches. -/
  | didChangeConfiguration (n : Nat)
  /-- The notifications about documents, server.go:324-520. -/
  | didModify (cs : List Nat) (c n : Nat) (rounds : List Nat)
  /-- The requests about a document: hover, definition, references, semantic tokens, links, formatting,
  inlay hints, code actions, code lenses, rename, document symbols; `r`: see `RWLock.trace`. -/
  | document (cs : List Nat) (c : Nat) (r : List RWLock.Request)
  /-- server.go:262-268 with `/repo/pkg/lsp/completion.go:44-51,620-630`; `n`: lookups. -/
  | completion (cs : List Nat) (c n : Nat)
  /-- server.go:855-861; `cs`: the caches with the number of their results. -/
  | symbol (cs : List (Nat × Nat))
  /-- Shutdown and Exit, server.go:759-776; `n`: the number of caches. -/
  | shutdown (n : Nat)
  /-- `/repo/pkg/lsp/commands.go:82-91` -/
  | cmdSynthetic (cs : List Nat) (c : Nat)
  /-- commands.go:92-108 -/
  | cmdAst (cs : List Nat) (c : Nat)
  /-- commands.go:109-165; `n`: the number of old caches, `folders`: the new ones. -/
  | cmdReindex (n : Nat) (folders : List Folder)
  /-- commands.go:166-175; `n`: the number of caches. -/
  | cmdRefresh (n : Nat)
  /-- commands.go:176-185 -/
  | cmdGenerated (cs : List Nat) (c : Nat)
  /-- commands.go:186-220 with handler.go:100-109 -/
  | cmdGenerate (cs : List Nat) (c n : Nat)
  /-- commands.go:186-220 with handler.go:110-115 -/
  | cmdGenerateWorkspace (c n : Nat)
deriving DecidableEq, Repr

/-- `streamingRequestMethods`, handler.go:62-65: all commands are `workspace/executeCommand`;
`workspace/diagnostic` is not implemented by the server (server.go:660). -/
def Kind.streaming : Kind → Bool
  | .cmdSynthetic .. | .cmdAst .. | .cmdReindex .. | .cmdRefresh .. | .cmdGenerated .. | .cmdGenerate ..
  | .cmdGenerateWorkspace .. => true
  | _ => false

/-- `cacheInitLocked` for some folders, e.g. server.go:125-130. -/
def initFolders (fs : List Folder) : List Act := fs.flatMap (fun f => cacheInit f.1 f.2.1 f.2.2)

/-- The program of a request, see the comments of `Kind`. -/
def program : Kind → List Act
  | .init fs => [.lock .caches] ++ initFolders fs ++ [.unlock .caches]
  | .didChangeWorkspaceFolders fs n =>
    [.lock .caches] ++ initFolders fs ++ List.replicate n (.write .caches) ++ [.unlock .caches]
  | .didChangeConfiguration n => [.rlock .caches] ++ List.replicate n (.read .caches) ++ [.runlock .caches]
  | .didModify cs c n rounds => cacheForURI cs ++ modify c n rounds
  | .document cs c rs => cacheForURI cs ++ rs.flatMap (query c)
  | .completion cs c n => cacheForURI cs ++ (List.replicate n (resultLookup c)).flatten ++ [.read (.results c)]
  | .symbol cs => [.read .caches] ++ cs.flatMap (fun c => query c.1 (.workspaceSymbols c.2) ++ [.read .caches])
  | .shutdown n =>
    [.lock .once, .read .caches] ++ List.replicate n (.write .caches) ++ [.write .caches, .unlock .once]
  | .cmdSynthetic cs c => cacheForURI cs ++ pathLookup c
  | .cmdAst cs c => cacheForURI cs ++ resultLookup c
  | .cmdReindex n fs =>
    [.lock .caches] ++ List.replicate n (.read .caches) ++ List.replicate n (.write .caches) ++
      [.write .caches] ++ fs.flatMap (fun f => cacheInit f.1 f.2.1 f.2.2 ++ modify f.1 f.2.1 f.2.2) ++
      [.unlock .caches]
  | .cmdRefresh n => [.lock .caches] ++ List.replicate n (.read .caches) ++ [.unlock .caches]
  | .cmdGenerated cs c => cacheForURI cs ++ query c .generatedDefinition
  | .cmdGenerate cs c n => cacheForURI cs ++ doGenerate c n
  | .cmdGenerateWorkspace c n => cacheForWorkspace ++ xListLocal c n ++ doGenerate c n

/-! ### Executions -/

/-- A request that has arrived: `done`: the operations that are behind it; `prog`: those that are
left; `busy`: it is in the middle of the access that is the first of `prog`. -/
structure Thread where
  kind : Kind
  done : List Act := []
  prog : List Act
  busy : Bool := false
deriving DecidableEq, Repr

/-- `rd`: the requests that hold the lock for reading, `wr`: the one that holds it for writing. -/
structure State where
  async : Async.State := {}
  threads : List Thread := []
  rd : Lock → List Nat := fun _ => []
  wr : Lock → Option Nat := fun _ => none

inductive Event where
  | arrive (k : Kind)
  | start (i : Nat)
  | reply (i : Nat)
  | act (i : Nat)
  | skip (i : Nat)
deriving DecidableEq, Repr

/-- The next operation of request `i`; `none`: it is blocked. A waiting writer does not keep readers
out, other than in `sync.RWMutex`: the model has more executions. A `RUnlock` or `Unlock` of a mutex
that is not held (a fatal error in Go) is not possible; no request does so (`C103_unlocks`). -/
def exec (s : State) (i : Nat) (t : Thread) : Option State :=
  match t.prog with
  | [] => none
  | .rlock l :: p =>
    if s.wr l = none then
      some { s with threads := s.threads.set i { t with done := t.done ++ [.rlock l], prog := p },
                    rd := Function.update s.rd l (i :: s.rd l) }
    else none
  | .runlock l :: p =>
    if i ∈ s.rd l then
      some { s with threads := s.threads.set i { t with done := t.done ++ [.runlock l], prog := p },
                    rd := Function.update s.rd l ((s.rd l).erase i) }
    else none
  | .lock l :: p =>
    if s.wr l = none ∧ s.rd l = [] then
      some { s with threads := s.threads.set i { t with done := t.done ++ [.lock l], prog := p },
                    wr := Function.update s.wr l (some i) }
    else none
  | .unlock l :: p =>
    if s.wr l = some i then
      some { s with threads := s.threads.set i { t with done := t.done ++ [.unlock l], prog := p },
                    wr := Function.update s.wr l none }
    else none
  | a :: p =>
    if t.busy then
      some { s with threads := s.threads.set i { t with done := t.done ++ [a], prog := p, busy := false } }
    else some { s with threads := s.threads.set i { t with busy := true } }

/-- Each lock is released in `p` as often as it is taken. -/
def Neutral (p : List Act) : Prop :=
  ∀ l, p.count (.rlock l) = p.count (.runlock l) ∧ p.count (.lock l) = p.count (.unlock l)

/-- The steps: those of the asynchronous handler, and the operations of the requests between the call
of the handler and its reply. -/
inductive Step : State → Event → State → Prop
  | arrive (s k a) (h : Async.Step s.async (.arrive k.streaming) a) :
      Step s (.arrive k) { s with async := a, threads := s.threads ++ [{ kind := k, prog := program k }] }
  | start (s i a) (h : Async.Step s.async (.start i) a) : Step s (.start i) { s with async := a }
  | reply (s i a t) (h : Async.Step s.async (.reply i) a) (ht : s.threads[i]? = some t) (hp : t.prog = []) :
      Step s (.reply i) { s with async := a }
  | act (s i q t s') (hq : s.async.reqs[i]? = some q) (hs : q.started = true) (hr : q.replied = false)
      (ht : s.threads[i]? = some t) (h : exec s i t = some s') : Step s (.act i) s'
  /-- A part of the program is left out: a branch that is not taken, or a return with an error; the
  deferred unlocks are done in any case. -/
  | skip (s i q t p r) (hq : s.async.reqs[i]? = some q) (hs : q.started = true) (hr : q.replied = false)
      (ht : s.threads[i]? = some t) (hb : t.busy = false) (hp : t.prog = p ++ r) (hn : Neutral p) :
      Step s (.skip i) { s with threads := s.threads.set i { t with done := t.done ++ p, prog := r } }

inductive Run : List Event → State → Prop
  | init : Run [] {}
  | step {log s e t} : Run log s → Step s e t → Run (log ++ [e]) t

end Verif.Races
