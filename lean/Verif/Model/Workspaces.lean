import Verif.Util.Str
import Verif.Util.Assoc
/-!
# Model of the workspace folders of the server

`Server.caches`, `Server.cacheCancels` and the lock `cachesMu`:
`/repo/pkg/lsp/server.go:38-58,81-131,216-259,764-796,879-890` and
`/repo/pkg/lsp/commands.go:79-222`.
-/
namespace Verif.Workspaces

/-- `protocol.WorkspaceFolder`: the path of its URI and its name. Simplification: the URI of a
folder is identified with its path (`DocumentURI(folder.URI).Path()`). -/
structure Folder where
  path : Str
  name : Str
deriving DecidableEq, Repr

/-- A document URI after `url.Parse` (`ok` = no parse error), server.go:220-224. -/
structure Uri where
  ok : Bool := true
  path : Str
  fragment : Str := []
deriving DecidableEq, Repr

/-- A `Cache`: its workspace folder, whether the Go language driver is available
(`resolver.goLanguageDriver != nil`), and the URIs for which `TracksURI` holds. -/
structure Cache where
  folder : Folder
  hasDriver : Bool
  tracks : List Uri
deriving DecidableEq, Repr

/-- The server. `locked`: `cachesMu` is held for writing. `started`: the background tasks started
so far (identity, folder path); `cancelled`: the tasks whose cancel function was called, in order,
with repetitions; `panicked`: a nil cancel function was called. -/
structure Server where
  locked : Bool := false
  caches : List (Str × Cache) := []
  cancels : List (Str × Nat) := []
  started : List (Nat × Str) := []
  cancelled : List Nat := []
  panicked : Bool := false
deriving DecidableEq, Repr

/-- `cacheInitLocked`, server.go:81-107: a new cancel function is stored, the cache is stored and
the background goroutines are started. The next task identity is the number of tasks started. -/
def cacheInit (s : Server) (c : Cache) (path : Str) : Server :=
  { s with
    cancels := Assoc.set s.cancels path s.started.length
    caches := Assoc.set s.caches path c
    started := s.started ++ [(s.started.length, path)] }

/-- `ca(err)`, server.go:115; `ca` is nil if there is no entry. -/
def callCancel (s : Server) : Option Nat → Server
  | none => { s with panicked := true }
  | some t => { s with cancelled := s.cancelled ++ [t] }

/-- `cacheDestroyLocked`, server.go:110-117. -/
def cacheDestroy (s : Server) (path : Str) : Server :=
  match Assoc.get s.caches path with
  | none => s
  | some _ =>
    callCancel { s with caches := Assoc.del s.caches path, cancels := Assoc.del s.cancels path }
      (Assoc.get s.cancels path)

/-- `NewCache(folder)`; what the environment makes of a folder is the parameter `env`. -/
abbrev Env := Folder → Bool × List Uri

/-- `NewCache` followed by `cacheInitLocked`, server.go:125-130, 783-788, commands.go:156-158. -/
def addFolder (env : Env) (s : Server) (f : Folder) : Server :=
  cacheInit s ⟨f, (env f).1, (env f).2⟩ f.path

/-- The body of `DidChangeWorkspaceFolders` between `Lock` and `Unlock`, server.go:783-793. -/
def changeFolders (env : Env) (s : Server) (added removed : List Folder) : Server :=
  (removed.map (·.path)).foldl cacheDestroy (added.foldl (addFolder env) s)

/-- The loop over `s.caches` calling `cacheDestroyLocked`, commands.go:150-152, server.go:772-774.
Deleting from a map while ranging over it still visits every other key. -/
def destroyAll (s : Server) : Server := (Assoc.keys s.caches).foldl cacheDestroy s

/-- `clear(s.caches)` -/
def clearCaches (s : Server) : Server := { s with caches := [] }

/-- `protols/reindexWorkspaces` between `Lock` and `Unlock`, commands.go:110-163. The replay of the
overlays does not touch the maps or the lock. -/
def reindex (env : Env) (s : Server) : Server :=
  (s.caches.map (fun e => e.2.folder)).foldl (addFolder env) (clearCaches (destroyAll s))

/-- `shutdown`, server.go:770-776 (takes no lock). -/
def shutdown (s : Server) : Server := clearCaches (destroyAll s)

/-- The folder suffix `/vendor`, server.go:235. -/
def vendor : Str := "/vendor".toList

/-- The condition of the first loop of `CacheForURI`, server.go:233-238. -/
def serves (u : Uri) (e : Str × Cache) : Bool :=
  e.1.isPrefixOf u.path && !(e.1 ++ vendor).isPrefixOf u.path

/-- `CacheForURI` after the map was copied, server.go:220-247; the list is the copy in its
iteration order. `none` is an error. -/
def cacheForURI (caches : List (Str × Cache)) (u : Uri) : Option Cache :=
  if u.ok = false then none
  else if u.fragment ≠ [] then
    (caches.find? (fun e => decide (e.2.folder.name = u.fragment))).map (·.2)
  else match caches.find? (serves u) with
    | some e => some e.2
    | none => (caches.find? (fun e => decide (u ∈ e.2.tracks))).map (·.2)

/-- `CacheForWorkspace`, server.go:250-259. -/
def cacheForWorkspace (caches : List (Str × Cache)) (path : Str) : Option Cache :=
  (caches.find? (fun e => decide (e.2.folder.path = path))).map (·.2)

/-- How a request ends: it waits for the lock for ever, it panics, or it returns (with or without an
error) and leaves a new state. -/
inductive Outcome where
  | blocked
  | panicked
  | done (err : Bool) (s : Server)
deriving DecidableEq, Repr

/-- `cachesMu.Lock()` or `cachesMu.RLock()`: blocks while the lock is held for writing. -/
def acquire (s : Server) (k : Server → Outcome) : Outcome := if s.locked then .blocked else k s

/-- `cachesMu.Lock()` -/
def lock (s : Server) (k : Server → Outcome) : Outcome := acquire s fun s => k { s with locked := true }

/-- `cachesMu.Unlock()` -/
def unlock (s : Server) : Server := { s with locked := false }

/-- The first argument of a command that names a document: absent (`params.Arguments[0]` panics),
malformed JSON, or a URI. -/
inductive DocArg where
  | missing
  | malformed
  | uri (u : Uri)
deriving DecidableEq, Repr

/-- The first argument of any other command, commands.go:185-217. `badType`: a type assertion on
one of the fields fails. -/
inductive OtherArg where
  | missing
  | malformed
  | badType
  | uri (u : Uri)
  | workspace (path : Str)
  | none
deriving DecidableEq, Repr

/-- The commands of `ExecuteCommand`; `fails` is the outcome of the part of the command that runs
after the cache was found (it does not use `cachesMu`). -/
inductive Cmd where
  | syntheticFileContents (a : DocArg) (fails : Bool)
  | ast (a : DocArg) (fails : Bool)
  | reindexWorkspaces
  | refreshModules
  | goToGeneratedDefinition (a : DocArg) (fails : Bool)
  | other (a : OtherArg) (fails : Bool)
deriving DecidableEq, Repr

/-- `CacheForURI` as a request step: the read lock is taken and released (server.go:217-219). -/
def withCache (s : Server) (u : Uri) (fails : Bool) : Outcome :=
  acquire s fun s => .done ((cacheForURI s.caches u).isNone || fails) s

/-- The shape of commands.go:81-90, 91-108 and 176-184. -/
def docCmd (s : Server) (a : DocArg) (fails : Bool) : Outcome :=
  match a with
  | .missing => .panicked
  | .malformed => .done true s
  | .uri u => withCache s u fails

/-- The loop of `protols/refreshModules`, commands.go:168-173: `true` if it returns early with an
error. -/
def refreshFails (caches : List (Str × Cache)) : Bool := caches.any (fun e => !e.2.hasDriver)

/-- `Server.ExecuteCommand`, commands.go:80-224. Note that `protols/refreshModules` returns at
line 170 without `Unlock`. -/
def execCmd (env : Env) (s : Server) : Cmd → Outcome
  | .syntheticFileContents a fails => docCmd s a fails
  | .ast a fails => docCmd s a fails
  | .reindexWorkspaces => lock s fun s => .done false (unlock (reindex env s))
  | .refreshModules => lock s fun s =>
      if refreshFails s.caches then .done true s else .done false (unlock s)
  | .goToGeneratedDefinition a fails => docCmd s a fails
  | .other a fails =>
    match a with
    | .missing => .panicked
    | .malformed => .done true s
    | .badType => .panicked
    | .uri u => withCache s u fails
    | .workspace p => acquire s fun s => .done ((cacheForWorkspace s.caches p).isNone || fails) s
    | .none => .done fails s

/-- The requests that use `cachesMu`: commands, the requests for a document (all of which start with
`CacheForURI`), folder changes, and configuration changes (server.go:879-890, read lock). -/
inductive Req where
  | cmd (c : Cmd)
  | doc (u : Uri) (fails : Bool)
  | folders (added removed : List Folder)
  | config (fails : Bool)
deriving DecidableEq, Repr

/-- One request. -/
def exec (env : Env) (s : Server) : Req → Outcome
  | .cmd c => execCmd env s c
  | .doc u fails => withCache s u fails
  | .folders a r => lock s fun s => .done false (unlock (changeFolders env s a r))
  | .config fails => acquire s fun s => .done fails s

/-- A sequence of requests, one after the other, up to the first one that does not return. -/
def execAll (env : Env) (s : Server) : List Req → Outcome
  | [] => .done false s
  | r :: rs => match exec env s r with
    | .done _ s' => execAll env s' rs
    | o => o

/-- Changes of the set of folders: `Initialize` and `DidChangeWorkspaceFolders` (the former adds
only), re-indexing, shutdown. -/
inductive Op where
  | change (added removed : List Folder)
  | reindex
  | shutdown
deriving DecidableEq, Repr

/-- One change of the set of folders. -/
def apply (env : Env) (s : Server) : Op → Server
  | .change a r => changeFolders env s a r
  | .reindex => reindex env s
  | .shutdown => shutdown s

/-- A sequence of changes from the initial state of `NewServer`. -/
def run (env : Env) (ops : List Op) : Server := ops.foldl (apply env) {}

end Verif.Workspaces
