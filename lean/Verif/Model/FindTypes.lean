import Verif.Model.Completion

/-!
# Search for declarations by prefix in all files of a workspace

`FindAllDescriptorsByPrefix` and `FindAllDescriptorsByQualifiedPrefix`,
`/repo/pkg/lsp/cache.go:329-451`, and the completion of type names that uses them,
`/repo/pkg/lsp/completion.go:1015-1054`. The search starts one goroutine per file through an
`errgroup` with a limit; the goroutines write into slots of a shared slice. It is modelled as a
transition system; starting a goroutine, one search in a file together with the write into its
slot, and the return of `Wait` are atomic steps.
-/
namespace Verif.FindTypes

/-- What the filters look at: a message (is it a map entry, has it extension ranges), an enum, a
field (`protoreflect.ExtensionDescriptor` is an alias of `FieldDescriptor`: extensions and
ordinary fields are not told apart by a type switch), anything else. -/
inductive Kind
  | message (mapEntry extendable : Bool)
  | enum
  | field
  | other
deriving DecidableEq, Repr

/-- A descriptor: full name, kind, and the path of its file. -/
structure Decl where
  fullName : Str
  kind : Kind
  path : Str
deriving DecidableEq, Repr

/-- A `linker.File`: its path, whether it is a placeholder, its package and the descriptors
that it contains. -/
structure File where
  path : Str
  placeholder : Bool := false
  pkg : Str
  decls : List Decl
deriving DecidableEq, Repr

/-- `c.results` and `c.partiallyLinkedResults`. -/
structure Cache where
  results : List File
  partials : Str → Option File

/-- The file that is searched in place of an entry of `c.results`: the entry itself, or the
partially linked result if the entry is a placeholder, `/repo/pkg/lsp/cache.go:371-377` and
`:419-425`. `none`: the loop goes on with the next file. -/
def Cache.effective (c : Cache) (f : File) : Option File :=
  if f.placeholder then c.partials f.path else some f

/-- The two searches: with a prefix relative to the package of each file, or with a qualified
prefix. -/
inductive Query
  | unqualified (pre : Str)
  | qualified (pre : Str)
deriving DecidableEq, Repr

/-- The prefix that is passed to `FindDescriptorsByPrefix` for a file, or `none` if the file is
skipped: `/repo/pkg/lsp/cache.go:379-386` and `:413-438`. -/
def Query.target (q : Query) (f : File) : Option Str :=
  if f.pkg = [] then none
  else
    match q with
    | .unqualified pre => some (Completion.append f.pkg pre)
    | .qualified pre =>
      match pre with
      | '.' :: rest => if rest.isPrefixOf f.pkg then some rest else none
      | _ => some pre

/-- State of the goroutine of a file. -/
inductive Task
  | idle | running | ended
deriving DecidableEq, Repr

/-- `next`: the index of the loop over `c.results`; `tasks`, `slots` and `paths`: one entry per
file (`slots` is `descriptorsByFile`, `paths` is `pathIndex`); `cancelled`: the context of the
group is cancelled; `returned`: `eg.Wait()` has returned. -/
structure State where
  next : Nat := 0
  tasks : List Task
  slots : List (List Decl)
  paths : List Str
  cancelled : Bool := false
  returned : Bool := false

/-- `/repo/pkg/lsp/cache.go:366-369` and `:410-413`. -/
def State.init (c : Cache) : State :=
  { tasks := c.results.map (fun _ => .idle)
    slots := c.results.map (fun _ => [])
    paths := c.results.map (fun _ => []) }

/-- The number of goroutines that run. -/
def State.running (s : State) : Nat := s.tasks.count .running

/-- The steps. `limit` is `runtime.NumCPU()`; `search cancelled f pre ds failed` says that the
external `FindDescriptorsByPrefix` may return the descriptors `ds`, with an error iff `failed`,
when the context is cancelled or not at its return. -/
inductive Step (c : Cache) (q : Query) (limit : Nat)
    (search : Bool → File → Str → List Decl → Bool → Prop) : State → State → Prop
  /-- A placeholder without partial result: `continue`. -/
  | skip (s f) (hf : c.results[s.next]? = some f) (he : c.effective f = none) :
      Step c q limit search s { s with next := s.next + 1 }
  /-- The path is stored, no search is started. -/
  | skipFile (s f g) (hf : c.results[s.next]? = some f) (he : c.effective f = some g)
      (ht : q.target g = none) :
      Step c q limit search s { s with next := s.next + 1, paths := s.paths.set s.next g.path }
  /-- The path is stored and a goroutine started; `eg.Go` blocks while the limit is reached. -/
  | start (s f g pre) (hf : c.results[s.next]? = some f) (he : c.effective f = some g)
      (ht : q.target g = some pre) (hl : s.running < limit) :
      Step c q limit search s
        { s with
          next := s.next + 1
          paths := s.paths.set s.next g.path
          tasks := s.tasks.set s.next .running }
  /-- A search returns; its result is written into the slot with the index of the file; the
  first error cancels the context. -/
  | finish (s i f g pre ds failed) (hi : s.tasks[i]? = some .running)
      (hf : c.results[i]? = some f) (he : c.effective f = some g) (ht : q.target g = some pre)
      (hs : search s.cancelled g pre ds failed) :
      Step c q limit search s
        { s with
          tasks := s.tasks.set i .ended
          slots := s.slots.set i ds
          cancelled := s.cancelled || failed }
  /-- The caller's context is cancelled. -/
  | cancel (s) (h : s.cancelled = false) : Step c q limit search s { s with cancelled := true }
  /-- `eg.Wait()` returns. -/
  | wait (s) (hn : c.results[s.next]? = none) (hr : s.running = 0) (hw : s.returned = false) :
      Step c q limit search s { s with returned := true }

/-- `n` steps lead from `s` to `t`. -/
inductive Steps (c : Cache) (q : Query) (limit : Nat)
    (search : Bool → File → Str → List Decl → Bool → Prop) : Nat → State → State → Prop
  | refl (s) : Steps c q limit search 0 s s
  | step {n s t u} : Steps c q limit search n s t → Step c q limit search t u →
      Steps c q limit search (n + 1) s u

/-- `workspaceDescriptors`, `/repo/pkg/lsp/cache.go:335-339`. -/
structure Found where
  results : List (List Decl)
  pathIndex : List Str
  len : Nat
deriving DecidableEq, Repr

/-- The value that is returned after `eg.Wait()`, `/repo/pkg/lsp/cache.go:390-398` and
`:442-450`. -/
def State.found (s : State) : Found :=
  { results := s.slots
    pathIndex := s.paths
    len := s.slots.foldl (fun n item => n + item.length) 0 }

/-- `workspaceDescriptors.All`, `/repo/pkg/lsp/cache.go:341-347`. -/
def Found.all (w : Found) : List Decl := w.results.foldl (fun acc item => acc ++ item) []

/-- `workspaceDescriptors.Range`, `/repo/pkg/lsp/cache.go:349-353`: the calls of `fn`. `none`: an
index of `results` out of range (run-time panic). -/
def Found.range (w : Found) : Option (List (Str × List Decl)) :=
  w.pathIndex.zipIdx.mapM (fun x => (w.results[x.2]?).map (fun ds => (x.1, ds)))

/-- The filter of `completeTypeNames`, `/repo/pkg/lsp/completion.go:1017-1025`. -/
def isType (d : Decl) : Bool :=
  match d.kind with
  | .message mapEntry _ => !mapEntry
  | .enum => true
  | _ => false

/-- The filter of `completeExtendeeTypeNames`, `/repo/pkg/lsp/completion.go:1038-1044`. -/
def isExtendable (d : Decl) : Bool :=
  match d.kind with
  | .message mapEntry extendable => !mapEntry && extendable
  | _ => false

/-- Which of the two searches `completeTypeNames` and `completeExtendeeTypeNames` start,
`/repo/pkg/lsp/completion.go:1026-1030` and `:1045-1049`. -/
def completionQuery (partialName : Str) : Query :=
  if partialName.contains '.' then .qualified partialName else .unqualified partialName

end Verif.FindTypes
