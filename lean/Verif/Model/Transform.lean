/-!
# Model of the transformations of compiled files

/repo/sdk/util/transform.go:9-62 (`TopologicalSort`, `RestoreDescriptorNames`) and
/repo/sdk/driver/driver.go:96-211 (the end of `Compile`), 217-238 (`sortAndFilterResults`).
Paths, names and URIs are numbers.
-/
namespace Verif.Transform

/-! ### Sorting -/

/-- A linker result: its path and the paths of its imports. -/
structure Res where
  path : Nat
  imports : List Nat
deriving DecidableEq, Repr

/-- The map `index`, transform.go:11-14: the last result with a path. -/
def index (results : List Res) (p : Nat) : Option Res := results.reverse.find? fun r => r.path == p

/-- The variables `seen` and `sorted`. -/
structure State where
  seen : List Nat := []
  sorted : List Res := []

/-- How the sort may fail: a `nil` result (the call of `Path` panics), or, for the model only, not enough
fuel. -/
inductive Err where
  | panic
  | fuel
deriving DecidableEq, Repr

/-- The results of the imports, transform.go:25-30. The program panics when it reaches the `nil` entry of a
file that is not in the index; here, it does when it looks the file up. -/
def lookups (idx : Nat → Option Res) : List Nat → Except Err (List Res)
  | [] => .ok []
  | p :: ps =>
    match idx p with
    | none => .error .panic
    | some r =>
      match lookups idx ps with
      | .ok rs => .ok (r :: rs)
      | .error e => .error e

/-- `topologicalSort`, transform.go:19-35. The fuel bounds the depth of the recursion. -/
def topo (idx : Nat → Option Res) : Nat → List Res → State → Except Err State
  | 0, _, _ => .error .fuel
  | _ + 1, [], s => .ok s
  | n + 1, r :: rs, s =>
    if r.path ∈ s.seen then topo idx (n + 1) rs s
    else
      match lookups idx r.imports with
      | .error e => .error e
      | .ok deps =>
        match topo idx n deps { s with seen := r.path :: s.seen } with
        | .error e => .error e
        | .ok s' => topo idx (n + 1) rs { s' with sorted := s'.sorted ++ [r] }
termination_by n rs => (n, rs.length)

/-- `TopologicalSort`, transform.go:9-17. -/
def topologicalSort (results : List Res) : Except Err (List Res) :=
  match topo (index results) (results.length + 1) results {} with
  | .ok s => .ok s.sorted
  | .error e => .error e

/-- The files that are local to the workspace, driver.go:223-236; `isLocal` stands for the test of the file
of a path. -/
def localFiles (isLocal : Nat → Bool) (sorted : List Res) : List Res := sorted.filter fun r => isLocal r.path

/-! ### Names -/

/-- A file descriptor: its name and its dependencies. -/
structure File where
  name : Nat
  deps : List Nat
deriving DecidableEq, Repr

/-- `PathMappings`, /repo/pkg/lsp/externalapi.go:57-61. -/
structure Mapping where
  uri : Nat → Option Nat
  original : Nat → Option Nat

/-- The loop over the dependencies, transform.go:49-60. -/
def restoreDep (m : Mapping) (dep : Nat) : Nat :=
  match m.uri dep with
  | none => dep
  | some u =>
    match m.original u with
    | none => dep
    | some orig => if orig = dep then dep else orig

/-- The body of the loop of `RestoreDescriptorNames`, transform.go:38-61. -/
def restoreFile (m : Mapping) (f : File) : File :=
  match m.uri f.name with
  | none => f
  | some u =>
    match m.original u with
    | some orig => if orig = f.name then f else { name := orig, deps := f.deps.map (restoreDep m) }
    | none => { f with deps := f.deps.map (restoreDep m) }

/-- `RestoreDescriptorNames` on the files of a list of references to a heap, transform.go:37-62. -/
def restore (m : Mapping) (heap : Nat → File) : List Nat → Nat → File
  | [] => heap
  | p :: ps => restore m (fun q => if q = p then restoreFile m (heap p) else heap q) ps

/-- The two calls in `Compile`, driver.go:205-208, on all files and on those local to the workspace. -/
def restoreBoth (m : Mapping) (heap : Nat → File) (all locals : List Nat) : Nat → File :=
  restore m (restore m heap all) locals

end Verif.Transform
