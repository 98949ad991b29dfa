import Verif.Util.Str
/-!
# Model of the dependency paths in document links and import hints

/repo/pkg/lsp/links.go:20-57 (`ComputeDocumentLinks`) and /repo/pkg/lsp/inlayhints.go:95-139
(`computeImportHints`) share this code. The list of dependencies is a slice of the file descriptor; the
model has its array, whose length is the length of the slice. What is done with each path (finding the file,
making a link or hint) is left out: an answer is the list of the paths for the import statements.
-/
namespace Verif.Links

/-- `append(deps[:i], deps[i+1:]...)`, links.go:53: the result, and what the array holds afterwards. The
elements after `i` move down by one in the same array, so the last one is there twice. -/
def removeAt (deps : List Str) (i : Nat) : List Str × List Str :=
  let r := deps.take i ++ deps.drop (i + 1)
  (r, r ++ (deps.drop (deps.length - 1)))

/-- The index of the first `d`, links.go:51-52. -/
def findIndex (d : Str) : List Str → Option Nat
  | [] => none
  | x :: xs => if x = d then some 0 else (findIndex d xs).map (· + 1)

/-- The list used for the imports and the list that the descriptor has afterwards, links.go:38-57; `d` is
google/protobuf/descriptor.proto. -/
def dependencyPaths (d : Str) (imports deps : List Str) : List Str × List Str :=
  if d ∈ imports then (deps, deps)
  else match findIndex d deps with
    | some i => removeAt deps i
    | none => (deps, deps)

/-- The paths for the import statements, links.go:59-60; `none` is a panic (index out of range). -/
def pathsFor (n : Nat) (paths : List Str) : Option (List Str) :=
  if n ≤ paths.length then some (paths.take n) else none

/-- A request: the answer and the new list of dependencies. -/
def request (d : Str) (imports deps : List Str) : Option (List Str) × List Str :=
  let r := dependencyPaths d imports deps
  (pathsFor imports.length r.1, r.2)

/-- A number of requests: the list of dependencies after them. -/
def requests (d : Str) (imports : List Str) : Nat → List Str → List Str
  | 0, deps => deps
  | n + 1, deps => requests d imports n (request d imports deps).2

end Verif.Links
