import Verif.Model.SourceInfo

/-!
# Source locations of options

`PopulateSourceInfoMap` (/repo/pkg/format/protoprint/internal/source_info.go:74-80) and `extendOptionLocations` with its table `edges`
(/repo/pkg/format/protoprint/print.go:1795-1903): the printer looks for the location of an option under a path that the source info need not
have.
-/
namespace Verif.OptionLocations

open SourceInfo (InfoMap)

/-- `edgeKind`, print.go:1795-1810. -/
inductive Kind where
  | option | file | message | field | oneof | extensionRange | reservedRange | reservedName | enum | enumValue | service | method
deriving DecidableEq, Repr

/-- `edges`, print.go:1816-1860, with the tags of internal/util.go:35-182. -/
def edges : Kind → List (Int × Kind)
  | .file => [(8, .option), (4, .message), (5, .enum), (7, .field), (6, .service)]
  | .message => [(7, .option), (2, .field), (8, .oneof), (3, .message), (4, .enum), (6, .field), (5, .extensionRange), (9, .reservedRange),
      (10, .reservedName)]
  | .field => [(8, .option)]
  | .oneof => [(2, .option)]
  | .extensionRange => [(3, .option)]
  | .enum => [(3, .option), (2, .enumValue), (4, .reservedRange), (5, .reservedName)]
  | .enumValue => [(3, .option)]
  | .service => [(3, .option), (2, .method)]
  | .method => [(4, .option)]
  | .option | .reservedRange | .reservedName => []

/-- `allowed[n]`. -/
def next (k : Kind) (n : Int) : Option Kind := (edges k).lookup n

/-- The paths for which the location is stored if they have none, print.go:1882-1895: `make`, `copy`, the last element set to zero, and without
the last element. -/
def newPaths (i : Nat) (path : List Int) : List (List Int) :=
  let newPath := path.take (i + 3) ++ List.replicate (i + 3 - path.length) 0
  let zero := newPath.set (newPath.length - 1) 0
  [newPath, zero, zero.take (zero.length - 1)]

/-- The inner loop, print.go:1869-1901; `rest` is the path from `i` on. -/
def walk (k : Kind) (i : Nat) (path : List Int) : List Int → List (List Int)
  | n :: _ :: rest =>
    match next k n with
    | none => []
    | some .option => newPaths i path
    | some k' => walk k' (i + 2) path rest
  | _ => []

/-- A `SourceLocation`: its path, and everything else. -/
structure Loc where
  path : List Int
  rest : Nat
deriving DecidableEq, Repr

/-- `PopulateSourceInfoMap`, source_info.go:74-80. -/
def populate (locs : List Loc) (m : InfoMap Loc) : InfoMap Loc := locs.foldl (fun m l => SourceInfo.add m l.path l) m

/-- `extendOptionLocations`, print.go:1862-1903. -/
def extend (locs : List Loc) (m : InfoMap Loc) : InfoMap Loc :=
  locs.foldl (fun m l => (walk .file 0 l.path l.path).foldl (fun m p => (SourceInfo.putIfAbsent m p l).1) m) m

/-- The map that the printer uses, print.go:350-351. -/
def sourceInfo (locs : List Loc) : InfoMap Loc := extend locs (populate locs [])

end Verif.OptionLocations
