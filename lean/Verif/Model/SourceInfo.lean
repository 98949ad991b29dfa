import Verif.Util.Assoc
/-!
# Model of `SourceInfoMap`

/repo/pkg/format/protoprint/internal/source_info.go:9-62. A descriptor path is a list of int32.
-/
namespace Verif.SourceInfo

/-- `byte(s >> (8*k))` of a signed 32-bit number: the arithmetic shift is a division rounding down. -/
def byteAt (s : Int) (k : Nat) : Nat := ((s / (256 : Int) ^ k) % 256).toNat

/-- `asMapKey`, source_info.go:43-62. -/
def asMapKey (path : List Int) : List Nat :=
  path.flatMap fun s => [byteAt s 0, byteAt s 1, byteAt s 2, byteAt s 3]

/-- `SourceInfoMap`, source_info.go:9. -/
abbrev InfoMap (Loc : Type) := List (List Nat × List Loc)

variable {Loc : Type}

/-- `GetAll`, source_info.go:22-24. -/
def getAll (m : InfoMap Loc) (path : List Int) : List Loc := (Assoc.get m (asMapKey path)).getD []

/-- `Get`, source_info.go:13-19. -/
def get (m : InfoMap Loc) (path : List Int) : Option Loc := (getAll m path).head?

/-- `Add`, source_info.go:27-29. -/
def add (m : InfoMap Loc) (path : List Int) (loc : Loc) : InfoMap Loc :=
  Assoc.set m (asMapKey path) ((Assoc.get m (asMapKey path)).getD [] ++ [loc])

/-- `PutIfAbsent`, source_info.go:34-41. -/
def putIfAbsent (m : InfoMap Loc) (path : List Int) (loc : Loc) : InfoMap Loc × Bool :=
  match Assoc.get m (asMapKey path) with
  | some _ => (m, false)
  | none => (Assoc.set m (asMapKey path) [loc], true)

/-- A call that changes the map. -/
inductive Op (Loc : Type) where
  | add (path : List Int) (loc : Loc)
  | put (path : List Int) (loc : Loc)

/-- One call. -/
def apply (m : InfoMap Loc) : Op Loc → InfoMap Loc
  | .add p l => add m p l
  | .put p l => (putIfAbsent m p l).1

end Verif.SourceInfo
