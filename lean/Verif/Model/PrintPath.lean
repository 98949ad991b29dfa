import Verif.Model.OptionLocations

/-!
# The paths under which a printed descriptor looks for its comments

`findElement` and the switch of `PrintProto` (/repo/pkg/format/protoprint/print.go:349-444), and the paths in `printOneOf`
(print.go:1182-1242) as Go slices, which share arrays.
-/
namespace Verif.PrintPath

open OptionLocations (Loc)

/-- A `protoreflect.Descriptor`: what `Parent`, `Index` and, for fields, `IsExtension` return. -/
inductive Dsc where
  | file
  | message (parent : Dsc) (index : Nat)
  | field (parent : Dsc) (extension : Bool) (index : Nat)
  | oneof (parent : Dsc) (index : Nat)
  | enum (parent : Dsc) (index : Nat)
  | value (parent : Dsc) (index : Nat)
  | service (parent : Dsc) (index : Nat)
  | method (parent : Dsc) (index : Nat)
deriving DecidableEq, Repr

/-- `_, ok := d.(protoreflect.MessageDescriptor)`. -/
def Dsc.isMessage : Dsc → Bool
  | .message _ _ => true
  | _ => false

/-- `findElement`, print.go:402-444. Indexes fit into `int32`. -/
def findElement : Dsc → List Int
  | .file => []
  | .message p i => if p.isMessage then findElement p ++ [3, (i : Int)] else findElement p ++ [4, (i : Int)]
  | .field p ext i =>
    if ext then (if p.isMessage then findElement p ++ [6, (i : Int)] else findElement p ++ [7, (i : Int)])
    else findElement p ++ [2, (i : Int)]
  | .oneof p i => findElement p ++ [8, (i : Int)]
  | .enum p i => if p.isMessage then findElement p ++ [4, (i : Int)] else findElement p ++ [5, (i : Int)]
  | .value p i => findElement p ++ [2, (i : Int)]
  | .service p i => findElement p ++ [6, (i : Int)]
  | .method p i => findElement p ++ [2, (i : Int)]

/-- The path under which the printing function looks for the location of the element, print.go:357-396: `printMessage`, `printField` and so on
get the path of the element, `printOneOf` a path and an index from which it makes its own (print.go:1183). -/
def located (d : Dsc) : List Int :=
  match d with
  | .oneof _ _ => (findElement d).dropLast ++ [8, (findElement d).getLastD 0]
  | _ => findElement d

/-- The path under which the field `i` of a oneof that is printed on its own is looked for, print.go:388 and 1234. -/
def locatedField (d : Dsc) (i : Nat) : List Int := (findElement d).dropLast ++ [2, (i : Int)]

/-- The location of the element that is printed: `PrintProto` of a descriptor other than a file. -/
def location (locs : List Loc) (d : Dsc) : Option Loc := SourceInfo.get (OptionLocations.sourceInfo locs) (located d)

/-! ## Paths as slices -/

/-- The arrays; the length of an array is the capacity of a slice that begins with it. -/
abbrev Heap := List (List Int)

/-- A slice from the beginning of an array. -/
structure Slice where
  array : Nat
  len : Nat
deriving DecidableEq, Repr

/-- The elements of a slice. -/
def read (h : Heap) (s : Slice) : List Int := (h.getD s.array []).take s.len

/-- The builtin `append`: in place if the array is long enough, otherwise with a copy in a new array, whose length is that of `grow`. -/
def append (grow : Nat → Nat → Nat) (h : Heap) (s : Slice) (xs : List Int) : Heap × Slice :=
  let a := h.getD s.array []
  if s.len + xs.length ≤ a.length then
    (h.set s.array (a.take s.len ++ xs ++ a.drop (s.len + xs.length)), ⟨s.array, s.len + xs.length⟩)
  else
    (h ++ [a.take s.len ++ xs ++ List.replicate (grow a.length (s.len + xs.length) - (s.len + xs.length)) 0],
      ⟨h.length, s.len + xs.length⟩)

/-- What a oneof has: options with their tags and fields with their indexes. -/
inductive El where
  | option (tag : Nat)
  | field (index : Nat)
deriving DecidableEq, Repr

/-- The loop of `printOneOf`, print.go:1224-1237, with the elements in the order of `sort`: the path that is given to `printOptionsLong` and
`printField`. (These write only behind the path they get, where no path is read that is used after that.) -/
def loop (grow : Nat → Nat → Nat) (oopath parent : Slice) : Heap → List El → List (El × List Int)
  | _, [] => []
  | h, .option tag :: els =>
    let r := append grow h oopath [2, (tag : Int)]
    (.option tag, read r.1 r.2) :: loop grow oopath parent r.1 els
  | h, .field i :: els =>
    let r := append grow h parent [2, (i : Int)]
    (.field i, read r.1 r.2) :: loop grow oopath parent r.1 els

/-- `printOneOf`, print.go:1182-1242: the path of the oneof, that of its name, and those of its elements. -/
def printOneOf (grow : Nat → Nat → Nat) (h : Heap) (parent : Slice) (index : Nat) (els : List El) :
    List Int × List Int × List (El × List Int) :=
  let r := append grow h parent [8, (index : Int)]
  let n := append grow r.1 r.2 [1]
  (read r.1 r.2, read n.1 n.2, loop grow r.2 parent n.1 els)

/-- `growslice` of the runtime for short slices of 32-bit numbers whose capacity is a power of two: the capacity is doubled, if that is
enough. -/
def goGrow (cap need : Nat) : Nat := if need > 2 * cap then need else 2 * cap

end Verif.PrintPath
