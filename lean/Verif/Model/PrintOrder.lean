import Mathlib.Data.List.Lex
import Mathlib.Data.Char

/-!
# The order in which the descriptor printer emits the elements of a scope

Models `elementAddrs.Less`, `elementSrcOrder.Less`, `customSortOrder.Less`, `optionLess`
(/repo/pkg/format/protoprint/print.go 2165-2251, 2358-2509) and `SortElements`
(/repo/pkg/format/sort.go 14-46), the function `protols` prints with.

Simplifications: an element carries the value `elementAddrs.at` finds for its address (print.go
2256-2351), so the lookups, which panic on an unknown tag, are not part of the model; names are
lists of characters, compared by code point as the bytes of their UTF-8 encoding are; a
message descriptor is identified with its full name (print.go 2208 compares descriptors).
-/
namespace Verif.PrintOrder

abbrev Name := List Char

/-- What `elementAddrs.at` returns (print.go 2256-2351). For `[]option` the name of the first
option, which is what the comparisons look at. `ext` is the full name of the extended message
of an extension. -/
inductive Val
  | pkg (name : Name)
  | imp (path : Name)
  | options (name : Name)
  | field (number : Int) (ext : Option Name)
  | message (name : Name)
  | enum (name : Name)
  | service (name : Name)
  | extRange (start : Int)
  | reservedRange (start : Int)
  | reservedName (name : Name)
  | enumValue (number : Int) (name : Name)
  | method (name : Name)
deriving DecidableEq, Repr

/-- `elementAddr` (print.go 2165-2169) with the value at that address. -/
structure Elem where
  tag : Int      -- elementType
  index : Int    -- elementIndex
  order : Int
  val : Val
deriving DecidableEq, Repr

/-- The descriptor whose elements are printed (`elementAddrs.dsc`), as far as
`elementSrcOrder.Less` tells them apart (print.go 2396-2445). -/
inductive Scope
  | file | message | enum | service | other
deriving DecidableEq, Repr

/-- Options whose name starts with a parenthesis are custom options (sort.go of protoprint,
184-186). -/
def isCustom (name : Name) : Bool :=
  match name with
  | c :: _ => c == '('
  | [] => false

/-- `optionLess` (print.go 2500-2509). The names are not empty. -/
def optionLess (ni nj : Name) : Bool :=
  if !isCustom ni && isCustom nj then true
  else if isCustom ni && !isCustom nj then false
  else decide (ni < nj)

/-- The comparison of two values of the same element type (print.go 2198-2249). The type
assertions on the second value panic if it is of another type; here such pairs are
unrelated. -/
def valLess : Val → Val → Bool
  | .field ni ei, .field nj ej =>
    match ei, ej with
    | none, some _ => true
    | some _, none => false
    | some a, some b => if a ≠ b then decide (a < b) else decide (ni < nj)
    | none, none => decide (ni < nj)
  | .enumValue ni ai, .enumValue nj aj =>
    if ni = nj then decide (ai < aj) else decide (ni < nj)
  | .extRange si, .extRange sj => decide (si < sj)
  | .reservedRange si, .reservedRange sj => decide (si < sj)
  | .reservedName a, .reservedName b => decide (a < b)
  | .pkg a, .pkg b => decide (a < b)
  | .imp a, .imp b => decide (a < b)
  | .options a, .options b => optionLess a b
  | .message a, .message b => decide (a < b)
  | .enum a, .enum b => decide (a < b)
  | .service a, .service b => decide (a < b)
  | .method a, .method b => decide (a < b)
  | _, _ => false

/-- `elementAddrs.Less` (print.go 2181-2250), the canonical order. -/
def canonicalLess (a b : Elem) : Bool :=
  if a.order < b.order then true
  else if a.order > b.order then false
  else if a.tag < b.tag then true
  else if a.tag > b.tag then false
  else valLess a.val b.val

/-- The path of the source location found for an element (print.go 2365-2382). `info` is the
source info map, reduced to the path of the first location stored for a path. -/
def srcLoc (info : List Int → Option (List Int)) (pre : List Int) (e : Elem) : Option (List Int) :=
  if e.index < 0 then info (pre ++ [-e.index])
  else if e.tag < 0 then info (pre.take (pre.length - 2) ++ [e.tag, e.index])
  else info (pre ++ [e.tag, e.index])

/-- The loop over the paths of two locations (print.go 2452-2464), `si` and `sj` from the
current index on. -/
def pathLess : List Int → List Int → Bool
  | _, [] => false
  | [], _ :: _ => true
  | x :: xs, y :: ys => if x < y then true else if x > y then false else pathLess xs ys

/-- An element without location against one with: does it go first? (print.go 2396-2445, the
value returned if the elements were not swapped). `ti` is the type of the element without
location. -/
def unknownFirst (scope : Scope) (ti tj : Int) : Bool :=
  match scope with
  | .file =>
    if ti = 2 then true
    else if ti = 3 then (if tj = 2 then false else true)
    else if ti = 8 then (if tj = 2 ∨ tj = 3 then false else true)
    else false
  | .message => if ti = 7 then true else false
  | .enum => if ti = 3 then true else false
  | .service => if ti = 3 then true else false
  | .other => false

/-- `elementSrcOrder.Less` (print.go 2358-2465). -/
def srcLess (scope : Scope) (info : List Int → Option (List Int)) (pre : List Int) (a b : Elem) :
    Bool :=
  match srcLoc info pre a, srcLoc info pre b with
  | none, some _ => unknownFirst scope a.tag b.tag
  | some _, none => !unknownFirst scope b.tag a.tag
  | none, none => false
  | some pi, some pj => pathLess pi pj

/-- `ElementKind` (protoprint/sort.go 14-30). -/
inductive Kind
  | package | importK | option | field | message | enum | service | extensionRange | extension
  | reservedRange | reservedName | enumValue | method
deriving DecidableEq, Repr

/-- `asElement(v).Kind()` (protoprint/sort.go 63-93 and the `Kind` methods). -/
def kind : Val → Kind
  | .pkg _ => .package
  | .imp _ => .importK
  | .options _ => .option
  | .field _ none => .field
  | .field _ (some _) => .extension
  | .message _ => .message
  | .enum _ => .enum
  | .service _ => .service
  | .extRange _ => .extensionRange
  | .reservedRange _ => .reservedRange
  | .reservedName _ => .reservedName
  | .enumValue _ _ => .enumValue
  | .method _ => .method

/-- `Number()` of an element (protoprint/sort.go). -/
def number : Val → Int
  | .field n _ => n
  | .enumValue n _ => n
  | _ => 0

/-- `Name()` of an import (protoprint/sort.go 129-131). -/
def importName : Val → Name
  | .imp p => p
  | _ => []

/-- `IsCustomOption()` (protoprint/sort.go). -/
def customOption : Val → Bool
  | .options n => isCustom n
  | _ => false

/-- `SortElements` (/repo/pkg/format/sort.go 14-46). -/
def sortElements (a b : Val) (ignore : Bool) : Bool :=
  if kind a = kind b then
    match kind a with
    | .option =>
      if customOption a ≠ customOption b then !customOption a else ignore
    | .field | .extension | .enumValue => decide (number a < number b)
    | .importK => decide (importName a < importName b)
    | _ => ignore
  else if kind a = .package then true
  else if kind b = .package then false
  else if kind a = .importK then true
  else if kind b = .importK then false
  else if kind a = .option then true
  else if kind b = .option then false
  else ignore

/-- `customSortOrder.Less` (print.go 2473-2479) with `SortElements`. -/
def printLess (scope : Scope) (info : List Int → Option (List Int)) (pre : List Int) (a b : Elem) :
    Bool :=
  sortElements a.val b.val (srcLess scope info pre a b)

/-- The address of an element of a file (print.go 573-598; the tags are those of the fields of
`FileDescriptorProto`). `i` is its index, the field number for options. -/
def fileElem (i : Nat) (v : Val) : Option Elem :=
  match v with
  | .pkg _ => some ⟨2, 0, -3, v⟩
  | .imp _ => some ⟨3, i, -2, v⟩
  | .options _ => some ⟨8, i, -1, v⟩
  | .message _ => some ⟨4, i, 0, v⟩
  | .enum _ => some ⟨5, i, 0, v⟩
  | .service _ => some ⟨6, i, 0, v⟩
  | .field _ (some _) => some ⟨7, i, 0, v⟩
  | _ => none

/-- The address of an element of a message (print.go 897-934; `DescriptorProto`). -/
def messageElem (i : Nat) (v : Val) : Option Elem :=
  match v with
  | .options _ => some ⟨7, i, -1, v⟩
  | .reservedRange _ => some ⟨9, i, 0, v⟩
  | .reservedName _ => some ⟨10, i, 0, v⟩
  | .extRange _ => some ⟨5, i, 0, v⟩
  | .field _ none => some ⟨2, i, 0, v⟩
  | .message _ => some ⟨3, i, 0, v⟩
  | .enum _ => some ⟨4, i, 0, v⟩
  | .field _ (some _) => some ⟨6, i, 0, v⟩
  | _ => none

/-- The address of an element of an enum (print.go 1384-1394; `EnumDescriptorProto`). -/
def enumElem (i : Nat) (v : Val) : Option Elem :=
  match v with
  | .options _ => some ⟨3, i, -1, v⟩
  | .enumValue _ _ => some ⟨2, i, 0, v⟩
  | .reservedRange _ => some ⟨4, i, 0, v⟩
  | .reservedName _ => some ⟨5, i, 0, v⟩
  | _ => none

/-- The address of an element of a service (print.go 1495-1499; `ServiceDescriptorProto`). -/
def serviceElem (i : Nat) (v : Val) : Option Elem :=
  match v with
  | .options _ => some ⟨3, i, -1, v⟩
  | .method _ => some ⟨2, i, 0, v⟩
  | _ => none

/-- The address of an element of a oneof (print.go 1202-1218). The fields are siblings of the
oneof, which is marked by a negative tag. -/
def oneofElem (i : Nat) (v : Val) : Option Elem :=
  match v with
  | .options _ => some ⟨2, i, -1, v⟩
  | .field _ none => some ⟨-2, i, 0, v⟩
  | _ => none

/-- The addresses of the elements of a scope. -/
def elemOf (scope : Scope) (i : Nat) (v : Val) : Option Elem :=
  match scope with
  | .file => fileElem i v
  | .message => messageElem i v
  | .enum => enumElem i v
  | .service => serviceElem i v
  | .other => oneofElem i v

end Verif.PrintOrder
