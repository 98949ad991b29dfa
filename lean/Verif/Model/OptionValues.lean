import Verif.Model.Printer
import Verif.Util.Sort
import Mathlib.Data.Rat.Defs
/-!
# From an options message to the options that are printed

`extractOptions`, `valueToOptions`, `valueForOption`, `sortKeys` of `/repo/pkg/format/protoprint/print.go:1736-1763, 1905-2008`, and the part of
`/repo/pkg/format/protoprint/message_literal.go` that turns a message into a literal: the order of its fields, maps as lists of entries, the
names of enum values. The result is what `Model/Printer.lean` prints.

A message is the tree that `protoreflect.Message.Range` visits. Lists and maps have at least one element there. The order in which `Range`
visits fields and entries is not determined; it is the parameter `Ranging`. An `Any` whose type is known and whose bytes decode is a message of
its own kind (`any`), as in `Model/Printer.lean`. Uninterpreted options (`uninterpretedToOptions`) are left out.
-/
namespace Verif.OptionValues
open Verif.Printer (QName LName SVal Fl MLit Lit MLits LFields OVal OName Opt Opts)
open Verif.Literal (Bytes)

/-- The values that are not messages. A finite number is its sign and absolute value. -/
inductive Leaf
  | int (z : Int)
  | float (neg : Bool) (mag : Rat)
  | inf (neg : Bool)
  | nan
  | str (b : Bytes)
  | bytes (b : Bytes)
  | bool (b : Bool)
  | enum (z : Int)
deriving DecidableEq, Repr

/-- Keys of maps. -/
inductive Key
  | int (z : Int)
  | bool (b : Bool)
  | str (b : Bytes)
deriving DecidableEq, Repr

/-- The types of keys. -/
inductive KeyTy | int | bool | str
deriving DecidableEq, Repr

/-- The types of values; `T` are the message types. An enum is its values, names and numbers. -/
inductive Ty (T : Type)
  | int | float | str | bytes | bool
  | enum (values : List (Str × Int))
  | msg (t : T)
deriving DecidableEq, Repr

/-- A single value, a list, or a map; `presence`: the fields of the entries have presence (proto2). -/
inductive Card
  | single
  | list
  | map (key : KeyTy) (presence : Bool)
deriving DecidableEq, Repr

/-- `protoreflect.FieldDescriptor`; the type is that of the elements of a list or the values of a map. -/
structure Fd (T : Type) where
  number : Int
  name : LName
  card : Card
  type : Ty T
deriving DecidableEq, Repr

mutual
/-- A single value. -/
inductive Val (T : Type)
  | leaf (l : Leaf)
  | msg (fs : Flds T)
  | any (dom type : QName) (v : Val T)
/-- The fields of a message. -/
inductive Flds (T : Type)
  | nil
  | cons (fd : Fd T) (v : FVal T) (fs : Flds T)
/-- The value of a field. -/
inductive FVal (T : Type)
  | one (v : Val T)
  | list (vs : Vals T)
  | map (es : Ents T)
inductive Vals (T : Type)
  | nil
  | cons (v : Val T) (vs : Vals T)
/-- The entries of a map. -/
inductive Ents (T : Type)
  | nil
  | cons (k : Key) (v : Val T) (es : Ents T)
end

variable {T : Type}

/-- `protoreflect.EnumValueDescriptors.ByNumber`: the name of the first value with the number. -/
def nameOf (values : List (Str × Int)) (z : Int) : Option Str := (values.find? (fun v => decide (v.2 = z))).map Prod.fst

/-- Go's `%f`: the nearest multiple of 10⁻⁶ (the even one if there are two), as a multiple. -/
def micros (q : Rat) : Nat :=
  let a := q.num.natAbs * 1000000
  if q.den < 2 * (a % q.den) ∨ (2 * (a % q.den) = q.den ∧ (a / q.den) % 2 = 1) then a / q.den + 1 else a / q.den

/-- Six digits. -/
def pad6 (n : Nat) : Str := List.replicate (6 - (dec n).length) '0' ++ dec n

/-- Go's `%f` of an absolute value. -/
def fmtF (q : Rat) : Str := dec (micros q / 1000000) ++ '.' :: pad6 (micros q % 1000000)

/-- The value that `printOption` and `printValueLiteralToBuffer` get, print.go:1768-1779 and message_literal.go:154-173; for an enum with the
name of the value, if the number is known. -/
def sval (ty : Ty T) : Leaf → SVal
  | .int z => .int z
  | .float neg q => .float (.finite neg (fmtF q))
  | .inf neg => .float (.inf neg)
  | .nan => .float .nan
  | .str b => .str b
  | .bytes b => .bytes b
  | .bool b => .bool b
  | .enum z => .enum (match ty with | .enum values => nameOf values z | _ => none) z

/-- The order in which `Range` visits. -/
structure Ranging where
  fields : List (Int × LName × Lit) → List (Int × LName × Lit)
  keys : List (Key × MLit) → List (Key × MLit)

/-- `sort.Slice` by number, message_literal.go:54-56. -/
def sortFields : List (Int × LName × Lit) → List (Int × LName × Lit) := isort (fun a b => decide (a.1 ≤ b.1))

/-- `<` of Go strings. -/
def strLt : Bytes → Bytes → Bool
  | [], [] => false
  | [], _ :: _ => true
  | _ :: _, [] => false
  | a :: s, b :: t => if a < b then true else if b < a then false else strLt s t

/-- The order of keys, print.go:1744-1759; the keys of a map have one type. -/
def keyLt : Key → Key → Bool
  | .int a, .int b => decide (a < b)
  | .str a, .str b => strLt a b
  | .bool a, .bool b => !a && b
  | _, _ => false

/-- `sortKeys`, print.go:1736-1763, with what belongs to a key. -/
def sortKeys {α : Type} : List (Key × α) → List (Key × α) := isort (fun a b => !keyLt b.1 a.1)

def lfields : List (Int × LName × Lit) → LFields
  | [] => .nil
  | x :: l => .cons x.2.1 x.2.2 (lfields l)

def mlits : List MLit → MLits
  | [] => .nil
  | m :: l => .cons m (mlits l)

/-- The value of a key. -/
def keyVal : Key → SVal
  | .int z => .int z
  | .bool b => .bool b
  | .str b => .str b

/-- Is a field with this value visited in a message without presence? (Dependency `dynamicpb`: zero values are not.) -/
def keyZero : Key → Bool
  | .int z => decide (z = 0)
  | .bool b => !b
  | .str b => b.isEmpty

def leafZero : Leaf → Bool
  | .int z => decide (z = 0)
  | .float neg q => !neg && decide (q = 0)
  | .inf _ => false
  | .nan => false
  | .str b => b.isEmpty
  | .bytes b => b.isEmpty
  | .bool b => !b
  | .enum z => decide (z = 0)

def valZero : Val T → Bool
  | .leaf l => leafZero l
  | _ => false

/-- Names of the fields of an entry. -/
def keyName : Str := ['k', 'e', 'y']
def valueName : Str := ['v', 'a', 'l', 'u', 'e']

/-- The literal of an entry of a map: a message with two fields, print.go:1972-1975 and message_literal.go:271-278. -/
def entryLit (presence : Bool) (k : Key) (v : Val T) (l : Lit) : MLit :=
  .fields (lfields ((if presence || !keyZero k then [((1 : Int), .plain keyName, .scalar (keyVal k))] else []) ++
    (if presence || !valZero v then [(2, .plain valueName, l)] else [])))

def isMsg : Ty T → Bool
  | .msg _ => true
  | _ => false

/-- Lists of leaves. -/
def Vals.svals (ty : Ty T) : Vals T → List SVal
  | .nil => []
  | .cons (.leaf l) vs => sval ty l :: Vals.svals ty vs
  | .cons _ vs => Vals.svals ty vs

mutual
/-- `printMessageLiteralToBuffer`, message_literal.go:37-88, for a message value; a leaf has no fields. -/
def Val.mlit (R : Ranging) : Val T → MLit
  | .leaf _ => .fields .nil
  | .msg fs => .fields (lfields (sortFields (R.fields (Flds.lits R fs))))
  | .any dom type v => .any dom type (Val.mlit R v)
/-- The fields in the order of the message; the name of each is chosen at 64-70. -/
def Flds.lits (R : Ranging) : Flds T → List (Int × LName × Lit)
  | .nil => []
  | .cons fd v fs => (fd.number, fd.name, FVal.lit R fd v) :: Flds.lits R fs
/-- The value of a field, message_literal.go:72-81. -/
def FVal.lit (R : Ranging) (fd : Fd T) : FVal T → Lit
  | .one (.leaf l) => .scalar (sval fd.type l)
  | .one v => .msg (Val.mlit R v)
  | .list vs => if isMsg fd.type then .msgs false (mlits (Vals.lits R vs)) else .scalars (Vals.svals fd.type vs)
  | .map es =>
    match fd.card with
    | .map _ presence => .msgs true (mlits ((sortKeys (R.keys (Ents.lits R fd.type presence es))).map Prod.snd))
    | _ => .msgs true .nil
def Vals.lits (R : Ranging) : Vals T → List MLit
  | .nil => []
  | .cons v vs => Val.mlit R v :: Vals.lits R vs
/-- The entries of a map with their keys, `mapAsList`, message_literal.go:271-278. -/
def Ents.lits (R : Ranging) (ty : Ty T) (presence : Bool) : Ents T → List (Key × MLit)
  | .nil => []
  | .cons k (.leaf l) es => (k, entryLit presence k (.leaf l : Val T) (.scalar (sval ty l))) :: Ents.lits R ty presence es
  | .cons k v es => (k, entryLit presence k v (.msg (Val.mlit R v))) :: Ents.lits R ty presence es
end

/-- `valueForOption`, print.go:1994-2008; `none` is nil: the number of an enum value is not known. -/
def valueForOption (R : Ranging) (fd : Fd T) : Val T → Option OVal
  | .leaf (.enum z) =>
    match fd.type with
    | .enum values => (nameOf values z).map fun n => .scalar (.enum (some n) z)
    | _ => none
  | .leaf l => some (.scalar (sval fd.type l))
  | v => some (.msg (v.mlit R))

/-- The entries of a map without those whose enum value is not known, print.go:1967-1971. -/
def knownEnts (ty : Ty T) : Ents T → Ents T
  | .nil => .nil
  | .cons k v es =>
    match ty, v with
    | .enum values, .leaf (.enum z) => if nameOf values z = none then knownEnts ty es else .cons k v (knownEnts ty es)
    | _, _ => .cons k v (knownEnts ty es)

def Vals.toList : Vals T → List (Val T)
  | .nil => []
  | .cons v vs => v :: vs.toList

/-- The name of an option, print.go:1919-1931; names of extensions are shortened by the printer. -/
def oname : LName → OName
  | .plain s => .plain s
  | .ext q => .ext q

/-- `valueToOptions`, print.go:1946-1992. (In a map the entries that are not known are skipped after sorting.) -/
def valueToOptions (R : Ranging) (fd : Fd T) : FVal T → List Opt
  | .one v => ((valueForOption R fd v).map fun x => ⟨oname fd.name, some x⟩).toList
  | .list vs => (vs.toList.filterMap (valueForOption R fd)).map fun x => ⟨oname fd.name, some x⟩
  | .map es =>
    match fd.card with
    | .map _ presence => (sortKeys (R.keys (Ents.lits R fd.type presence (knownEnts fd.type es)))).map fun x => ⟨oname fd.name, some (.msg x.2)⟩
    | _ => []

/-- `extractOptions`, print.go:1905-1944. -/
def extractOptions (R : Ranging) : Flds T → Opts
  | .nil => []
  | .cons fd v fs =>
    if (valueToOptions R fd v).length > 0 then (fd.number, valueToOptions R fd v) :: extractOptions R fs else extractOptions R fs

/-- An options message with the bytes of its unknown fields. -/
structure Message (T : Type) where
  known : Flds T
  unknown : Bytes

/-- `reparseUnknown`, print.go:516-550, for the message itself: `parse` is `Unmarshal` with the types of the file and its imports, `merge` is
`proto.Merge`. -/
def reparseUnknown (parse : Bytes → Option (Flds T)) (merge : Flds T → Flds T → Flds T) (m : Message T) : Message T :=
  if m.unknown.length > 0 then
    match parse m.unknown with
    | some other => ⟨merge m.known other, []⟩
    | none => m
  else m

/-- `PrintProto`, print.go:355: the message that is parsed again is that of `protodesc.ToFileDescriptorProto`, a copy (the function clones the
options); `extractOptions` gets the options of the descriptor. -/
def printedOptions (R : Ranging) (parse : Bytes → Option (Flds T)) (merge : Flds T → Flds T → Flds T) (m : Message T) : Opts :=
  let copy := m
  let _ := reparseUnknown parse merge copy
  extractOptions R m.known

end Verif.OptionValues
