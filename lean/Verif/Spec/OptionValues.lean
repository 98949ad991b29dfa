import Verif.Model.OptionValues
import Verif.Spec.PrintedDecls
/-!
# Specification: what option settings mean

The options message that settings in a source file stand for (protobuf language specification): a setting of a single field gives its value,
each setting of a repeated field adds an element, each setting of a map field adds an entry; a constant in braces is a message, whose fields are
given by name. Messages are written with their fields in the order of the numbers, maps in the order of the keys.
-/
namespace Verif.OptionValues
open Verif.Printer (QName LName)
open Verif.Decls Verif.Literal

variable {T : Type}

/-- How names are resolved. -/
structure Schema (T : Type) where
  /-- The field of a message type that a name in a literal denotes. -/
  field : T → CName → Option (Fd T)
  /-- The type of the message in an `Any`. -/
  anyType : QName → QName → Option T
  /-- The field of the options message that the name of a setting denotes. -/
  option : List Part → Option (Fd T)

/-- A number with sign. -/
def signed (neg : Bool) (n : Nat) : Int := if neg then -n else n

/-- The value of digits with a decimal point; `none`: something else. -/
def decimal (s : Str) : Option Rat :=
  let i := s.takeWhile (· ≠ '.')
  let f := (s.dropWhile (· ≠ '.')).drop 1
  if i ≠ [] ∧ i.all isDigit ∧ f.all isDigit then some (decVal i + decVal f / 10 ^ f.length) else none

/-- Integers. -/
def integer (neg : Bool) (s : Str) : Option Int := if s ≠ [] ∧ s.all isDigit then some (signed neg (decVal s)) else none

/-- The number of the value with a name. -/
def numberOf (values : List (Str × Int)) (n : Str) : Option Int := (values.find? (fun v => decide (v.1 = n))).map Prod.snd

/-- A constant that is not a message. In a message literal an enum value may be a number. -/
def leaf : Ty T → Const → Option Leaf
  | .int, .num neg s => (integer neg s).map .int
  | .float, .num neg s => (decimal s).map (.float neg)
  | .float, .word neg s => if s = "inf".toList then some (.inf neg) else if s = "nan".toList ∧ neg = false then some .nan else none
  | .str, .str token => (value (token.map Char.toNat)).map .str
  | .bytes, .str token => (value (token.map Char.toNat)).map .bytes
  | .bool, .word false s => if s = "true".toList then some (.bool true) else if s = "false".toList then some (.bool false) else none
  | .enum values, .word false n => (numberOf values n).map .enum
  | .enum _, .num neg s => (integer neg s).map .enum
  | _, _ => none

/-- The key of an entry. -/
def key : KeyTy → Const → Option Key
  | .int, .num neg s => (integer neg s).map .int
  | .bool, .word false s => if s = "true".toList then some (.bool true) else if s = "false".toList then some (.bool false) else none
  | .str, .str token => (value (token.map Char.toNat)).map .str
  | _, _ => none

/-- The values of fields that are left out in an entry. -/
def keyDefault : KeyTy → Key
  | .int => .int 0
  | .bool => .bool false
  | .str => .str []

def default : Ty T → Val T
  | .int => .leaf (.int 0)
  | .float => .leaf (.float false 0)
  | .str => .leaf (.str [])
  | .bytes => .leaf (.bytes [])
  | .bool => .leaf (.bool false)
  | .enum [] => .leaf (.enum 0)
  | .enum (v :: _) => .leaf (.enum v.2)
  | .msg _ => .msg .nil

/-- The order of keys. -/
def Key.Before : Key → Key → Prop
  | .int a, .int b => a < b
  | .bool a, .bool b => a = false ∧ b = true
  | .str a, .str b => a < b
  | _, _ => False

instance (a b : Key) : Decidable (a.Before b) := by
  cases a <;> cases b <;> unfold Key.Before <;> infer_instance

/-- A new entry; `none` if there is one with the key. -/
def Ents.add (k : Key) (v : Val T) : Ents T → Option (Ents T)
  | .nil => some (.cons k v .nil)
  | .cons k' v' es =>
    if k.Before k' then some (.cons k v (.cons k' v' es))
    else if k = k' then none
    else (Ents.add k v es).map (.cons k' v')

/-- The entries with their keys. -/
def Ents.toList : Ents T → List (Key × Val T)
  | .nil => []
  | .cons k v es => (k, v) :: es.toList

def Vals.append : Vals T → Vals T → Vals T
  | .nil, ws => ws
  | .cons v vs, ws => .cons v (vs.append ws)

/-- All entries. -/
def Ents.addAll : Ents T → Ents T → Option (Ents T)
  | .nil, fs => some fs
  | .cons k v es, fs => (Ents.addAll es fs).bind (Ents.add k v)

/-- A field that is given twice: lists and maps are put together. -/
def FVal.merge : FVal T → FVal T → Option (FVal T)
  | .list vs, .list ws => some (.list (vs.append ws))
  | .map es, .map fs => (es.addAll fs).map .map
  | _, _ => none

/-- A value for a field, before those of the message. -/
def Flds.put (fd : Fd T) (v : FVal T) : Flds T → Option (Flds T)
  | .nil => some (.cons fd v .nil)
  | .cons fd' v' fs =>
    if fd.number < fd'.number then some (.cons fd v (.cons fd' v' fs))
    else if fd.number = fd'.number then (v.merge v').map fun w => .cons fd w fs
    else (Flds.put fd v fs).map (.cons fd' v')

variable (S : Schema T)

mutual
/-- A single value. -/
def single (ty : Ty T) : Const → Option (Val T)
  | .msg fs =>
    match ty with
    | .msg t =>
      match fs with
      | .cons (.any dom type) c .nil => (S.anyType dom type).bind fun t' => (single (.msg t') c).map (.any dom type)
      | fs => (fields t fs).map .msg
    | _ => none
  | .num neg s => (leaf ty (.num neg s)).map .leaf
  | .word neg s => (leaf ty (.word neg s)).map .leaf
  | .str token => (leaf ty (.str token)).map .leaf
  | .list _ => none
/-- The fields of a message literal. -/
def fields (t : T) : CFields → Option (Flds T)
  | .nil => some .nil
  | .cons n c fs => do
    let fd ← S.field t n
    let v ← (match fd.card with
      | .single => (single fd.type c).map .one
      | .list =>
        match c with
        | .list cs => (elements fd.type cs).map .list
        | c => (single fd.type c).map fun v => .list (.cons v .nil)
      | .map k _ =>
        match c with
        | .list cs => (entries k fd.type cs).map .map
        | .msg es => (entry k fd.type es).map fun e => .map (.cons (e.1.getD (keyDefault k)) (e.2.getD (default fd.type)) .nil)
        | _ => none)
    let rest ← fields t fs
    rest.put fd v
def elements (ty : Ty T) : Consts → Option (Vals T)
  | .nil => some .nil
  | .cons c cs => do
    let v ← single ty c
    let vs ← elements ty cs
    some (.cons v vs)
def entries (kt : KeyTy) (ty : Ty T) : Consts → Option (Ents T)
  | .nil => some .nil
  | .cons c cs => do
    let e ← (match c with
      | .msg es => entry kt ty es
      | _ => none)
    let rest ← entries kt ty cs
    rest.add (e.1.getD (keyDefault kt)) (e.2.getD (default ty))
/-- The key and the value of an entry, if they are given. -/
def entry (kt : KeyTy) (ty : Ty T) : CFields → Option (Option Key × Option (Val T))
  | .nil => some (none, none)
  | .cons n c fs => do
    let r ← entry kt ty fs
    if n = .plain "key".toList ∧ r.1 = none then (key kt c).map fun k => (some k, r.2)
    else if n = .plain "value".toList ∧ r.2.isNone then (single ty c).map fun v => (r.1, some v)
    else none
end

/-- The value of an option; an enum value is given by its name. -/
def setting (ty : Ty T) (c : Const) : Option (Val T) :=
  match ty, c with
  | .enum _, .num _ _ => none
  | ty, c => single S ty c

/-- The options message of settings. -/
def interpret : List Setting → Option (Flds T)
  | [] => some .nil
  | d :: ds => do
    let fd ← S.option d.name
    let v ← (match fd.card with
      | .single => (setting S fd.type d.val).map .one
      | .list => (setting S fd.type d.val).map fun v => .list (.cons v .nil)
      | .map k _ =>
        match d.val with
        | .msg es => (entry S k fd.type es).map fun e => .map (.cons (e.1.getD (keyDefault k)) (e.2.getD (default fd.type)) .nil)
        | _ => none)
    let rest ← interpret ds
    rest.put fd v

/-! ## Messages of a schema -/

/-- `Range` visits everything once. -/
structure Ranging.Ok (R : Ranging) : Prop where
  fields : ∀ l, (R.fields l).Perm l
  keys : ∀ l, (R.keys l).Perm l

/-- A leaf of the type. A finite number is a multiple of 10⁻⁶. The names of an enum are distinct. -/
def LeafOk : Ty T → Leaf → Prop
  | .int, .int _ => True
  | .float, .float _ q => ∃ n : Nat, q = n / 1000000
  | .float, .inf _ => True
  | .float, .nan => True
  | .str, .str _ => True
  | .bytes, .bytes _ => True
  | .bool, .bool _ => True
  | .enum values, .enum _ => (values.map Prod.fst).Nodup
  | _, _ => False

def KeyOk : KeyTy → Key → Prop
  | .int, .int _ => True
  | .bool, .bool _ => True
  | .str, .str _ => True
  | _, _ => False

/-- The fields begin behind the number. -/
def Flds.Above (n : Int) : Flds T → Prop
  | .nil => True
  | .cons fd _ fs => n < fd.number ∧ Flds.Above n fs

def Ents.Above (k : Key) : Ents T → Prop
  | .nil => True
  | .cons k' _ es => k.Before k' ∧ Ents.Above k es

/-- Without presence, the first value of an enum is 0. -/
def ZeroFirst (presence : Bool) : Ty T → Prop
  | .enum (v :: _) => presence = true ∨ v.2 = 0
  | .enum [] => False
  | _ => True

/-- A message of any kind. -/
def Val.IsMessage : Val T → Prop
  | .leaf _ => False
  | _ => True

variable (pk : QName)

mutual
/-- A value of the type; the names of fields that may be printed in the package denote the fields. -/
def Val.Ok : Ty T → Val T → Prop
  | ty, .leaf l => LeafOk ty l
  | ty, .msg fs => ∃ t, ty = .msg t ∧ Flds.Ok t fs
  | ty, .any dom type v => ∃ t t', ty = .msg t ∧ S.anyType dom type = some t' ∧ v.IsMessage ∧ Val.Ok (.msg t') v
def Flds.Ok (t : T) : Flds T → Prop
  | .nil => True
  | .cons fd v fs => (∀ n, fd.name.Means pk n → S.field t n = some fd) ∧ FVal.Ok fd v ∧ Flds.Above fd.number fs ∧ Flds.Ok t fs
def FVal.Ok (fd : Fd T) : FVal T → Prop
  | .one v => fd.card = .single ∧ Val.Ok fd.type v
  | .list vs => fd.card = .list ∧ vs ≠ .nil ∧ Vals.Ok fd.type vs
  | .map es => ∃ kt presence, fd.card = .map kt presence ∧ es ≠ .nil ∧ ZeroFirst presence fd.type ∧ Ents.Ok kt fd.type es
def Vals.Ok (ty : Ty T) : Vals T → Prop
  | .nil => True
  | .cons v vs => Val.Ok ty v ∧ Vals.Ok ty vs
def Ents.Ok (kt : KeyTy) (ty : Ty T) : Ents T → Prop
  | .nil => True
  | .cons k v es => KeyOk kt k ∧ Val.Ok ty v ∧ Ents.Above k es ∧ Ents.Ok kt ty es
end

/-- The number of an enum value is known. -/
def Val.Known (ty : Ty T) : Val T → Prop
  | .leaf (.enum z) => ∃ values, ty = .enum values ∧ z ∈ values.map Prod.snd
  | _ => True

/-- The numbers of enum values that are options, or elements of options, or values of maps that are options, are known. -/
def FVal.Known (ty : Ty T) : FVal T → Prop
  | .one v => v.Known ty
  | .list vs => ∀ v ∈ vs.toList, v.Known ty
  | .map es => ∀ e ∈ es.toList, e.2.Known ty

/-- An options message that is well formed in a scope: the names of settings that may be printed denote the fields. -/
def OptionsOk (a : Printer.At) : Flds T → Prop
  | .nil => True
  | .cons fd v fs =>
    (∀ ps, (oname fd.name).Means a ps → S.option ps = some fd) ∧ FVal.Ok S a.pk fd v ∧ v.Known fd.type ∧ Flds.Above fd.number fs ∧ OptionsOk a fs

end Verif.OptionValues
