import Verif.Util.Decimal
import Verif.Spec.Lexer
/-!
# Specification: protobuf declarations and their tokens

The declarations of the protobuf language (proto2 and proto3) as a tree, and the tokens of a declaration.
-/
namespace Verif.Decls

/-- A reference to a type or extension: `a.b.c` or, if rooted, `.a.b.c`. -/
structure Ref where
  rooted : Bool
  segs : List Str
deriving DecidableEq, Repr

def dot : Str := ['.']

/-- Names with dots between them. -/
def segToks : List Str → List Str
  | [] => []
  | [s] => [s]
  | s :: ss => s :: dot :: segToks ss

def Ref.toks (r : Ref) : List Str := (if r.rooted then [dot] else []) ++ segToks r.segs

/-- The type of a field. -/
inductive DType
  | ref (r : Ref)
  | map (k : Str) (v : Ref)
deriving DecidableEq, Repr

def DType.toks : DType → List Str
  | .ref r => r.toks
  | .map k v => [['m', 'a', 'p'], ['<'], k, [',']] ++ v.toks ++ [['>']]

/-- The name of a field of a message literal. -/
inductive CName
  | plain (s : Str)
  | ext (r : Ref)
  | any (dom type : List Str)
deriving DecidableEq, Repr

def CName.toks : CName → List Str
  | .plain s => [s]
  | .ext r => [['[']] ++ r.toks ++ [[']']]
  | .any dom type => [['[']] ++ segToks dom ++ [['/']] ++ segToks type ++ [[']']]

def sign (neg : Bool) : List Str := if neg then [['-']] else []

mutual
/-- A constant. -/
inductive Const
  | num (neg : Bool) (text : Str)
  | word (neg : Bool) (s : Str)
  | str (token : Str)
  | msg (fs : CFields)
  | list (cs : Consts)
inductive Consts
  | nil
  | cons (c : Const) (cs : Consts)
inductive CFields
  | nil
  | cons (n : CName) (c : Const) (fs : CFields)
end

mutual
def Const.toks : Const → List Str
  | .num neg t => sign neg ++ [t]
  | .word neg s => sign neg ++ [s]
  | .str t => [t]
  | .msg fs => ['{'] :: CFields.toks true fs ++ [['}']]
  | .list cs => ['['] :: Consts.toks true cs ++ [[']']]
/-- The elements of a list; `first`: no comma before. -/
def Consts.toks (first : Bool) : Consts → List Str
  | .nil => []
  | .cons c cs => (if first then [] else [[',']]) ++ Const.toks c ++ Consts.toks false cs
def CFields.toks (first : Bool) : CFields → List Str
  | .nil => []
  | .cons n c fs => (if first then [] else [[',']]) ++ n.toks ++ [[':']] ++ Const.toks c ++ CFields.toks false fs
end

/-- A part of the name of an option. -/
inductive Part
  | plain (s : Str)
  | ext (r : Ref)
deriving DecidableEq, Repr

def Part.toks : Part → List Str
  | .plain s => [s]
  | .ext r => [['(']] ++ r.toks ++ [[')']]

def nameToks : List Part → List Str
  | [] => []
  | [p] => p.toks
  | p :: ps => p.toks ++ dot :: nameToks ps

structure Setting where
  name : List Part
  val : Const

def Setting.toks (o : Setting) : List Str := nameToks o.name ++ [['=']] ++ o.val.toks

/-- The token lists with a comma between them. -/
def commas : List (List Str) → List Str
  | [] => []
  | [t] => t
  | t :: ts => t ++ [','] :: commas ts

/-- The options of a field, value, or range. -/
def optToks (os : List Setting) : List Str :=
  if os.isEmpty then [] else ['['] :: commas (os.map Setting.toks) ++ [[']']]

def intToks (z : Int) : List Str := sign (decide (z < 0)) ++ [dec z.natAbs]

inductive Upper
  | same
  | max
  | upto (z : Int)
deriving DecidableEq, Repr

structure Range where
  lo : Int
  hi : Upper
deriving DecidableEq, Repr

/-- The first and last number of a range. -/
def Range.value (maximum : Int) (r : Range) : Int × Int :=
  (r.lo, match r.hi with | .same => r.lo | .max => maximum | .upto z => z)

def Range.toks (r : Range) : List Str :=
  intToks r.lo ++ match r.hi with
    | .same => []
    | .max => [['t', 'o'], ['m', 'a', 'x']]
    | .upto z => [['t', 'o']] ++ intToks z

inductive Label | optional | required | repeated
deriving DecidableEq, Repr

def Label.toks : Label → List Str
  | .optional => ["optional".toList]
  | .required => ["required".toList]
  | .repeated => ["repeated".toList]

inductive Modifier | none | pub | weak
deriving DecidableEq, Repr

def Modifier.toks : Modifier → List Str
  | .none => []
  | .pub => ["public".toList]
  | .weak => ["weak".toList]

def labelToks : Option Label → List Str
  | .none => []
  | .some l => l.toks

structure RpcType where
  stream : Bool
  ref : Ref
deriving DecidableEq, Repr

def RpcType.toks (t : RpcType) : List Str :=
  [['(']] ++ (if t.stream then ["stream".toList] else []) ++ t.ref.toks ++ [[')']]

/-- A declaration. -/
inductive Decl
  | syn (token : Str)
  | package (q : List Str)
  | imp (m : Modifier) (token : Str)
  | option (o : Setting)
  | field (l : Option Label) (t : DType) (name : Str) (number : Nat) (os : List Setting)
  | group (l : Option Label) (name : Str) (number : Nat) (os : List Setting) (body : List Decl)
  | oneof (name : Str) (body : List Decl)
  | message (name : Str) (body : List Decl)
  | enum (name : Str) (body : List Decl)
  | value (name : Str) (number : Int) (os : List Setting)
  | extend (r : Ref) (body : List Decl)
  | extensions (rs : List Range) (os : List Setting)
  | reservedRanges (rs : List Range)
  | reservedNames (tokens : List Str)
  | service (name : Str) (body : List Decl)
  | rpc (name : Str) (inp out : RpcType) (body : List Decl)

def semi : List Str := [[';']]
def eq : List Str := [['=']]

mutual
def Decl.toks : Decl → List Str
  | .syn t => ["syntax".toList] ++ eq ++ [t] ++ semi
  | .package q => ["package".toList] ++ segToks q ++ semi
  | .imp m t => ["import".toList] ++ m.toks ++ [t] ++ semi
  | .option o => ["option".toList] ++ o.toks ++ semi
  | .field l t name n os => labelToks l ++ t.toks ++ [name] ++ eq ++ [dec n] ++ optToks os ++ semi
  | .group l name n os body =>
    labelToks l ++ ["group".toList, name] ++ eq ++ [dec n] ++ optToks os ++ [['{']] ++ Decl.toksAll body ++ [['}']]
  | .oneof name body => ["oneof".toList, name, ['{']] ++ Decl.toksAll body ++ [['}']]
  | .message name body => ["message".toList, name, ['{']] ++ Decl.toksAll body ++ [['}']]
  | .enum name body => ["enum".toList, name, ['{']] ++ Decl.toksAll body ++ [['}']]
  | .value name n os => [name] ++ eq ++ intToks n ++ optToks os ++ semi
  | .extend r body => ["extend".toList] ++ r.toks ++ [['{']] ++ Decl.toksAll body ++ [['}']]
  | .extensions rs os => ["extensions".toList] ++ commas (rs.map Range.toks) ++ optToks os ++ semi
  | .reservedRanges rs => ["reserved".toList] ++ commas (rs.map Range.toks) ++ semi
  | .reservedNames ts => ["reserved".toList] ++ commas (ts.map fun t => [t]) ++ semi
  | .service name body => ["service".toList, name, ['{']] ++ Decl.toksAll body ++ [['}']]
  | .rpc name i o [] => ["rpc".toList, name] ++ i.toks ++ ["returns".toList] ++ o.toks ++ semi
  | .rpc name i o (d :: ds) =>
    ["rpc".toList, name] ++ i.toks ++ ["returns".toList] ++ o.toks ++ [['{']] ++ (Decl.toks d ++ Decl.toksAll ds) ++ [['}']]
def Decl.toksAll : List Decl → List Str
  | [] => []
  | d :: ds => Decl.toks d ++ Decl.toksAll ds
end

end Verif.Decls
