import Verif.Model.Printer
import Verif.Spec.Lexer
/-!
# Specification: descriptors that can be printed

What the descriptors satisfy that protoreflect yields of a valid file, and the restrictions under which the printer
yields what it should: no `"` in strings and bytes (C32), no infinite or undefined numbers, options with a value, ranges of
enums with one number (C35), one import per path.
-/
namespace Verif.Printer
open Verif.Lexer Verif.Literal

/-- An identifier. -/
def Ident : Str → Prop
  | [] => False
  | c :: s => letter c = true ∧ ∀ d ∈ s, letter d = true ∨ digit d = true

/-- A number without sign and exponent. -/
def Number : Str → Prop
  | [] => False
  | c :: s => digit c = true ∧ ∀ d ∈ s, digit d = true ∨ d = '.'

def Idents (q : QName) : Prop := ∀ s ∈ q, Ident s

/-- The full name of an element. -/
structure QOk (q : QName) : Prop where
  ne : q ≠ []
  idents : Idents q

/-- A string or bytes without `"`. -/
def StrOk (b : Bytes) : Prop := (∀ c ∈ b, c < 256) ∧ 34 ∉ b

def SVal.Ok : SVal → Prop
  | .int _ => True
  | .float (.finite _ t) => Number t
  | .float _ => False
  | .str b => StrOk b
  | .bytes b => StrOk b
  | .bool _ => True
  | .enum (some n) _ => Ident n
  | .enum none _ => True

def LName.Ok : LName → Prop
  | .plain s => Ident s
  | .ext q => QOk q

mutual
def MLit.Ok : MLit → Prop
  | .fields fs => LFields.Ok fs
  | .any dom ty m => QOk dom ∧ QOk ty ∧ MLit.Ok m
def Lit.Ok : Lit → Prop
  | .scalar v => v.Ok
  | .scalars vs => ∀ v ∈ vs, v.Ok
  | .msg m => MLit.Ok m
  | .msgs _ ms => MLits.Ok ms
def MLits.Ok : MLits → Prop
  | .nil => True
  | .cons m ms => MLit.Ok m ∧ MLits.Ok ms
def LFields.Ok : LFields → Prop
  | .nil => True
  | .cons n v fs => n.Ok ∧ Lit.Ok v ∧ LFields.Ok fs
end

def OVal.Ok : OVal → Prop
  | .scalar v => v.Ok
  | .msg m => m.Ok

def NamePart.Ok : NamePart → Prop
  | .plain s => Ident s
  | .ext _ q => QOk q

def OName.Ok : OName → Prop
  | .plain s => Ident s
  | .ext q => QOk q
  | .raw ps => ps ≠ [] ∧ ∀ p ∈ ps, p.Ok

structure Opt.Ok (o : Opt) : Prop where
  name : o.name.Ok
  val : ∃ v, o.val = some v ∧ v.Ok

/-- The options of an element: at least one for every number. -/
structure Opts.Ok (os : Opts) : Prop where
  each : ∀ g ∈ os, g.2 ≠ [] ∧ ∀ o ∈ g.2, o.Ok
  distinct : (os.map Prod.fst).Nodup

/-! ### Fields -/

def VType.Ok : VType → Prop
  | .scalar _ => True
  | .enum q => QOk q
  | .message q => QOk q

/-- The type of a field beside `n` messages. -/
def FType.Ok (n : Nat) : FType → Prop
  | .plain t => t.Ok
  | .group i => i < n
  | .map _ v _ => v.Ok

/-- A field beside `n` messages: a map is not `optional`, the fields of a oneof have no label, proto3 has no default
values. The numbers of options are positive. -/
structure Field.Ok (n : Nat) (f : Field) : Prop where
  name : Ident f.name
  type : f.type.Ok n
  map : ∀ k v i, f.type = .map k v i → f.optionalKeyword = false
  card : f.card ≠ .optional → f.oneof = none
  proto3 : f.proto3 = true → f.default = none
  default : ∀ v, f.default = some v → v.Ok
  json : ∀ j, f.jsonName = some j → StrOk j
  opts : f.opts.Ok
  tags : ∀ g ∈ f.opts, 0 < g.1

structure EnumValue.Ok (v : EnumValue) : Prop where
  name : Ident v.name
  opts : v.opts.Ok

/-- An enum; a reserved range has one number (for others see C35). -/
structure Enum.Ok (e : Enum) : Prop where
  name : Ident e.name
  opts : e.opts.Ok
  values : ∀ v ∈ e.values, v.Ok
  ranges : ∀ r ∈ e.resRanges, r.start = r.stop
  distinctRanges : e.resRanges.Nodup
  names : ∀ b ∈ e.resNames, StrOk b
  distinctNames : e.resNames.Nodup

/-- An extension of a message. -/
structure Ext.Ok (n : Nat) (x : Ext) : Prop where
  field : x.field.Ok n
  extendee : QOk x.extendee

/-- A message with `n` messages declared in it. Every oneof has a field, and the oneof of a field exists. Extension ranges
that are printed together have the same options. -/
structure MHead.Ok (n : Nat) (h : MHead) : Prop where
  name : Ident h.name
  opts : h.opts.Ok
  fields : ∀ f ∈ h.fields, f.Ok n
  oneofs : ∀ o ∈ h.oneofs, Ident o.name ∧ o.opts.Ok
  oneof : ∀ f ∈ h.fields, ∀ j, f.oneof = some j → j < h.oneofs.length
  inhabited : ∀ j, j < h.oneofs.length → ∃ f ∈ h.fields, f.oneof = some j
  enums : ∀ e ∈ h.enums, e.Ok
  exts : ∀ x ∈ h.exts, x.Ok n
  extRanges : ∀ r ∈ h.extRanges, r.1.start < r.1.stop ∧ r.2.Ok
  same : ∀ i j r s, h.extRanges[i]? = some r → h.extRanges[j]? = some s → h.sameOpts i j = true → r.2 = s.2
  resRanges : ∀ r ∈ h.resRanges, r.start < r.stop
  resNames : ∀ b ∈ h.resNames, StrOk b

mutual
def Msg.Ok : Msg → Prop
  | .mk h ms => h.Ok ms.length ∧ Msg.AllOk ms
def Msg.AllOk : List Msg → Prop
  | [] => True
  | m :: ms => Msg.Ok m ∧ Msg.AllOk ms
end

structure Method.Ok (m : Method) : Prop where
  name : Ident m.name
  input : QOk m.input
  output : QOk m.output
  opts : m.opts.Ok

structure Service.Ok (s : Service) : Prop where
  name : Ident s.name
  opts : s.opts.Ok
  methods : ∀ m ∈ s.methods, m.Ok

/-- The path of an import: printable characters. -/
def PathOk (b : Bytes) : Prop := ∀ x ∈ b, 32 ≤ x ∧ x < 127

/-- A file with proto2 or proto3 syntax. -/
structure File.Ok (f : File) : Prop where
  syn : f.syn ≠ .editions
  package : Idents f.package
  imports : ∀ i ∈ f.imports, PathOk i.path
  distinct : (f.imports.map Import.path).Nodup
  opts : f.opts.Ok
  msgs : Msg.AllOk f.msgs
  enums : ∀ e ∈ f.enums, e.Ok
  services : ∀ s ∈ f.services, s.Ok
  exts : ∀ x ∈ f.exts, x.Ok f.msgs.length

/-! ### The printer -/

/-- The indentation of the printer is white space. -/
def IndentOk (c : Cfg) : Prop := ∀ x ∈ c.indent, x = ' ' ∨ x = '\t'

/-- A comment that can be printed (see C34). -/
def CommentOk (t : Str) : Prop := t ≠ ['\n', '\n']

/-- The comments of a location can be printed. -/
structure LocOk (l : Loc) : Prop where
  detached : ∀ t ∈ l.detached, CommentOk t
  leading : CommentOk l.leading
  trailing : CommentOk l.trailing

/-- The settings of the printer and the source info: the comments can be printed, `unicode.IsPrint` is false for 0, the elements of a
scope are put in some order, and the locations of a list of extensions have its path. -/
structure Env (c : Cfg) (si : SI) : Prop where
  indent : IndentOk c
  noNul : c.isPrint 0 = false
  locs : ∀ p, ∀ l ∈ si p, LocOk l
  sorted : ∀ p ks, (c.sort p ks).Perm ks
  paths : ∀ p, ∀ l ∈ si (p ++ [6]), l.path = p ++ [6]

end Verif.Printer
