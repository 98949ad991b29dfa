import Verif.Spec.Decls
import Verif.Spec.Literal
import Verif.Model.Printer
import Mathlib.Data.List.Forall2
/-!
# Specification: the declarations of a descriptor

When a list of declarations describes a descriptor (`FileMeans`): every element of the descriptor is declared exactly
once, with its name, number, type, label, options, and so on, and nothing else is declared. The order of the
declarations of a scope is free, except that the settings of a repeated option keep their order.
-/
namespace Verif.Printer
open Verif.Decls Verif.Literal

/-- The lists correspond up to the order. -/
def Matches (R : α → β → Prop) (xs : List α) (ys : List β) : Prop := ∃ l : List α, l.Perm xs ∧ List.Forall₂ R l ys

/-- A reference means the name `q` in the scope `sc`: it is the full name with a dot before it, or the rest of the name
after an enclosing scope. (That no inner scope hides it: see C19.) -/
def RefMeans (sc : QName) (r : Ref) (q : QName) : Prop :=
  (r.rooted = true ∧ r.segs = q) ∨ (r.rooted = false ∧ r.segs ≠ [] ∧ ∃ e, e <+: sc ∧ q = e ++ r.segs)

/-- In a message literal only the whole package may be left out. -/
def LitRefMeans (pk : QName) (r : Ref) (q : QName) : Prop :=
  (r.rooted = true ∧ r.segs = q) ∨ (r.rooted = false ∧ r.segs ≠ [] ∧ (q = r.segs ∨ q = pk ++ r.segs))

/-- The token is a string literal with the value `b`. -/
def StrMeans (token : Str) (b : Bytes) : Prop := value (token.map Char.toNat) = some b

def SVal.Means : SVal → Const → Prop
  | .int z, c => c = .num (decide (z < 0)) (dec z.natAbs)
  | .float (.finite neg t), c => c = .num neg t
  | .float (.inf neg), c => c = .word neg ['i', 'n', 'f']
  | .float .nan, c => c = .word false ['n', 'a', 'n']
  | .str b, c => ∃ t, c = .str t ∧ StrMeans t b
  | .bytes b, c => ∃ t, c = .str t ∧ StrMeans t b
  | .bool b, c => c = .word false (if b then "true".toList else "false".toList)
  | .enum (some n) _, c => c = .word false n
  | .enum none z, c => c = .num (decide (z < 0)) (dec z.natAbs)

def scalarsMean : List SVal → Consts → Prop
  | [], cs => cs = .nil
  | v :: vs, cs => ∃ c cs', cs = .cons c cs' ∧ v.Means c ∧ scalarsMean vs cs'

def LName.Means (pk : QName) : LName → CName → Prop
  | .plain s, n => n = .plain s
  | .ext q, n => ∃ r, n = .ext r ∧ LitRefMeans pk r q

mutual
def MLit.Means (pk : QName) : MLit → Const → Prop
  | .fields fs, c => ∃ ds, c = .msg ds ∧ LFields.Means pk fs ds
  | .any dom ty m, c => ∃ d, c = .msg (.cons (.any dom ty) d .nil) ∧ MLit.Means pk m d
def Lit.Means (pk : QName) : Lit → Const → Prop
  | .scalar v, c => v.Means c
  | .scalars vs, c => ∃ cs, c = .list cs ∧ scalarsMean vs cs
  | .msg m, c => MLit.Means pk m c
  | .msgs _ ms, c => ∃ cs, c = .list cs ∧ MLits.Means pk ms cs
def MLits.Means (pk : QName) : MLits → Consts → Prop
  | .nil, cs => cs = .nil
  | .cons m ms, cs => ∃ c cs', cs = .cons c cs' ∧ MLit.Means pk m c ∧ MLits.Means pk ms cs'
def LFields.Means (pk : QName) : LFields → CFields → Prop
  | .nil, cs => cs = .nil
  | .cons n v fs, cs => ∃ n' c cs', cs = .cons n' c cs' ∧ n.Means pk n' ∧ Lit.Means pk v c ∧ LFields.Means pk fs cs'
end

def OVal.Means (pk : QName) : OVal → Const → Prop
  | .scalar v, c => v.Means c
  | .msg m, c => m.Means pk c

def NamePart.Means : NamePart → Part → Prop
  | .plain s, p => p = .plain s
  | .ext rooted q, p => p = .ext ⟨rooted, q⟩

/-- The name of an option in a scope; inside a message the scope of the message itself is not searched. -/
def OName.Means (a : At) : OName → List Part → Prop
  | .plain s, ps => ps = [.plain s]
  | .ext q, ps => ∃ r, ps = [.ext r] ∧ RefMeans (if a.inMsg then a.sc.dropLast else a.sc) r q
  | .raw qs, ps => List.Forall₂ NamePart.Means qs ps

def Opt.Means (a : At) (o : Opt) (d : Setting) : Prop :=
  o.name.Means a d.name ∧ ∃ v, o.val = some v ∧ v.Means a.pk d.val

/-- All options, those of a number in their order. -/
def Opts.Mean (a : At) (os : Opts) (ds : List Setting) : Prop :=
  ∃ l : Opts, l.Perm os ∧ List.Forall₂ (Opt.Means a) (l.flatMap Prod.snd) ds

/-! ### Fields -/

def LabelMeans (f : Field) (l : Option Label) : Prop :=
  l = match f.type, f.card with
    | .map .., _ => none
    | _, .repeated => some .repeated
    | _, .required => some .required
    | _, .optional => if f.optionalKeyword then some .optional else none

/-- The names of the scalar types (protobuf language specification). -/
def Scalar.keyword : Scalar → String
  | .double => "double" | .float => "float" | .int32 => "int32" | .int64 => "int64" | .uint32 => "uint32"
  | .uint64 => "uint64" | .sint32 => "sint32" | .sint64 => "sint64" | .fixed32 => "fixed32" | .fixed64 => "fixed64"
  | .sfixed32 => "sfixed32" | .sfixed64 => "sfixed64" | .bool => "bool" | .string => "string" | .bytes => "bytes"

def VType.Means (sc : QName) : VType → Ref → Prop
  | .scalar k, r => r = ⟨false, [k.keyword.toList]⟩
  | .enum q, r => RefMeans sc r q
  | .message q, r => RefMeans sc r q

/-- The options of a field together with its default value and JSON name. -/
def Field.allOpts (isExt : Bool) (f : Field) : Opts :=
  f.opts ++
    (match f.default with | some v => [(-7, [⟨.plain "default".toList, some (.scalar v)⟩])] | none => []) ++
    (match f.jsonName, isExt with
      | some j, false => [(-10, [⟨.plain "json_name".toList, some (.scalar (.str j))⟩])]
      | _, _ => [])

/-- A message: its name and the descriptions of its body. -/
structure KidMeans where
  name : Str
  body : List Decl → Prop

/-- A field declared in the scope `sc` beside the messages `kids`. -/
def Field.Means (pk sc : QName) (kids : List KidMeans) (isExt : Bool) (f : Field) (d : Decl) : Prop :=
  ∃ l os, LabelMeans f l ∧ Opts.Mean ⟨pk, sc ++ [f.name], false⟩ (f.allOpts isExt) os ∧
    match f.type with
    | .plain t => ∃ r, d = .field l (.ref r) f.name f.number os ∧ t.Means sc r
    | .map k v _ => ∃ r, d = .field l (.map k.keyword.toList r) f.name f.number os ∧ v.Means sc r
    | .group i => ∃ k body, kids[i]? = some k ∧ d = .group l k.name f.number os body ∧ k.body body

/-! ### Parts of a body -/

def asOption : Decl → List Setting | .option o => [o] | _ => []
def asField : Decl → List Decl | .field l t n i os => [.field l t n i os] | .group l n i os b => [.group l n i os b] | _ => []
def asOneof : Decl → List (Str × List Decl) | .oneof n b => [(n, b)] | _ => []
def asMessage : Decl → List (Str × List Decl) | .message n b => [(n, b)] | _ => []
def asEnum : Decl → List (Str × List Decl) | .enum n b => [(n, b)] | _ => []
def asService : Decl → List (Str × List Decl) | .service n b => [(n, b)] | _ => []
def asExtend : Decl → List (Ref × Decl) | .extend r b => b.map (fun d => (r, d)) | _ => []
def asExtension : Decl → List (Decls.Range × List Setting) | .extensions rs os => rs.map (fun r => (r, os)) | _ => []
def asReserved : Decl → List Decls.Range | .reservedRanges rs => rs | _ => []
def asReservedName : Decl → List Str | .reservedNames ts => ts | _ => []
def asValue : Decl → List Decl | .value n i os => [.value n i os] | _ => []
def asRpc : Decl → List Decl | .rpc n i o b => [.rpc n i o b] | _ => []
def asPackage : Decl → List QName | .package q => [q] | _ => []
def asImport : Decl → List (Modifier × Str) | .imp m t => [(m, t)] | _ => []

/-- What may be declared in a body; a declaration of several elements has at least one. -/
def _root_.Verif.Decls.Decl.inOneof : Decl → Bool | .option .. | .field .. | .group .. => true | _ => false
def _root_.Verif.Decls.Decl.inMessage : Decl → Bool
  | .option .. | .field .. | .group .. | .oneof .. | .message .. | .enum .. => true
  | .extend _ ds => !ds.isEmpty
  | .extensions rs _ => !rs.isEmpty
  | .reservedRanges rs => !rs.isEmpty
  | .reservedNames ts => !ts.isEmpty
  | _ => false
def _root_.Verif.Decls.Decl.inEnum : Decl → Bool
  | .option .. | .value .. => true
  | .reservedRanges rs => !rs.isEmpty
  | .reservedNames ts => !ts.isEmpty
  | _ => false
def _root_.Verif.Decls.Decl.inService : Decl → Bool | .option .. | .rpc .. => true | _ => false
def _root_.Verif.Decls.Decl.inFile : Decl → Bool
  | .package .. | .imp .. | .option .. | .message .. | .enum .. | .service .. => true
  | .extend _ ds => !ds.isEmpty
  | _ => false

/-! ### Enums -/

def EnumValue.Means (pk sc : QName) (v : EnumValue) (d : Decl) : Prop :=
  ∃ os, d = .value v.name v.number os ∧ Opts.Mean ⟨pk, sc ++ [v.name], false⟩ v.opts os

/-- The first and last number of a range of an enum: the end is inclusive. -/
def EnumRangeMeans (r : Ranges.Range) (d : Decls.Range) : Prop := d.value 2147483647 = (r.start, r.stop)

def NameMeans (b : Bytes) (token : Str) : Prop := StrMeans token b

structure Enum.Body (pk sc : QName) (e : Enum) (ds : List Decl) : Prop where
  opts : Opts.Mean ⟨pk, sc ++ [e.name], false⟩ e.opts (ds.flatMap asOption)
  values : Matches (EnumValue.Means pk sc) e.values (ds.flatMap asValue)
  ranges : Matches EnumRangeMeans e.resRanges (ds.flatMap asReserved)
  names : Matches NameMeans e.resNames (ds.flatMap asReservedName)
  only : ∀ d ∈ ds, d.inEnum = true

def Enum.Means (pk sc : QName) (e : Enum) (d : Str × List Decl) : Prop := d.1 = e.name ∧ e.Body pk sc d.2

/-! ### Messages -/

/-- The largest field number (protobuf language specification), or the largest number of a message set. -/
def maxNumber (messageSet : Bool) : Int := if messageSet then 2147483646 else 536870911

/-- The first and last number of a range of a message: the end is exclusive. -/
def RangeMeans (messageSet : Bool) (r : Ranges.Range) (d : Decls.Range) : Prop :=
  d.value (maxNumber messageSet) = (r.start, r.stop - 1)

/-- The fields of a oneof, and the fields that are in none (a synthetic one is not declared). -/
def inOneof (h : MHead) (j : Nat) : List Field := h.fields.filter (fun f => decide (f.oneof = some j))
def isReal (h : MHead) (j : Nat) : Bool := match h.oneofs[j]? with | some o => !o.synthetic | none => false
def plainFields (h : MHead) : List Field :=
  h.fields.filter (fun f => match f.oneof with | none => true | some j => !isReal h j)
def realOneofs (h : MHead) : List (Nat × Oneof) :=
  ((List.range h.oneofs.length).zip h.oneofs).filter (fun p => !p.2.synthetic)

structure Oneof.Body (pk sc : QName) (kids : List KidMeans) (o : Oneof) (fs : List Field) (ds : List Decl) : Prop where
  opts : Opts.Mean ⟨pk, sc ++ [o.name], false⟩ o.opts (ds.flatMap asOption)
  fields : Matches (Field.Means pk sc kids false) fs (ds.flatMap asField)
  only : ∀ d ∈ ds, d.inOneof = true

def Oneof.Means (pk sc : QName) (kids : List KidMeans) (h : MHead) (o : Nat × Oneof) (d : Str × List Decl) : Prop :=
  d.1 = o.2.name ∧ o.2.Body pk sc kids (inOneof h o.1) d.2

def Ext.Means (pk sc : QName) (kids : List KidMeans) (x : Ext) (d : Ref × Decl) : Prop :=
  RefMeans sc d.1 x.extendee ∧ x.field.Means pk sc kids true d.2

/-- The message types that are declared by a field: those of groups and map entries. -/
def declared (fs : List Field) (xs : List Ext) (i : Nat) : Bool :=
  fs.any (fun f => match f.type with | .group j => i == j | .map _ _ j => i == j | _ => false) ||
    xs.any (fun x => match x.field.type with | .group j => i == j | _ => false)

def visible (fs : List Field) (xs : List Ext) (kids : List KidMeans) : List KidMeans :=
  (((List.range kids.length).zip kids).filter (fun p => !declared fs xs p.1)).map Prod.snd

def KidMeans.Means (k : KidMeans) (d : Str × List Decl) : Prop := d.1 = k.name ∧ k.body d.2

/-- The declarations in a message `h` whose full name is `sc`. -/
structure MHead.Body (pk sc : QName) (kids : List KidMeans) (h : MHead) (ds : List Decl) : Prop where
  opts : Opts.Mean ⟨pk, sc, true⟩ h.opts (ds.flatMap asOption)
  fields : Matches (Field.Means pk sc kids false) (plainFields h) (ds.flatMap asField)
  oneofs : Matches (Oneof.Means pk sc kids h) (realOneofs h) (ds.flatMap asOneof)
  msgs : Matches KidMeans.Means (visible h.fields h.exts kids) (ds.flatMap asMessage)
  enums : Matches (Enum.Means pk sc) h.enums (ds.flatMap asEnum)
  exts : Matches (Ext.Means pk sc kids) h.exts (ds.flatMap asExtend)
  extRanges : Matches (fun (r : Ranges.Range × Opts) d => RangeMeans h.messageSet r.1 d.1 ∧ Opts.Mean ⟨pk, sc, true⟩ r.2 d.2)
    h.extRanges (ds.flatMap asExtension)
  resRanges : Matches (RangeMeans h.messageSet) h.resRanges (ds.flatMap asReserved)
  resNames : Matches NameMeans h.resNames (ds.flatMap asReservedName)
  only : ∀ d ∈ ds, d.inMessage = true

mutual
/-- A message in the scope `sc`. -/
def Msg.means (pk sc : QName) : Msg → KidMeans
  | .mk h ms => ⟨h.name, MHead.Body pk (sc ++ [h.name]) (Msg.meanings pk (sc ++ [h.name]) ms) h⟩
def Msg.meanings (pk sc : QName) : List Msg → List KidMeans
  | [] => []
  | m :: ms => Msg.means pk sc m :: Msg.meanings pk sc ms
end

/-! ### Services and files -/

def Method.Means (pk sc : QName) (m : Method) (d : Decl) : Prop :=
  ∃ i o body, d = .rpc m.name i o body ∧ i.stream = m.clientStream ∧ RefMeans pk i.ref m.input ∧
    o.stream = m.serverStream ∧ RefMeans pk o.ref m.output ∧
    ∃ os, body = os.map .option ∧ Opts.Mean ⟨pk, sc ++ [m.name], false⟩ m.opts os

structure Service.Body (pk : QName) (s : Service) (ds : List Decl) : Prop where
  opts : Opts.Mean ⟨pk, pk ++ [s.name], false⟩ s.opts (ds.flatMap asOption)
  methods : Matches (Method.Means pk (pk ++ [s.name])) s.methods (ds.flatMap asRpc)
  only : ∀ d ∈ ds, d.inService = true

def Service.Means (pk : QName) (s : Service) (d : Str × List Decl) : Prop := d.1 = s.name ∧ s.Body pk d.2

def Import.Means (i : Import) (d : Modifier × Str) : Prop :=
  d.1 = (if i.isPublic then .pub else if i.isWeak then .weak else .none) ∧ StrMeans d.2 i.path

structure File.Body (f : File) (ds : List Decl) : Prop where
  package : (ds.flatMap asPackage) = (if f.package = [] then [] else [f.package])
  imports : Matches Import.Means f.imports (ds.flatMap asImport)
  opts : Opts.Mean ⟨f.package, f.package, false⟩ f.opts (ds.flatMap asOption)
  msgs : Matches KidMeans.Means (visible [] f.exts (Msg.meanings f.package f.package f.msgs)) (ds.flatMap asMessage)
  enums : Matches (Enum.Means f.package f.package) f.enums (ds.flatMap asEnum)
  services : Matches (Service.Means f.package) f.services (ds.flatMap asService)
  exts : Matches (Ext.Means f.package f.package (Msg.meanings f.package f.package f.msgs)) f.exts (ds.flatMap asExtend)
  only : ∀ d ∈ ds, d.inFile = true

def Syntax.Means : Syntax → Str → Prop
  | .proto2, t => t = "\"proto2\"".toList
  | .proto3, t => t = "\"proto3\"".toList
  | .editions, _ => False

/-- The declarations of a file: the syntax first. (A file of an edition has no syntax declaration.) -/
def FileMeans (f : File) (ds : List Decl) : Prop := ∃ t body, ds = .syn t :: body ∧ f.syn.Means t ∧ f.Body body

end Verif.Printer
