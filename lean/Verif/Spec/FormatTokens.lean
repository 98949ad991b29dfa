import Verif.Spec.Lexer
import Verif.Spec.Comment
import Verif.Model.Formatter
import Mathlib.Data.List.Chain
/-!
# Specification: the tokens of a syntax tree

Which tokens and comments the nodes of a syntax tree may have, and the tokens of the tree in the order of the source.
-/
namespace Verif.Formatter
open Verif.Lexer Verif.Comment
open Verif.InlineComment (Comment)

/-- The kinds of tokens. -/
inductive Cls where
  | hard | sign | ident | num | dot | slash
deriving DecidableEq, Repr

/-- A comment: a block comment, or a line comment (without the end of a block comment, see C44). -/
def CommentOk (c : Comment) : Prop :=
  IsBlock c.text ∨ ∃ r, c.text = '/' :: '/' :: r ∧ '\n' ∉ r ∧ ¬ ['*', '/'] <:+: r

/-- After a line comment there is a line break. -/
def Follows (c d : Comment) : Prop := ['/', '/'].isPrefixOf c.text = true → '\n' ∈ d.leadingWhitespace

structure CommentsOk (cs : List Comment) : Prop where
  each : ∀ c ∈ cs, CommentOk c
  chain : cs.IsChain Follows

/-- A string literal; if it is in single quotes, it has no double quotes (see C43). -/
def StringOk (raw : Str) : Prop :=
  lexFrom .idle raw = ([raw], .idle) ∧ (raw.head? = some '"' ∨ raw.head? = some '\'' ∧ '"' ∉ raw)

/-- A punctuation mark. -/
def punct (c : Char) : Bool := hardChar' c && !isSpace c && !isQuote c && c != '/'
where hardChar' (c : Char) : Bool := !letter c && !digit c && c != '.' && c != '+' && c != '-'

/-- An identifier or keyword. -/
def IdentOk : Str → Prop
  | [] => False
  | c :: s => letter c = true ∧ ∀ d ∈ s, letter d = true ∨ digit d = true

/-- The characters `s` continue the number `a`. -/
def NumTail : Str → Str → Prop
  | _, [] => True
  | a, c :: s => numMore a c = true ∧ NumTail (a ++ [c]) s

/-- A number: it starts with a digit, or with a dot and a digit. -/
def NumOk : Str → Prop
  | [] => False
  | c :: s => (digit c = true ∧ NumTail [c] s) ∨
    (c = '.' ∧ match s with | [] => False | d :: s => digit d = true ∧ NumTail ['.', d] s)

/-- The text of a node of the kind. -/
def TermOk : Cls → Term → Prop
  | .hard, .rune c => punct c = true
  | .hard, .string raw => StringOk raw
  | .sign, .rune c => c = '-' ∨ c = '+'
  | .ident, .text s => IdentOk s
  | .num, .text s => NumOk s
  | .dot, .rune c => c = '.'
  | .slash, .rune c => c = '/'
  | _, _ => False

/-- A token of the kind, with its comments. -/
structure Is (k : Cls) (t : Tok) : Prop where
  term : TermOk k t.term
  leading : CommentsOk t.leading
  trailing : CommentsOk t.trailing

/-- A separator. -/
def isSep (t : Tok) : Prop := t.term = .rune ';' ∨ t.term = .rune ','

/-- A separator with its comments. -/
structure SepOk (t : Tok) : Prop where
  is : Is .hard t
  sep : isSep t

/-- A semicolon or comma that may be missing. -/
def SemiOk (semi : Option Tok) : Prop := ∀ s, semi = some s → SepOk s

/-- A token that may be missing. -/
def Is? (k : Cls) (t : Option Tok) : Prop := ∀ s, t = some s → Is k s

/-! ### Well-formed trees -/

/-- Identifiers with dots between them. -/
def NameOk : List Tok → Prop
  | [] => False
  | [t] => Is .ident t
  | t :: d :: ts => Is .ident t ∧ Is .dot d ∧ NameOk ts

/-- A name that may start with a dot. -/
def DotNameOk : List Tok → Prop
  | [] => False
  | t :: ts => NameOk (t :: ts) ∨ (Is .dot t ∧ NameOk ts)

/-- A reference. A URL is in brackets, and there are no comments next to the slash. -/
structure RefOk (r : Ref) : Prop where
  op : Is? .hard r.op
  cl : Is? .hard r.cl
  url : ∀ u, r.url = some u → NameOk u ∧ NameOk r.name ∧ r.op.isSome = true ∧ (nameFirst r.name).leading = [] ∧
    ∃ s, r.slash = some s ∧ Is .slash s ∧ s.trailing = []
  slash : r.url = none → r.slash = none
  bare : r.op = none → NameOk r.name ∧ r.cl = none
  name : DotNameOk r.name

/-- A value that may be an element of an array. -/
def Value.inArray : Value → Bool
  | .ident _ => false
  | .array .. => false
  | _ => true

def Value.isStrings : Value → Bool
  | .strings _ => true
  | _ => false

def Values.isNil : Values → Bool
  | .nil => true
  | _ => false

mutual
/-- A value. -/
def Value.Ok : Value → Prop
  | .term t => Is .hard t ∨ Is .ident t ∨ Is .num t
  | .ident ts => DotNameOk ts
  | .neg s n => Is .sign s ∧ (Is .num n ∨ Is .ident n)
  | .strings ps => ps ≠ [] ∧ ∀ p ∈ ps, Is .hard p
  | .array op vs cl semi => Is .hard op ∧ Values.Ok vs ∧ Is .hard cl ∧ SemiOk semi
  | .msg op fs cl semi => Is .hard op ∧ MFields.Ok fs ∧ Is .hard cl ∧ SemiOk semi
/-- The elements of an array: neither arrays nor compound identifiers, with commas between them. -/
def Values.Ok : Values → Prop
  | .nil => True
  | .cons v comma vs => v.inArray = true ∧ Value.Ok v ∧ SemiOk comma ∧ (vs.isNil = false → comma.isSome = true) ∧ Values.Ok vs
/-- The fields of a message literal. -/
def MFields.Ok : MFields → Prop
  | .nil => True
  | .cons name sep v semi fs => RefOk name ∧ Is? .hard sep ∧ Value.Ok v ∧ SemiOk semi ∧ MFields.Ok fs
end

/-- The name of an option: references with dots between them. -/
def OptNameOk : OptName → Prop
  | [.ref r] => RefOk r ∧ r.url = none
  | .ref r :: .dot d :: ps => RefOk r ∧ r.url = none ∧ Is .dot d ∧ OptNameOk ps
  | _ => False

/-- An option that is complete. -/
structure OptOk (o : Opt) : Prop where
  kw : Is? .ident o.kw
  name : ∃ n, o.name = some n ∧ OptNameOk n
  eq : Is? .hard o.eq
  val : ∃ v, o.val = some v ∧ v.Ok
  semi : SemiOk o.semi

/-- The options of an option list: there are commas between them; a string literal of several parts is only the last
option of a list that is written on one line (see C45), and has a comma after it in one that is not. -/
def OptsOk (expanded : Bool) : List Opt → Prop
  | [] => True
  | o :: os => OptOk o ∧ o.kw = none ∧ (os ≠ [] → o.semi.isSome = true) ∧
    (∀ v, o.val = some v → v.isStrings = true → if expanded then o.semi.isSome = true else os = []) ∧ OptsOk expanded os

structure CompactOk (c : Compact) : Prop where
  op : Is .hard c.op
  opens : c.op.term = .rune '['
  opts : OptsOk c.expanded c.opts
  cl : Is .hard c.cl
  closes : c.cl.term = .rune ']'
  semi : SemiOk c.semi

def CompactOk? (c : Option Compact) : Prop := ∀ d, c = some d → CompactOk d

/-- The semicolon at the end of a declaration; the parser inserts it if it is missing. -/
def EndOk (semi : Option Tok) : Prop := ∃ s, semi = some s ∧ SepOk s

/-- A field. A type does not start with a dot if there is no label (see C62). -/
structure FieldOk (x : FieldDecl) : Prop where
  label : Is? .ident x.label
  type : if x.label.isSome then DotNameOk x.type else NameOk x.type
  name : Is? .ident x.name
  eq : Is? .hard x.eq
  tag : Is? .num x.tag
  complete : x.incomplete = false → x.name.isSome = true ∧ x.eq.isSome = true ∧ x.tag.isSome = true
  opts : CompactOk? x.opts
  semi : EndOk x.semi

structure MapOk (x : MapDecl) : Prop where
  kw : Is .ident x.kw
  op : Is .hard x.op
  key : Is .ident x.key
  comma : Is .hard x.comma
  type : DotNameOk x.type
  cl : Is .hard x.cl
  typeSemi : SemiOk x.typeSemi
  name : Is .ident x.name
  eq : Is .hard x.eq
  tag : Is .num x.tag
  opts : CompactOk? x.opts
  semi : EndOk x.semi

structure EnumValOk (x : EnumVal) : Prop where
  name : Is .ident x.name
  eq : Is .hard x.eq
  num : x.num.Ok
  opts : CompactOk? x.opts
  semi : EndOk x.semi

def RangeElem.Ok : RangeElem → Prop
  | .comma t => Is .hard t
  | .range s mid stop => s.Ok ∧ Is? .ident mid ∧ ∀ v, stop = some v → v.Ok
  | .name v => v.Ok

structure RPCTypeOk (x : RPCType) : Prop where
  op : Is .hard x.op
  stream : Is? .ident x.stream
  type : DotNameOk x.type
  cl : Is .hard x.cl

def Decls.isNil : Decls → Bool
  | .nil => true
  | _ => false

mutual
/-- A declaration in a container; enum values are only in enums, which are written in columns. -/
def Decl.Ok (column : Bool) : Decl → Prop
  | .empty t => SepOk t
  | .option o => OptOk o ∧ o.semi.isSome = true
  | .field x => FieldOk x
  | .mapField x => MapOk x
  | .enumValue x => column = true ∧ EnumValOk x
  | .extensions kw es opts semi => Is .ident kw ∧ (∀ e ∈ es, e.Ok) ∧ CompactOk? opts ∧ EndOk semi
  | .reserved kw es semi => Is .ident kw ∧ (∀ e ∈ es, e.Ok) ∧ EndOk semi
  | .block kw name column op ds cl semi => Is .ident kw ∧ DotNameOk name ∧ Is .hard op ∧ Decls.Ok column ds ∧ Is .hard cl ∧
      SemiOk semi
  | .group label kw name eq tag opts op ds cl semi => Is? .ident label ∧ Is .ident kw ∧ Is .ident name ∧ Is .hard eq ∧
      Is .num tag ∧ CompactOk? opts ∧ Is .hard op ∧ Decls.Ok false ds ∧ Is .hard cl ∧ SemiOk semi
  | .rpc kw name input ret output op ds cl semi => Is .ident kw ∧ Is .ident name ∧ RPCTypeOk input ∧ Is .ident ret ∧
      RPCTypeOk output ∧ Is? .hard op ∧ Decls.Ok false ds ∧ Is? .hard cl ∧ SemiOk semi ∧
      (op = none ∧ cl = none ∧ ds.isNil = true ∨
        ∃ x y, op = some x ∧ cl = some y ∧ x.term = .rune '{' ∧ y.term = .rune '}')
def Decls.Ok (column : Bool) : Decls → Prop
  | .nil => True
  | .cons d ds => Decl.Ok column d ∧ Decls.Ok column ds
end

structure SyntaxOk (x : Syntax) : Prop where
  kw : Is .ident x.kw
  eq : Is .hard x.eq
  val : x.val.Ok
  semi : EndOk x.semi

structure PackageOk (x : Package) : Prop where
  kw : Is .ident x.kw
  name : ∀ n, x.name = some n → NameOk n
  semi : EndOk x.semi

structure ImportOk (x : Import) : Prop where
  kw : Is .ident x.kw
  modifier : Is? .ident x.modifier
  name : x.name.Ok
  semi : EndOk x.semi

/-- A file. -/
structure FileOk (x : File) : Prop where
  «syntax» : ∀ s, x.syntax = some s → SyntaxOk s
  package : ∀ p, x.package = some p → PackageOk p
  imports : ∀ i ∈ x.imports, ImportOk i
  options : ∀ o ∈ x.options, OptOk o ∧ o.semi.isSome = true
  decls : ∀ d ∈ x.decls, d.Ok false
  eof : CommentsOk x.eof

/-! ### The tokens of the source

The tokens of the tree in the order of the source, without those that the parser has inserted. -/

def src? : Option Tok → List Tok
  | some t => if t.virtual then [] else [t]
  | none => []

def Ref.src (r : Ref) : List Tok := r.op.toList ++ r.url.getD [] ++ r.slash.toList ++ r.name ++ r.cl.toList

mutual
def Value.src : Value → List Tok
  | .term t => [t]
  | .ident ts => ts
  | .neg s n => [s, n]
  | .strings ps => ps
  | .array op vs cl semi => op :: (Values.src vs ++ cl :: src? semi)
  | .msg op fs cl semi => op :: (MFields.src fs ++ cl :: src? semi)
def Values.src : Values → List Tok
  | .nil => []
  | .cons v comma vs => Value.src v ++ (src? comma ++ Values.src vs)
def MFields.src : MFields → List Tok
  | .nil => []
  | .cons name sep v semi fs => name.src ++ (sep.toList ++ (Value.src v ++ (src? semi ++ MFields.src fs)))
end

def Part.src : Part → List Tok
  | .ref r => r.src
  | .dot t => [t]

def Opt.src (o : Opt) : List Tok :=
  o.kw.toList ++ ((o.name.getD []).flatMap Part.src ++ (o.eq.toList ++ ((o.val.map Value.src).getD [] ++ src? o.semi)))

def Compact.src (c : Compact) : List Tok := c.op :: (c.opts.flatMap Opt.src ++ c.cl :: src? c.semi)

def compactSrc : Option Compact → List Tok
  | some c => c.src
  | none => []

def FieldDecl.src (x : FieldDecl) : List Tok :=
  x.label.toList ++ (x.type ++ (x.name.toList ++ (x.eq.toList ++ (x.tag.toList ++ (compactSrc x.opts ++ src? x.semi)))))

def MapDecl.src (x : MapDecl) : List Tok :=
  [x.kw, x.op, x.key, x.comma] ++ (x.type ++ (x.cl :: (src? x.typeSemi ++ ([x.name, x.eq, x.tag] ++
    (compactSrc x.opts ++ src? x.semi)))))

def EnumVal.src (x : EnumVal) : List Tok :=
  [x.name, x.eq] ++ (x.num.src ++ (compactSrc x.opts ++ src? x.semi))

def RangeElem.src : RangeElem → List Tok
  | .comma t => [t]
  | .range s mid stop => s.src ++ (mid.toList ++ (stop.map Value.src).getD [])
  | .name v => v.src

def RPCType.src (x : RPCType) : List Tok := x.op :: (x.stream.toList ++ (x.type ++ [x.cl]))

mutual
def Decl.src : Decl → List Tok
  | .empty t => src? (some t)
  | .option o => o.src
  | .field x => x.src
  | .mapField x => x.src
  | .enumValue x => x.src
  | .extensions kw es opts semi => kw :: (es.flatMap RangeElem.src ++ (compactSrc opts ++ src? semi))
  | .reserved kw es semi => kw :: (es.flatMap RangeElem.src ++ src? semi)
  | .block kw name _ op ds cl semi => kw :: (name ++ op :: (Decls.src ds ++ cl :: src? semi))
  | .group label kw name eq tag opts op ds cl semi =>
    label.toList ++ ([kw, name, eq, tag] ++ (compactSrc opts ++ op :: (Decls.src ds ++ cl :: src? semi)))
  | .rpc kw name input ret output op ds cl semi =>
    kw :: name :: (input.src ++ ret :: (output.src ++ (op.toList ++ (Decls.src ds ++ (cl.toList ++ src? semi)))))
def Decls.src : Decls → List Tok
  | .nil => []
  | .cons d ds => Decl.src d ++ Decls.src ds
end

def Syntax.src (x : Syntax) : List Tok := x.kw :: x.eq :: (x.val.src ++ src? x.semi)

def Package.src (x : Package) : List Tok := x.kw :: (x.name.getD [] ++ src? x.semi)

def Import.src (x : Import) : List Tok := x.kw :: (x.modifier.toList ++ (x.name.src ++ src? x.semi))

/-- The imports without those that have the path of the one before and no comment. -/
def distinct : List Import → List Import
  | [] => []
  | i :: is => i :: go i.path is
where
  go (path : Str) : List Import → List Import
    | [] => []
    | i :: is => if i.path = path ∧ i.commented = false then go i.path is else i :: go i.path is

/-- The tokens of a file; its imports and options are sorted. -/
def File.src (x : File) : List Tok :=
  (x.syntax.map Syntax.src).getD [] ++ ((x.package.map Package.src).getD [] ++ ((distinct x.imports).flatMap Import.src ++
    (x.options.flatMap Opt.src ++ x.decls.flatMap Decl.src)))

/-! ### The tokens of the formatted text -/

def strs (ts : List Tok) : List Str := ts.map Tok.str

def str? (t : Option Tok) : List Str := strs t.toList

/-- A parenthesis that is missing is added. -/
def Ref.close (r : Ref) : List Str :=
  match r.cl with
  | some t => [t.str]
  | none => if r.op.isSome then [[')']] else []

def Ref.out (r : Ref) : List Str :=
  str? r.op ++ (strs (r.url.getD []) ++ (str? r.slash ++ (strs r.name ++ r.close)))

mutual
def Value.out : Value → List Str
  | .term t => [t.str]
  | .ident ts => strs ts
  | .neg s n => [s.str, n.str]
  | .strings ps => strs ps
  | .array op vs cl _ => [op.str] ++ Values.out vs ++ [cl.str]
  | .msg op fs cl _ => [op.str] ++ MFields.out (expandedM fs) fs ++ [cl.str]
/-- The commas are between the elements. -/
def Values.out : Values → List Str
  | .nil => []
  | .cons v comma vs => Value.out v ++ (if vs.isNil then [] else str? comma) ++ Values.out vs
/-- On several lines, every field has a comma; on one line, there are separators between them. -/
def MFields.out (expanded : Bool) : MFields → List Str
  | .nil => []
  | .cons name sep v semi fs =>
    name.out ++ [(sep.getD (Tok.new ':')).str] ++ Value.out v ++
      (match fs with
       | .nil => if expanded then [[',']] else []
       | _ => if expanded then [[',']] else [(semi.getD (Tok.new ',')).str]) ++ MFields.out expanded fs
end

def Part.out : Part → List Str
  | .ref r => r.out
  | .dot t => [t.str]

/-- An option without its separator. -/
def Opt.core (o : Opt) : List Str :=
  str? o.kw ++ ((o.name.getD []).flatMap Part.out ++ (str? o.eq ++ (o.val.map Value.out).getD []))

/-- The separator of an option of an option list. -/
def optSep (expanded last : Bool) (o : Opt) : List Str :=
  if expanded && (o.val.map Value.isStrings).getD false then str? o.semi
  else if last then [] else [[',']]

def optsOut (expanded : Bool) : List Opt → List Str
  | [] => []
  | o :: os => o.core ++ optSep expanded os.isEmpty o ++ optsOut expanded os

/-- An empty option list is not written. -/
def Compact.out (c : Compact) : List Str := if c.opts = [] then [] else [c.op.str] ++ optsOut c.expanded c.opts ++ [c.cl.str]

def compactOut : Option Compact → List Str
  | some c => c.out
  | none => []

/-- An option that is a declaration. -/
def Opt.out (o : Opt) : List Str := o.core ++ str? o.semi

def FieldDecl.out (x : FieldDecl) : List Str :=
  str? x.label ++ (strs x.type ++ (str? x.name ++ (str? x.eq ++ (str? x.tag ++ (compactOut x.opts ++ str? x.semi)))))

def MapDecl.out (x : MapDecl) : List Str :=
  strs [x.kw, x.op, x.key, x.comma] ++ (strs x.type ++ ([x.cl.str] ++ (strs [x.name, x.eq, x.tag] ++
    (compactOut x.opts ++ str? x.semi))))

def EnumVal.out (x : EnumVal) : List Str := strs [x.name, x.eq] ++ (x.num.out ++ (compactOut x.opts ++ [[';']]))

def RangeElem.out : RangeElem → List Str
  | .comma t => [t.str]
  | .range s mid stop => s.out ++ (str? mid ++ (stop.map Value.out).getD [])
  | .name v => v.out

def RPCType.out (x : RPCType) : List Str := [x.op.str] ++ (str? x.stream ++ (strs x.type ++ [x.cl.str]))

mutual
/-- An empty declaration is not written; a method with an empty body has a semicolon instead. -/
def Decl.out : Decl → List Str
  | .empty _ => []
  | .option o => o.out
  | .field x => x.out
  | .mapField x => x.out
  | .enumValue x => x.out
  | .extensions kw es opts semi => [kw.str] ++ es.flatMap RangeElem.out ++ (compactOut opts ++ str? semi)
  | .reserved kw es semi => [kw.str] ++ es.flatMap RangeElem.out ++ str? semi
  | .block kw name _ op ds cl _ => [kw.str] ++ strs name ++ ([op.str] ++ Decls.out ds ++ [cl.str])
  | .group label kw name eq tag opts op ds cl _ =>
    str? label ++ strs [kw, name, eq, tag] ++ compactOut opts ++ ([op.str] ++ Decls.out ds ++ [cl.str])
  | .rpc kw name input ret output op ds cl _ =>
    [kw.str] ++ [name.str] ++ input.out ++ [ret.str] ++ output.out ++
      (if ds.isNil then [[';']] else str? op ++ Decls.out ds ++ str? cl)
def Decls.out : Decls → List Str
  | .nil => []
  | .cons d ds => Decl.out d ++ Decls.out ds
end

def Syntax.out (x : Syntax) : List Str := [x.kw.str] ++ [x.eq.str] ++ x.val.out ++ str? x.semi
def Package.out (x : Package) : List Str := [x.kw.str] ++ strs (x.name.getD []) ++ str? x.semi
def Import.out (x : Import) : List Str := [x.kw.str] ++ str? x.modifier ++ x.name.out ++ str? x.semi

def File.out (x : File) : List Str :=
  (x.syntax.map Syntax.out).getD [] ++ ((x.package.map Package.out).getD [] ++ ((distinct x.imports).flatMap Import.out ++
    (x.options.flatMap Opt.out ++ x.decls.flatMap Decl.out)))

/-! ### What the formatter may change -/

/-- The tokens `os` are those of `ts`, string literals in double quotes, except that separators may be inserted, replaced
by others and removed, a colon or a closing parenthesis may be inserted, an empty option list may be removed, and an
empty body may be replaced by a semicolon. -/
inductive Rewrites : List Tok → List Str → Prop where
  | nil : Rewrites [] []
  | keep (t : Tok) {ts : List Tok} {os : List Str} : Rewrites ts os → Rewrites (t :: ts) (t.str :: os)
  | replace (t : Tok) (c : Char) {ts : List Tok} {os : List Str} : isSep t → c = ';' ∨ c = ',' → Rewrites ts os →
      Rewrites (t :: ts) ([c] :: os)
  | remove (t : Tok) {ts : List Tok} {os : List Str} : isSep t → Rewrites ts os → Rewrites (t :: ts) os
  | insert (c : Char) {ts : List Tok} {os : List Str} : c = ';' ∨ c = ',' ∨ c = ':' ∨ c = ')' → Rewrites ts os →
      Rewrites ts ([c] :: os)
  | brackets (x y : Tok) {ts : List Tok} {os : List Str} : x.term = .rune '[' → y.term = .rune ']' → Rewrites ts os →
      Rewrites (x :: y :: ts) os
  | braces (x y : Tok) {ts : List Tok} {os : List Str} : x.term = .rune '{' → y.term = .rune '}' → Rewrites ts os →
      Rewrites (x :: y :: ts) ([';'] :: os)

end Verif.Formatter
