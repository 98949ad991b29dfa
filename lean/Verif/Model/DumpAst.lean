import Verif.Util.Decimal
/-!
# The dump of a syntax tree

`DumpAST` (/repo/pkg/format/ast.go:14-49), the answer of the command `protols/ast` (/repo/pkg/lsp/commands.go:91-108), with
`dumpVisitor.Visit` (ast.go:69-254). The traversal `ast.Inspect` is external: `before`, the visitor, the children in order, `after`.
-/
namespace Verif.DumpAst

/-- A constant text. -/
@[irreducible] def lit (s : String) : Str := s.toList

/-- What a range ends with, ast.go:221-229. -/
inductive RangeEnd where
  | single
  | to_ (v : Int)
  | max (v : Str)
deriving DecidableEq, Repr

/-- The kinds of nodes with what the visitor reads of them. Names that are missing are empty and numbers that are missing are 0 (`maybe`,
ast.go:55-60). `text` is the text of a float (`%v`), `valueType` the name of the type of a value (`%T`; `maybeValue`, ast.go:62-68). `other` is a node
of a type that has no case. -/
inductive Payload where
  | edition (v : Str)
  | arrayLiteral (n : Nat)
  | compactOptions (n : Nat)
  | compoundIdent (parts : List Str)
  | compoundString (v : Str)
  | emptyDecl
  | error
  | enum (name : Str) (decls : Nat)
  | enumValue (name : Str) (number : Int)
  | extend (extendee : Option Str) (decls : Nat)
  | extensionRange (elements : Nat)
  | field (label type name : Str) (tag : Nat) (options : Option Nat)
  | fieldReference (v : Str)
  | file (syn : Option Str) (decls : Nat)
  | floatLiteral (text : Str)
  | group (label name : Str) (tag decls : Nat)
  | ident (keyword : Bool) (v : Str)
  | imp (pub weak : Bool) (name : Option Str)
  | mapField (key value name : Str) (tag : Nat) (options : Option Nat)
  | mapType (key value : Str)
  | messageField (name valueType : Str)
  | messageLiteral (elements : Nat)
  | message (name : Str) (decls : Nat)
  | negativeInt (v : Int)
  | oneof (name : Str) (decls : Nat)
  | optionName (name : Str)
  | option (incomplete : Bool) (name valueType : Str)
  | package (name : Option Str)
  | rpc (name input output : Str) (decls : Nat)
  | rpcType (name stream : Str)
  | range (start : Int) (stop : RangeEnd)
  | reserved (elements : Nat)
  | rune (v : Str)
  | service (name : Str) (decls : Nat)
  | signedFloat (text : Str)
  | specialFloat (text : Str)
  | stringLiteral (v : Str)
  | syn (v : Str)
  | uintLiteral (v : Nat)
  | other (type : Str)
deriving DecidableEq, Repr

/-- The line of the start, the type of the descriptor (`parseRes.Descriptor`), and the numbers of comments of a node. -/
structure Info where
  line : Nat
  desc : Option Str
  leading : Nat
  trailing : Nat
deriving DecidableEq, Repr

inductive Node where
  | mk (info : Info) (payload : Payload) (children : List Node)

/-- `%q` (external), and the width of the line numbers (ast.go:20-21: the logarithm of the number of lines; any number here). -/
structure Env where
  quote : Str → Str
  width : Nat

/-- `%d`. -/
def decInt : Int → Str
  | .ofNat n => dec n
  | .negSucc n => '-' :: dec (n + 1)

/-- `%*d`: filled with spaces at the left. -/
def padLeft (w : Nat) (s : Str) : Str := List.replicate (w - s.length) ' ' ++ s

/-- `strings.Replace(fmt.Sprintf("[%T]", n), "*ast.", "", 1)`: the name of the type without the package. -/
def typeName : Payload → Str
  | .edition .. => lit "EditionNode"
  | .arrayLiteral .. => lit "ArrayLiteralNode"
  | .compactOptions .. => lit "CompactOptionsNode"
  | .compoundIdent .. => lit "CompoundIdentNode"
  | .compoundString .. => lit "CompoundStringLiteralNode"
  | .emptyDecl => lit "EmptyDeclNode"
  | .error => lit "ErrorNode"
  | .enum .. => lit "EnumNode"
  | .enumValue .. => lit "EnumValueNode"
  | .extend .. => lit "ExtendNode"
  | .extensionRange .. => lit "ExtensionRangeNode"
  | .field .. => lit "FieldNode"
  | .fieldReference .. => lit "FieldReferenceNode"
  | .file .. => lit "FileNode"
  | .floatLiteral .. => lit "FloatLiteralNode"
  | .group .. => lit "GroupNode"
  | .ident .. => lit "IdentNode"
  | .imp .. => lit "ImportNode"
  | .mapField .. => lit "MapFieldNode"
  | .mapType .. => lit "MapTypeNode"
  | .messageField .. => lit "MessageFieldNode"
  | .messageLiteral .. => lit "MessageLiteralNode"
  | .message .. => lit "MessageNode"
  | .negativeInt .. => lit "NegativeIntLiteralNode"
  | .oneof .. => lit "OneofNode"
  | .optionName .. => lit "OptionNameNode"
  | .option .. => lit "OptionNode"
  | .package .. => lit "PackageNode"
  | .rpc .. => lit "RPCNode"
  | .rpcType .. => lit "RPCTypeNode"
  | .range .. => lit "RangeNode"
  | .reserved .. => lit "ReservedNode"
  | .rune .. => lit "RuneNode"
  | .service .. => lit "ServiceNode"
  | .signedFloat .. => lit "SignedFloatLiteralNode"
  | .specialFloat .. => lit "SpecialFloatLiteralNode"
  | .stringLiteral .. => lit "StringLiteralNode"
  | .syn .. => lit "SyntaxNode"
  | .uintLiteral .. => lit "UintLiteralNode"
  | .other t => t

/-- `%v` of a slice of strings. -/
def sliceText (l : List Str) : Str := '[' :: joinWith ' ' l ++ [']']

/-- `dumpVisitor.Visit`, ast.go:69-254: what is written. -/
def visit (env : Env) : Payload → Str
  | .edition v => lit "val=" ++ env.quote v ++ ['\n']
  | .arrayLiteral n => lit "len=" ++ dec n ++ ['\n']
  | .compactOptions n => lit "len=" ++ dec n ++ ['\n']
  | .compoundIdent parts => lit "parts=" ++ sliceText (parts.map fun p => lit "val=" ++ env.quote p) ++ ['\n']
  | .compoundString v => lit "val=" ++ v ++ ['\n']
  | .emptyDecl => ['\n']
  | .error => ['\n']
  | .enum name n => lit "val=" ++ env.quote name ++ lit " #decls=" ++ dec n ++ ['\n']
  | .enumValue name n => lit "val=" ++ env.quote name ++ lit " number=" ++ decInt n ++ ['\n']
  | .extend none _ => lit "!extendee\n"
  | .extend (some e) n => lit "extendee=" ++ env.quote e ++ lit " #decls=" ++ dec n ++ ['\n']
  | .extensionRange n => lit "#elements=" ++ dec n ++ ['\n']
  | .field label type name tag options =>
    lit "label=" ++ env.quote label ++ lit " type=" ++ env.quote type ++ lit " name=" ++ env.quote name ++ lit " tag=" ++ dec tag ++
      (match options with
        | some n => lit " #options=" ++ dec n
        | none => []) ++ ['\n']
  | .fieldReference v => lit "val=" ++ env.quote v ++ ['\n']
  | .file none n => lit "!syntax #decls=" ++ dec n ++ ['\n']
  | .file (some s) n => lit "syntax=" ++ env.quote s ++ lit " #decls=" ++ dec n ++ ['\n']
  | .floatLiteral t => lit "val=" ++ t ++ ['\n']
  | .group label name tag n =>
    lit "label=" ++ env.quote label ++ lit " name=" ++ env.quote name ++ lit " tag=" ++ dec tag ++ lit " #decls=" ++ dec n ++ ['\n']
  | .ident keyword v => if keyword then lit "keyword=" ++ env.quote v ++ ['\n'] else lit "val=" ++ env.quote v ++ ['\n']
  | .imp _ _ none => lit "!name\n"
  | .imp pub weak (some name) =>
    (if pub then lit "public " else []) ++ (if weak then lit "weak " else []) ++ lit "name=" ++ env.quote name ++ ['\n']
  | .mapField key value name tag options =>
    lit "keytype=" ++ env.quote key ++ lit " valuetype=" ++ env.quote value ++ lit " name=" ++ env.quote name ++ lit " tag=" ++ dec tag ++
      (match options with
        | some n => lit " #options=" ++ dec n
        | none => []) ++ ['\n']
  | .mapType key value => lit "keytype=" ++ env.quote key ++ lit " valuetype=" ++ env.quote value ++ ['\n']
  | .messageField name t => lit "name=" ++ env.quote name ++ lit " val=" ++ t ++ ['\n']
  | .messageLiteral n => lit "#elements=" ++ dec n ++ ['\n']
  | .message name n => lit "name=" ++ env.quote name ++ lit " #decls=" ++ dec n ++ ['\n']
  | .negativeInt v => lit "val=" ++ decInt v ++ ['\n']
  | .oneof name n => lit "name=" ++ env.quote name ++ lit " #decls=" ++ dec n ++ ['\n']
  | .optionName name => lit "name=" ++ env.quote name ++ ['\n']
  | .option incomplete name t =>
    (if incomplete then lit "(!) " else []) ++ lit "name=" ++ env.quote name ++ lit " val=" ++ t ++ ['\n']
  | .package none => lit "!name"
  | .package (some name) => lit "name=" ++ env.quote name ++ ['\n']
  | .rpc name input output n =>
    lit "name=" ++ env.quote name ++ lit " input=" ++ env.quote input ++ lit " output=" ++ env.quote output ++ lit " #decls=" ++ dec n ++
      ['\n']
  | .rpcType name stream => lit "name=" ++ env.quote name ++ lit " stream=" ++ env.quote stream ++ ['\n']
  | .range start (.to_ v) => lit "start=" ++ decInt start ++ lit " end=" ++ decInt v ++ ['\n']
  | .range start (.max v) => lit "start=" ++ decInt start ++ lit " max=" ++ env.quote v ++ ['\n']
  | .range start .single => lit "start=" ++ decInt start ++ ['\n']
  | .reserved n => lit "#elements=" ++ dec n ++ ['\n']
  | .rune v => lit "rune=" ++ env.quote v ++ ['\n']
  | .service name n => lit "name=" ++ env.quote name ++ lit " #decls=" ++ dec n ++ ['\n']
  | .signedFloat t => lit "val=" ++ t ++ ['\n']
  | .specialFloat t => lit "val=" ++ t ++ ['\n']
  | .stringLiteral v => lit "val=" ++ v ++ ['\n']
  | .syn v => lit "syntax=" ++ env.quote v ++ ['\n']
  | .uintLiteral v => lit "val=" ++ dec v ++ ['\n']
  | .other _ => []

/-- The buffer and `indentLevel`, ast.go:16-18. -/
structure St where
  buf : Str
  indent : Int

/-- The function before a node, ast.go:23-43. `strings.Repeat` panics with a negative count, which does not occur (`indentLevel` is -1 outside of
the tree). -/
def before (env : Env) (i : Info) (p : Payload) (st : St) : St :=
  let indent := st.indent + 1
  { buf := st.buf ++ padLeft env.width (dec i.line) ++ [' '] ++ (List.replicate indent.toNat [' ', ' ']).flatten ++
      (match i.desc with
        | some d => '[' :: typeName p ++ lit "]{" ++ d ++ lit "} "
        | none => '[' :: typeName p ++ lit "] ") ++
      (if i.leading > 0 then lit "/lc=" ++ dec i.leading ++ lit "/ " else []) ++
      (if i.trailing > 0 then lit "/tc=" ++ dec i.trailing ++ lit "/ " else [])
    indent }

/-- The function after a node, ast.go:44-46. -/
def after (st : St) : St := { st with indent := st.indent - 1 }

mutual
/-- `ast.Inspect` with the functions of ast.go:22-47; the visitor always descends (ast.go:253). -/
def inspect (env : Env) : Node → St → St
  | .mk i p cs, st =>
    let st := before env i p st
    let st := { st with buf := st.buf ++ visit env p }
    after (inspectAll env cs st)

def inspectAll (env : Env) : List Node → St → St
  | [], st => st
  | n :: ns, st => inspectAll env ns (inspect env n st)
end

/-- `DumpAST`, ast.go:14-49. -/
def dump (env : Env) (n : Node) : Str := (inspect env n ⟨[], -1⟩).buf

end Verif.DumpAst
