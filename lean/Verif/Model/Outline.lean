import Verif.Util.Str

/-!
# Symbols of a document

Models `/repo/pkg/lsp/symbols.go:16-48, 155-269` (`DocumentSymbolsForFile`) and `/repo/pkg/lsp/range.go:13-29`.

The syntax tree is an input. Names are those of `AsIdentifier`, positions those of `NodeInfo`, which are external. Kinds of declarations
that no function looks at are one constructor.
-/
namespace Verif.Outline

/-- `ast.SourcePos`: line and column, from 1. -/
structure SrcPos where
  line : Nat
  col : Nat
deriving DecidableEq, Repr

/-- `protocol.Position`: from 0. -/
structure Position where
  line : Nat
  character : Nat
deriving DecidableEq, Repr

/-- `protocol.Range`. -/
structure Range where
  start : Position
  stop : Position
deriving DecidableEq, Repr

/-- `ast.NodeInfo`: first and last position of a node. -/
structure Info where
  start : SrcPos
  stop : SrcPos
deriving DecidableEq, Repr

/-- Conversion to `uint32`; the arguments here are differences of `int`s, negative ones for 0. -/
def uint32OfPred (n : Nat) : Nat := if n = 0 then 4294967295 else (n - 1) % 4294967296

/-- `toPosition`, /repo/pkg/lsp/range.go:17-22. -/
def toPosition (p : SrcPos) : Position := ⟨uint32OfPred p.line, uint32OfPred p.col⟩

/-- `toRange`, `positionsToRange`, /repo/pkg/lsp/range.go:13-15, 24-29. -/
def toRange (i : Info) : Range := ⟨toPosition i.start, toPosition i.stop⟩

/-- A name in the source. -/
structure Ident where
  text : Str
  info : Info
deriving DecidableEq, Repr

/-- Declarations of a file, a message, an enum, an extend block, or a service; `info` is the whole declaration. -/
inductive Decl
  /-- `ast.FieldNode`; `incomplete` is `IsIncomplete`. -/
  | field (info : Info) (name : Ident) (type : Str) (incomplete : Bool)
  /-- `ast.MapFieldNode`. -/
  | mapField (info : Info) (name : Ident) (key value : Str)
  /-- `ast.GroupNode`. -/
  | group (info : Info) (name : Ident) (decls : List Decl)
  /-- `ast.OneofNode`. -/
  | oneof (info : Info) (name : Ident) (decls : List Decl)
  /-- `ast.MessageNode`. -/
  | message (info : Info) (name : Ident) (decls : List Decl)
  /-- `ast.EnumNode`. -/
  | enum (info : Info) (name : Ident) (decls : List Decl)
  /-- `ast.EnumValueNode`. -/
  | enumValue (info : Info) (name : Ident)
  /-- `ast.ExtendNode`. -/
  | extend (info : Info) (extendee : Str) (decls : List Decl)
  /-- `ast.ServiceNode`. -/
  | service (info : Info) (name : Ident) (decls : List Decl)
  /-- `ast.RPCNode`; whether request and response are streams. -/
  | rpc (info : Info) (name : Ident) (input output : Bool)
  /-- Options, ranges, imports, and so on. -/
  | other (info : Info)

/-- `protocol.SymbolKind`. -/
inductive Kind
  | class | enum | interface | method | field | enumMember
deriving DecidableEq, Repr

/-- `protocol.DocumentSymbol`, without the fields that are not set. -/
inductive Symbol
  | mk (name detail : Str) (kind : Kind) (range selection : Range) (children : List Symbol)

/-- `fmt.Sprintf("map<%s, %s>", ...)`. -/
def mapDetail (key value : Str) : Str := ['m', 'a', 'p', '<'] ++ key ++ [',', ' '] ++ value ++ ['>']

/-- `fmt.Sprintf("[%s] %s", ...)`. -/
def extendDetail (extendee type : Str) : Str := ['['] ++ extendee ++ [']', ' '] ++ type

/-- The values of an enum, symbols.go:203-213. -/
def enumMembers : List Decl → List Symbol
  | [] => []
  | .enumValue info name :: rest => .mk name.text [] .enumMember (toRange info) (toRange name.info) [] :: enumMembers rest
  | _ :: rest => enumMembers rest

/-- `enumSymbols`, symbols.go:196-215. -/
def enumSymbols (info : Info) (name : Ident) (decls : List Decl) : List Symbol :=
  [.mk name.text [] .enum (toRange info) (toRange name.info) (enumMembers decls)]

/-- `extendSymbols`, symbols.go:217-235. -/
def extendSymbols (extendee : Str) : List Decl → List Symbol
  | [] => []
  | .field info name type incomplete :: rest =>
    if incomplete then extendSymbols extendee rest
    else .mk name.text (extendDetail extendee type) .field (toRange info) (toRange name.info) [] :: extendSymbols extendee rest
  | _ :: rest => extendSymbols extendee rest

def kwBidi : Str := ['s', 't', 'r', 'e', 'a', 'm', ' ', '(', 'b', 'i', 'd', 'i', 'r', 'e', 'c', 't', 'i', 'o', 'n', 'a', 'l', ')']
def kwClient : Str := ['s', 't', 'r', 'e', 'a', 'm', ' ', '(', 'c', 'l', 'i', 'e', 'n', 't', ')']
def kwServer : Str := ['s', 't', 'r', 'e', 'a', 'm', ' ', '(', 's', 'e', 'r', 'v', 'e', 'r', ')']
def kwUnary : Str := ['u', 'n', 'a', 'r', 'y']

/-- The detail of a method, symbols.go:247-257. -/
def rpcDetail (input output : Bool) : Str :=
  if input && output then kwBidi else if input then kwClient else if output then kwServer else kwUnary

/-- The methods of a service, symbols.go:244-267. -/
def serviceMethods : List Decl → List Symbol
  | [] => []
  | .rpc info name input output :: rest =>
    .mk name.text (rpcDetail input output) .method (toRange info) (toRange name.info) [] :: serviceMethods rest
  | _ :: rest => serviceMethods rest

/-- `serviceSymbols`, symbols.go:237-269. -/
def serviceSymbols (info : Info) (name : Ident) (decls : List Decl) : List Symbol :=
  [.mk name.text [] .interface (toRange info) (toRange name.info) (serviceMethods decls)]

mutual
/-- A declaration in a message, symbols.go:164-190. -/
def messageChild : Decl → List Symbol
  | .field info name type incomplete =>
    if incomplete then [] else [.mk name.text type .field (toRange info) (toRange name.info) []]
  | .mapField info name key value => [.mk name.text (mapDetail key value) .field (toRange info) (toRange name.info) []]
  | .message info name decls => [.mk name.text [] .class (toRange info) (toRange name.info) (messageChildren decls)]
  | .enum info name decls => enumSymbols info name decls
  | .extend _ extendee decls => extendSymbols extendee decls
  | .group _ _ _ => []
  | .oneof _ _ _ => []
  | .enumValue _ _ => []
  | .service _ _ _ => []
  | .rpc _ _ _ _ => []
  | .other _ => []

/-- The loop of `messageSymbols`, symbols.go:163-191: the children of a message. -/
def messageChildren : List Decl → List Symbol
  | [] => []
  | d :: rest => messageChild d ++ messageChildren rest
end

/-- `messageSymbols`, symbols.go:155-194. -/
def messageSymbols (info : Info) (name : Ident) (decls : List Decl) : List Symbol :=
  [.mk name.text [] .class (toRange info) (toRange name.info) (messageChildren decls)]

/-- The loop of `documentSymbolsForFileLocked`, symbols.go:35-46. -/
def fileSymbols : List Decl → List Symbol
  | [] => []
  | .message info name decls :: rest => messageSymbols info name decls ++ fileSymbols rest
  | .enum info name decls :: rest => enumSymbols info name decls ++ fileSymbols rest
  | .extend _ extendee decls :: rest => extendSymbols extendee decls ++ fileSymbols rest
  | .service info name decls :: rest => serviceSymbols info name decls ++ fileSymbols rest
  | _ :: rest => fileSymbols rest

/-- `documentSymbolsForFileLocked`, symbols.go:22-48: the first argument is the result of `FindResultByURI` (`none`: an error), which has
a syntax tree or not. -/
def documentSymbols : Option (Option (List Decl)) → Option (List Symbol)
  | none => none
  | some none => some []
  | some (some decls) => some (fileSymbols decls)

end Verif.Outline
