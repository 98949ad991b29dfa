import Verif.Model.Outline

/-!
# What the outline of a document is
-/
namespace Verif.Outline

/-- An entry of the outline: the names of the entries around it, and what is shown. -/
structure Item where
  path : List Str
  name : Str
  detail : Str
  kind : Kind
  range : Range
  selection : Range
deriving DecidableEq, Repr

mutual
/-- An entry and those below. -/
def shownOne (path : List Str) : Symbol → List Item
  | .mk name detail kind range selection children =>
    ⟨path, name, detail, kind, range, selection⟩ :: shown (path ++ [name]) children

/-- The entries of an outline from top to bottom. -/
def shown (path : List Str) : List Symbol → List Item
  | [] => []
  | s :: rest => shownOne path s ++ shown path rest
end

/-- The entry for a declaration. -/
def item (path : List Str) (info : Info) (name : Ident) (detail : Str) (kind : Kind) : Item :=
  ⟨path, name.text, detail, kind, toRange info, toRange name.info⟩

/-- How a method is described. -/
def streaming : (input output : Bool) → Str
  | true, true => ['s', 't', 'r', 'e', 'a', 'm', ' ', '(', 'b', 'i', 'd', 'i', 'r', 'e', 'c', 't', 'i', 'o', 'n', 'a', 'l', ')']
  | true, false => ['s', 't', 'r', 'e', 'a', 'm', ' ', '(', 'c', 'l', 'i', 'e', 'n', 't', ')']
  | false, true => ['s', 't', 'r', 'e', 'a', 'm', ' ', '(', 's', 'e', 'r', 'v', 'e', 'r', ')']
  | false, false => ['u', 'n', 'a', 'r', 'y']

mutual
/-- What a declaration declares: messages, enums and their values, services and their methods, fields. Fields of oneofs are fields of
the message; the fields of an `extend` block belong to where the block is, and name the message that is extended. `extendee` is that
message. A group is a message. -/
def declaredOne (path : List Str) (extendee : Option Str) : Decl → List Item
  | .field info name type incomplete =>
    if incomplete then [] else [item path info name ((extendee.elim [] fun e => ['['] ++ e ++ [']', ' ']) ++ type) .field]
  | .mapField info name key value => [item path info name (['m', 'a', 'p', '<'] ++ key ++ [',', ' '] ++ value ++ ['>']) .field]
  | .group info name decls => item path info name [] .class :: declared (path ++ [name.text]) none decls
  | .oneof _ _ decls => declared path extendee decls
  | .message info name decls => item path info name [] .class :: declared (path ++ [name.text]) none decls
  | .enum info name decls => item path info name [] .enum :: declared (path ++ [name.text]) none decls
  | .enumValue info name => [item path info name [] .enumMember]
  | .extend _ e decls => declared path (some e) decls
  | .service info name decls => item path info name [] .interface :: declared (path ++ [name.text]) none decls
  | .rpc info name input output => [item path info name (streaming input output) .method]
  | .other _ => []

/-- What a file declares, from top to bottom. -/
def declared (path : List Str) (extendee : Option Str) : List Decl → List Item
  | [] => []
  | d :: rest => declaredOne path extendee d ++ declared path extendee rest
end

/-- Where a declaration can be. -/
inductive Place
  | file | message | oneof | enum | extend | service
deriving DecidableEq, Repr

mutual
/-- The grammar: what can be declared where. -/
def Fits (place : Place) : Decl → Prop
  | .field _ _ _ _ => place = .message ∨ place = .oneof ∨ place = .extend
  | .mapField _ _ _ _ => place = .message
  | .group _ _ decls => (place = .message ∨ place = .oneof ∨ place = .extend) ∧ Grammatical .message decls
  | .oneof _ _ decls => place = .message ∧ Grammatical .oneof decls
  | .message _ _ decls => (place = .file ∨ place = .message) ∧ Grammatical .message decls
  | .enum _ _ decls => (place = .file ∨ place = .message) ∧ Grammatical .enum decls
  | .enumValue _ _ => place = .enum
  | .extend _ _ decls => (place = .file ∨ place = .message) ∧ Grammatical .extend decls
  | .service _ _ decls => place = .file ∧ Grammatical .service decls
  | .rpc _ _ _ _ => place = .service
  | .other _ => True

/-- The same for several declarations. -/
def Grammatical (place : Place) : List Decl → Prop
  | [] => True
  | d :: rest => Fits place d ∧ Grammatical place rest
end

mutual
/-- Not a oneof or a group, nor one inside. -/
def FlatOne : Decl → Prop
  | .group _ _ _ => False
  | .oneof _ _ _ => False
  | .message _ _ decls => Flat decls
  | .enum _ _ decls => Flat decls
  | .extend _ _ decls => Flat decls
  | .service _ _ decls => Flat decls
  | .field _ _ _ _ => True
  | .mapField _ _ _ _ => True
  | .enumValue _ _ => True
  | .rpc _ _ _ _ => True
  | .other _ => True

/-- No oneofs and no groups. -/
def Flat : List Decl → Prop
  | [] => True
  | d :: rest => FlatOne d ∧ Flat rest
end

/-! ## Ranges -/

/-- Positions that fit into `uint32`. -/
def SrcPos.Valid (p : SrcPos) : Prop := (1 ≤ p.line ∧ p.line ≤ 4294967296) ∧ 1 ≤ p.col ∧ p.col ≤ 4294967296

/-- The positions of a node are valid. -/
def Info.Valid (i : Info) : Prop := i.start.Valid ∧ i.stop.Valid

/-- Order in the text. -/
def SrcPos.before (p q : SrcPos) : Prop := p.line < q.line ∨ (p.line = q.line ∧ p.col ≤ q.col)

/-- Order in the document. -/
def Position.before (p q : Position) : Prop := p.line < q.line ∨ (p.line = q.line ∧ p.character ≤ q.character)

/-- A node in another one. -/
structure Info.In (i outer : Info) : Prop where
  validStart : i.start.Valid
  validStop : i.stop.Valid
  start : outer.start.before i.start
  stop : i.stop.before outer.stop

/-- A range in another one. -/
def Range.In (r outer : Range) : Prop := outer.start.before r.start ∧ r.stop.before outer.stop

mutual
/-- What the parser guarantees: a declaration is inside what it belongs to, and its name is inside of it. -/
def LaidOne (outer : Info) : Decl → Prop
  | .field info name _ _ => info.In outer ∧ name.info.In info
  | .mapField info name _ _ => info.In outer ∧ name.info.In info
  | .group info name decls => info.In outer ∧ name.info.In info ∧ Laid info decls
  | .oneof info name decls => info.In outer ∧ name.info.In info ∧ Laid info decls
  | .message info name decls => info.In outer ∧ name.info.In info ∧ Laid info decls
  | .enum info name decls => info.In outer ∧ name.info.In info ∧ Laid info decls
  | .enumValue info name => info.In outer ∧ name.info.In info
  | .extend info _ decls => info.In outer ∧ Laid info decls
  | .service info name decls => info.In outer ∧ name.info.In info ∧ Laid info decls
  | .rpc info name _ _ => info.In outer ∧ name.info.In info
  | .other info => info.In outer

/-- The same for several declarations. -/
def Laid (outer : Info) : List Decl → Prop
  | [] => True
  | d :: rest => LaidOne outer d ∧ Laid outer rest
end

mutual
/-- What the protocol demands: the selected range is inside the range of a symbol; children are inside their parent. -/
def NestedOne (outer : Range) : Symbol → Prop
  | .mk _ _ _ range selection children => range.In outer ∧ selection.In range ∧ Nested range children

/-- The same for several symbols. -/
def Nested (outer : Range) : List Symbol → Prop
  | [] => True
  | s :: rest => NestedOne outer s ∧ Nested outer rest
end

end Verif.Outline
