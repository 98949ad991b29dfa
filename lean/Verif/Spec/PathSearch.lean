import Verif.Model.PathSearch
/-!
# What an identifier in a source file stands for

A specification of the lookup of descriptors, from the outside to the inside of a file and without a stack. Paths are written
with the innermost node first and without the file node.
-/
namespace Verif.PathSearch

variable {D : Type}

/-- The nodes in which messages, enums and extensions may be declared: the file, a message or a group. -/
def Body (parents : List Node) : Prop :=
  match parents with
  | [] => True
  | p :: _ => match p.shape with | .message _ => True | .group _ => True | _ => False

/-- The nodes in which fields may be declared: a message or a group. -/
def Fields (parents : List Node) : Prop :=
  match parents with
  | [] => False
  | p :: _ => match p.shape with | .message _ => True | .group _ => True | _ => False

/-- The descriptor of a declaration: that with its name in the descriptor of the declaration around it. -/
inductive Decl (S : Schema D) : List Node → D → Prop
  | file : Decl S [] S.root
  | message {ps c n name d} (h : Decl S ps c) (hb : Body ps) (hn : n.shape = .message name)
      (hd : S.messages c name = some d) : Decl S (n :: ps) d
  | group {ps c n name d} (h : Decl S ps c) (hb : Fields ps) (hn : n.shape = .group name)
      (hd : S.messages c name = some d) : Decl S (n :: ps) d
  | enum {ps c n name nameId d} (h : Decl S ps c) (hb : Body ps) (hn : n.shape = .enum name nameId)
      (hd : S.enums c name = some d) : Decl S (n :: ps) d
  | field {ps c n name nameId first last ids d} (h : Decl S ps c) (hb : Fields ps)
      (hn : n.shape = .field name nameId first last ids) (hd : S.fields c name = some d) (hm : S.isMap d = false) :
      Decl S (n :: ps) d
  | mapField {ps c n name nameId first last keyId value d} (h : Decl S ps c) (hb : Fields ps)
      (hn : n.shape = .mapField name nameId first last keyId value) (hd : S.fields c name = some d) : Decl S (n :: ps) d
  | oneof {ps c n name d} (h : Decl S ps c) (hb : Fields ps) (hn : n.shape = .oneof name)
      (hd : S.oneofs c name = some d) : Decl S (n :: ps) d
  | oneofField {ps c o oname n name nameId first last ids d} (h : Decl S (o :: ps) c) (ho : o.shape = .oneof oname)
      (hn : n.shape = .field name nameId first last ids) (hd : S.fields c name = some d) (hm : S.isMap d = false) :
      Decl S (n :: o :: ps) d
  | extension {ps c x extendee xf xl xe n name nameId first last ids d} (h : Decl S ps c) (hb : Body ps)
      (hx : x.shape = .extend extendee xf xl xe) (hn : n.shape = .field name nameId first last ids)
      (hd : S.extensions c name = some d) : Decl S (n :: x :: ps) d
  | enumValue {ps c e ename enameId n name d} (h : Decl S (e :: ps) c) (he : e.shape = .enum ename enameId)
      (hn : n.shape = .enumValue name) (hd : S.values c name = some d) : Decl S (n :: e :: ps) d
  | service {n name d} (hn : n.shape = .service name) (hd : S.services S.root name = some d) : Decl S [n] d
  | rpc {ps c s sname n name input output d} (h : Decl S (s :: ps) c) (hs : s.shape = .service sname)
      (hn : n.shape = .rpc name input output) (hd : S.methods c name = some d) : Decl S (n :: s :: ps) d

/-- The type of a field that is not a scalar. -/
inductive TypeOf (S : Schema D) (f t : D) : Prop
  | message (hk : S.kind f = .message) (h : S.message f = some t)
  | enum (hk : S.kind f = .enum) (h : S.enum f = some t)

/-- The field that a field of a message literal sets. -/
inductive Sets (S : Schema D) (m : D) (n : Node) (f : D) : Prop
  | name {name val} (hn : n.shape = .messageField .name name val) (h : S.fields m name = some f)
  | extension {name val} (hn : n.shape = .messageField .extension name val) (h : S.literalExtension name = some f)

/-- The type of a message literal, at any depth in the value of an option. -/
inductive Lit (S : Schema D) : List Node → D → Prop
  | option {ps o l f m} (ho : o.shape = .option true) (hl : l.shape = .messageLiteral) (hf : S.optionField o.id = some f)
      (hk : S.kind f = .message) (hm : S.message f = some m) : Lit S (l :: o :: ps) m
  | field {ps n l f m m'} (h : Lit S ps m) (hn : Sets S m n f) (hl : l.shape = .messageLiteral)
      (hm : S.message f = some m') : Lit S (l :: n :: ps) m'
  | list {ps n a l f m m'} (h : Lit S ps m) (hn : Sets S m n f) (ha : a.shape = .arrayLiteral)
      (hl : l.shape = .messageLiteral) (hm : S.message f = some m') : Lit S (l :: a :: n :: ps) m'
  | any {ps n l name val m t} (h : Lit S ps m) (hn : n.shape = .messageField .anyType name val)
      (hl : l.shape = .messageLiteral) (ht : S.anyType name = some t) : Lit S (l :: n :: ps) t

/-- An identifier or a compound identifier. -/
def Identifier (i : Node) : Prop :=
  match i.shape with
  | .ident _ => True
  | .compoundIdent _ => True
  | _ => False

/-- `i` is the name of the declaration `n`. -/
def NameOf (n i : Node) : Prop :=
  match n.shape with
  | .field _ nameId first last ids => i.id = nameId ∧ i.id ∉ ids ∧ ¬ (first ≤ i.first ∧ i.last ≤ last)
  | .mapField _ nameId first last _ _ => i.id = nameId ∧ ¬ (first ≤ i.first ∧ i.last ≤ last)
  | .enum _ nameId => i.id = nameId
  | .message _ => True
  | .group _ => True
  | .oneof _ => True
  | .enumValue _ => True
  | .service _ => True
  | .rpc _ _ _ => True
  | _ => False

/-- `i` is the type of the field `n`, or a component of it. -/
def TypeIn (n i : Node) : Prop :=
  match n.shape with
  | .field _ nameId first last ids => i.id ≠ nameId ∧ i.id ∈ ids ∧ first ≤ i.first ∧ i.last ≤ last
  | _ => False

/-- `i` is the value type of the map field `n`. -/
def ValueTypeIn (n i : Node) : Prop :=
  match n.shape with
  | .mapField _ _ _ _ keyId _ => i.id ≠ keyId
  | _ => False

/-- The declared extension itself, for which `Extensions()` has a wrapper. -/
def plain (S : Schema D) (d : D) : D := if S.sort d = .extension then S.descriptor d else d

/-- What an identifier (the first node of the path) stands for. -/
inductive Denotes (S : Schema D) : List Node → D → Prop
  /-- The name of a declaration: the declaration. -/
  | name {ps n name i d} (h : Decl S (n :: ps) d) (hn : NameOf n i) (hi : i.shape = .ident name) :
      Denotes S (i :: n :: ps) (plain S d)
  /-- The type of a field: the message or enum. -/
  | fieldType {ps n i d t} (h : Decl S (n :: ps) d) (hn : TypeIn n i) (hi : Identifier i) (ht : TypeOf S d t) :
      Denotes S (i :: n :: ps) t
  /-- A component of the type of a field. -/
  | fieldTypePart {ps n c cname i name d t} (h : Decl S (n :: ps) d) (hn : TypeIn n c) (hc : c.shape = .compoundIdent cname)
      (hi : i.shape = .ident name) (ht : TypeOf S d t) : Denotes S (i :: c :: n :: ps) t
  /-- The type of the values of a map. -/
  | mapValue {ps n m i d t} (h : Decl S (n :: ps) d) (hn : ValueTypeIn n i) (hm : m.shape = .mapType) (hi : Identifier i)
      (ht : TypeOf S (S.mapValue d) t) : Denotes S (i :: m :: n :: ps) t
  /-- The input of a method. -/
  | rpcInput {ps n name input output r i d} (h : Decl S (n :: ps) d) (hn : n.shape = .rpc name input output)
      (hr : r.shape = .rpcType) (hid : r.id = input) (hi : Identifier i) : Denotes S (i :: r :: n :: ps) (S.input d)
  /-- The output of a method. -/
  | rpcOutput {ps n name input output r i d} (h : Decl S (n :: ps) d) (hn : n.shape = .rpc name input output)
      (hr : r.shape = .rpcType) (hid : r.id = output) (hne : input ≠ output) (hi : Identifier i) :
      Denotes S (i :: r :: n :: ps) (S.output d)
  /-- A part of the name of an option: the field that the linker has found for it. -/
  | optionPart {ps kind name r i d} (hr : r.shape = .fieldRef true kind name) (hi : Identifier i)
      (hd : S.optionPart r.id = some d) : Denotes S (i :: r :: ps) d
  /-- The value of an option with an enum type. -/
  | optionValue {ps o name i f e d} (ho : o.shape = .option true) (hi : i.shape = .ident name)
      (hf : S.optionField o.id = some f) (hk : S.kind f = .enum) (he : S.enum f = some e) (hd : S.values e name = some d) :
      Denotes S (i :: o :: ps) d
  /-- The name of a field in a message literal. -/
  | literalField {ps m n kind name r f} (h : Lit S ps m) (hn : Sets S m n f) (hr : r.shape = .fieldRef false kind name)
      (hk : kind ≠ .anyType) : Denotes S (r :: n :: ps) f
  /-- The name of a type in `[url/name]` in a message literal. -/
  | literalAny {ps m n name val r t} (h : Lit S ps m) (hn : n.shape = .messageField .anyType name val)
      (hr : r.shape = .fieldRef false .anyType name) (ht : S.anyType name = some t) : Denotes S (r :: n :: ps) t
  /-- The value of a field with an enum type in a message literal. -/
  | literalValue {ps m n kind fname name i f e d} (h : Lit S ps m) (hn : Sets S m n f)
      (hv : n.shape = .messageField kind fname (.ident name)) (hi : i.shape = .ident name)
      (hk : S.kind f = .enum) (he : S.enum f = some e) (hd : S.values e name = some d) : Denotes S (i :: n :: ps) d
  /-- An element of a list in a message literal, if the field has an enum type. -/
  | literalElement {ps m n a name i f e d} (h : Lit S ps m) (hn : Sets S m n f) (ha : a.shape = .arrayLiteral)
      (hi : i.shape = .ident name) (hk : S.kind f = .enum) (he : S.enum f = some e) (hd : S.values e name = some d) :
      Denotes S (i :: a :: n :: ps) d
  /-- The extended message. -/
  | extendee {ps c x extendee first last empty i d} (h : Decl S ps c) (hb : Body ps)
      (hx : x.shape = .extend extendee first last empty)
      (hi : i.shape = .compoundIdent extendee ∨ ∃ name, i.shape = .ident name ∧ first ≤ i.first ∧ i.first ≤ last)
      (hd : S.findExtendee (trimDot extendee) = some d) : Denotes S (i :: x :: ps) d

/-- The results of the methods have the types that they are declared with. -/
structure Typed (S : Schema D) : Prop where
  root : S.sort S.root = .file
  messages : ∀ {c n d}, S.messages c n = some d → S.sort d = .message
  enums : ∀ {c n d}, S.enums c n = some d → S.sort d = .enum
  extensions : ∀ {c n d}, S.extensions c n = some d → S.sort d = .extension
  services : ∀ {c n d}, S.services c n = some d → S.sort d = .service
  fields : ∀ {c n d}, S.fields c n = some d → S.sort d = .field
  notExtension : ∀ {c n d}, S.fields c n = some d → S.isExtension d = false
  oneofs : ∀ {c n d}, S.oneofs c n = some d → S.sort d = .oneof
  values : ∀ {c n d}, S.values c n = some d → S.sort d = .enumValue
  methods : ∀ {c n d}, S.methods c n = some d → S.sort d = .method
  message : ∀ {f d}, S.message f = some d → S.sort d = .message
  enum : ∀ {f d}, S.enum f = some d → S.sort d = .enum
  mapValue : ∀ f, S.sort (S.mapValue f) = .field
  input : ∀ f, S.sort (S.input f) = .message
  output : ∀ f, S.sort (S.output f) = .message
  optionPart : ∀ {n d}, S.optionPart n = some d → S.sort d = .field ∨ S.sort d = .extension
  anyType : ∀ {n d}, S.anyType n = some d → S.sort d = .message
  findExtendee : ∀ {n d}, S.findExtendee n = some d → S.sort d = .message

/-- The positions of declarations that the lookup supports: messages, groups and enums are not declared in a group, and a map
is declared in a nested message, or its value type is not the name of a message of the file (as it is if the file has no
package). -/
def Placed (S : Schema D) : List Node → Prop
  | [] => True
  | n :: ps => Placed S ps ∧
    match n.shape, ps with
    | .message _, ⟨_, _, _, .group _⟩ :: _ => False
    | .group _, ⟨_, _, _, .group _⟩ :: _ => False
    | .enum _ _, ⟨_, _, _, .group _⟩ :: _ => False
    | .mapField _ _ _ _ _ _, _ :: ⟨_, _, _, .message _⟩ :: _ => True
    | .mapField _ _ _ _ _ value, _ => S.messages S.root (trimDot value) = none
    | _, _ => True

/-- The identifiers that the lookup supports: not an enum as the value type of a map or as a type written in several parts,
not an element of a list, and not the extended message of an extension in a message. -/
def Supported (S : Schema D) (d : D) : List Node → Prop
  | _ :: ⟨_, _, _, .compoundIdent _⟩ :: _ => S.sort d ≠ .enum
  | _ :: ⟨_, _, _, .mapType⟩ :: _ => S.sort d ≠ .enum
  | ⟨_, _, _, .ident _⟩ :: ⟨_, _, _, .arrayLiteral⟩ :: _ => False
  | _ :: ⟨_, _, _, .extend _ _ _ _⟩ :: ps => ps = []
  | _ => True

/-- The range that is returned for a path: that of the node, and of the whole compound identifier for its components. -/
def spot : List Node → Nat
  | [] => 0
  | [n] => n.id
  | n :: c :: _ =>
    match n.shape, c.shape with
    | .ident _, .compoundIdent _ => c.id
    | _, _ => n.id

end Verif.PathSearch
