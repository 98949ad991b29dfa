import Verif.Util.Str
/-!
# Model of the lookup of the descriptor that belongs to a node of the syntax tree

`deepPathSearch` of /repo/pkg/lsp/search.go:29-506 with `stackEntry` and `stack`, 508-544. "Go to definition", hover, rename and
"find references" use it to find what the identifier under the cursor stands for.

* Nodes are given with what the function reads from them; two nodes are the same one (comparison of pointers in Go) if they
  have the same `id`.
* `paths.DereferenceAll` and the removal of wrapper nodes, search.go:37-43, are outside: the model gets the concrete nodes of the
  path, from the file node to the node that is looked up.
* Descriptors are opaque (`D`). `Schema` has the methods of `protoreflect` descriptors and of the results of the parser and the
  linker that the function calls; nil results are `none`.
-/
namespace Verif.PathSearch

abbrev Name := List Char

/-- The dynamic type of a descriptor, as far as the switch in search.go:173-486 tells them apart. `extension` is an
`ExtensionTypeDescriptor`, `field` any other `FieldDescriptor`. -/
inductive Sort' where
  | file | message | extension | field | enum | enumValue | service | method | oneof
deriving DecidableEq, Repr

/-- `protoreflect.Kind`, as far as the function tells kinds apart; `scalar` stands for all others. -/
inductive Kind where
  | message | enum | group | scalar
deriving DecidableEq, Repr

/-- The value of a field in a message literal, search.go:377-386. -/
inductive Val where
  | ident (name : Name)
  | array (elements : List (Nat × Name))
  | other
deriving DecidableEq, Repr

/-- What is between the brackets, or the name, of a field reference in a message literal. -/
inductive RefKind where
  | name | extension | anyType
deriving DecidableEq, Repr

/-- The types of nodes that the function tells apart, with what it reads from them. -/
inductive Shape where
  | file
  /-- The nodes of search.go:53-62: literals, runes, `syntax`, `package` and empty declarations. -/
  | stop
  | imp (name : Name) (incomplete : Bool)
  | message (name : Name)
  | group (name : Name)
  /-- `typeFirst` and `typeLast` are the first and the last token of the type, `typeIds` the identities of the
  identifier, or of the compound identifier and its components. -/
  | field (name : Name) (nameId : Nat) (typeFirst typeLast : Nat) (typeIds : List Nat)
  /-- `valueType` is the name of the type of the values in the map entry, which is in the descriptor. -/
  | mapField (name : Name) (nameId : Nat) (typeFirst typeLast : Nat) (keyId : Nat) (valueType : Name)
  | mapType
  | oneof (name : Name)
  | enum (name : Name) (nameId : Nat)
  | enumValue (name : Name)
  | service (name : Name)
  | rpc (name : Name) (input output : Nat)
  | rpcType
  | extend (extendee : Name) (first last : Nat) (empty : Bool)
  /-- `mapped` says that the parser has made an uninterpreted option of it. -/
  | option (mapped : Bool)
  | optionName
  /-- `part` says that it is a part of the name of an option. -/
  | fieldRef (part : Bool) (kind : RefKind) (name : Name)
  | compactOptions
  | messageLiteral
  | messageField (kind : RefKind) (name : Name) (val : Val)
  | arrayLiteral
  | ident (name : Name)
  | compoundIdent (name : Name)
  | other
deriving DecidableEq, Repr

/-- A node; `first` and `last` are its first and its last token. -/
structure Node where
  id : Nat
  first : Nat
  last : Nat
  shape : Shape
deriving DecidableEq, Repr

/-- What the function asks descriptors, the parser and the linker for. -/
structure Schema (D : Type) where
  /-- The dynamic type of a descriptor. -/
  sort : D → Sort'
  /-- `linkRes`. -/
  root : D
  /-- `Messages().ByName` of a file or a message. -/
  messages : D → Name → Option D
  /-- `Enums().ByName` of a file or a message. -/
  enums : D → Name → Option D
  /-- `Extensions().ByName` of a file or a message. -/
  extensions : D → Name → Option D
  /-- `Extensions()` of a message. -/
  extensionList : D → List D
  /-- `Services().ByName` of a file. -/
  services : D → Name → Option D
  /-- `Fields().ByName` of a message or a oneof. -/
  fields : D → Name → Option D
  /-- `Oneofs().ByName` of a message. -/
  oneofs : D → Name → Option D
  /-- `Values().ByName` of an enum. -/
  values : D → Name → Option D
  /-- `Methods().ByName` of a service. -/
  methods : D → Name → Option D
  /-- The first import with that path, search.go:183-191. -/
  imports : D → Name → Option D
  /-- The descriptor of the message with the options, `Options().ProtoReflect().Descriptor()`. -/
  options : D → D
  /-- The descriptor of `MessageOptions`, which line 248 asks for. -/
  messageOptions : D → D
  /-- `Kind()` of a field. -/
  kind : D → Kind
  /-- `Message()` of a field. -/
  message : D → Option D
  /-- `Enum()` of a field. -/
  enum : D → Option D
  /-- `IsExtension()` of a field. -/
  isExtension : D → Bool
  /-- `IsMap()` of a field. -/
  isMap : D → Bool
  /-- `MapValue()` of a map field. -/
  mapValue : D → D
  /-- `Input()` of a method. -/
  input : D → D
  /-- `Output()` of a method. -/
  output : D → D
  /-- `Descriptor()` of an extension type descriptor. -/
  descriptor : D → D
  /-- `ContainingMessage()` of a field. -/
  containing : D → D
  /-- `FullName()`. -/
  fullName : D → Name
  /-- `linkRes.FindExtendeeDescriptorByName`. -/
  findExtendee : Name → Option D
  /-- `linkRes.FindOptionNameFieldDescriptor` for the part of an option name with that node. -/
  optionPart : Nat → Option D
  /-- `linkRes.FindOptionFieldDescriptor` for the option with that node. -/
  optionField : Nat → Option D
  /-- `linkRes.FindMessageDescriptorByTypeReferenceURLNode` for the name `[url/name]` (by its text). -/
  anyType : Name → Option D
  /-- The extension with the name resolved by `linkRes.ResolveMessageLiteralExtensionName`. -/
  literalExtension : Name → Option D

/-- The results: a descriptor and the node whose range is returned; no descriptor and no error; an error; a crash. -/
inductive Result (D : Type) where
  | found (d : D) (node : Nat)
  | nothing
  | error
  | panic
deriving DecidableEq, Repr

/-- `stackEntry` without the link to the previous entry, which is the next element of the list. -/
structure Entry (D : Type) where
  node : Node
  desc : Option D
deriving DecidableEq, Repr

variable {D : Type}

/-- `strings.TrimPrefix(name, ".")`. -/
def trimDot : Name → Name
  | '.' :: n => n
  | n => n

/-- `_, ok := n.(*ast.MessageNode)`. -/
def isMessage (n : Option Node) : Bool :=
  match n with
  | some ⟨_, _, _, .message _⟩ => true
  | _ => false

/-- The result of the first loop. -/
inductive Climbed (D : Type) where
  /-- It ends: the entries of the stack, the first one pushed last. -/
  | stack (entries : List (Entry D))
  | nothing
  | error

/-- The test for the key type of a map field, search.go:83-91: the next node of the path is the map type, the one after it
the key type. -/
def isKey (below : List (Entry D)) (keyId : Nat) : Bool :=
  match below with
  | ⟨⟨_, _, _, .mapType⟩, _⟩ :: ⟨k, _⟩ :: _ => k.id == keyId
  | _ => false

/-- The end of the loop at a node with the descriptor `d`, search.go:145-158: nil is an error, otherwise the node is pushed. -/
def top (n : Node) (below : List (Entry D)) : Option D → Climbed D
  | some d => .stack (⟨n, some d⟩ :: below)
  | none => .error

/-- The first loop, search.go:47-160. The first list contains the entries pushed so far, the last one first; the second one the
nodes from `values[i]` up to the root. `i > 0` means that the root is not visited. -/
def climb (S : Schema D) (below : List (Entry D)) : List Node → Climbed D
  | [] => .stack below
  | [_] => .stack below
  | n :: parent :: rest =>
    let push := climb S (⟨n, none⟩ :: below) (parent :: rest)
    match n.shape with
    | .stop => .nothing
    | .message name => if isMessage (some parent) then push else top n below (S.messages S.root name)
    | .group name => if isMessage (some parent) then push else top n below (S.messages S.root name)
    | .mapField _ _ _ _ keyId valueType =>
      if isKey below keyId then .nothing
      else if isMessage rest.head? then push
      else
        match S.messages S.root (trimDot valueType) with
        | some d => .stack (⟨n, some d⟩ :: below)
        | none => push
    | .enum name _ => if isMessage (some parent) then push else top n below (S.enums S.root name)
    | .service name => top n below (S.services S.root name)
    | .fieldRef true _ _ => top n below (S.optionPart n.id)
    | .option true =>
      match S.optionField n.id with
      | none => .error
      | some f =>
        match S.kind f with
        | .message => top n below (S.message f)
        | .enum => top n below (S.enum f)
        | _ => .error
    | _ => push

/-- The outcome of one turn of the second loop: the descriptor of the entry, or nil, which is an error; `stop` is
`return nil, protocol.Range{}, nil`, `fail` another error. -/
inductive Step (D : Type) where
  | desc (d : Option D)
  | stop
  | fail
  | panic

/-- `case protoreflect.FileDescriptor`, search.go:174-240. -/
def stepFile (S : Schema D) (haveDesc : D) (prev want : Node) : Step D :=
  match want.shape with
  | .option _ => .desc (some (S.options haveDesc))
  | .imp name incomplete => if incomplete then .stop else .desc (S.imports haveDesc name)
  | .message name => .desc (S.messages haveDesc name)
  | .enum name _ => .desc (S.enums haveDesc name)
  | .extend _ _ _ _ => .desc (some haveDesc)
  | .service name => .desc (S.services haveDesc name)
  | .field name _ _ _ _ => .desc (S.extensions haveDesc name)
  | .compoundIdent name =>
    match prev.shape with
    | .extend extendee _ _ _ => if name = extendee then .desc (S.findExtendee (trimDot name)) else .desc none
    | _ => .desc none
  | .ident _ =>
    match prev.shape with
    | .extend extendee first last empty =>
      if first ≤ want.first ∧ want.first ≤ last then
        match S.findExtendee (trimDot extendee) with
        | some d => .desc (some d)
        | none => if empty then .fail else .desc none
      else .desc none
    | _ => .desc none
  | _ => .desc none

/-- `case protoreflect.MessageDescriptor`, search.go:241-311. -/
def stepMessage (S : Schema D) (haveNode : Node) (haveDesc : D) (want : Node) : Step D :=
  let inExtend : Bool := match haveNode.shape with | .extend _ _ _ _ => true | _ => false
  let identifier (name : Name) : Step D :=
    if inExtend then .desc (((S.extensionList haveDesc).map S.containing).find? fun t => decide (S.fullName t = trimDot name))
    else .desc (some haveDesc)
  match want.shape with
  | .option _ => .desc (some (S.messageOptions haveDesc))
  | .field name _ _ _ _ => if inExtend then .desc (S.extensions haveDesc name) else .desc (S.fields haveDesc name)
  | .mapField name _ _ _ _ _ => .desc (S.fields haveDesc name)
  | .oneof name => .desc (S.oneofs haveDesc name)
  | .group name => .desc (S.messages haveDesc name)
  | .message name => .desc (S.messages haveDesc name)
  | .enum name _ => .desc (S.enums haveDesc name)
  | .extend _ _ _ _ => .desc (some haveDesc)
  | .fieldRef _ kind name => if kind = .anyType then .desc (S.anyType name) else .desc (S.fields haveDesc name)
  | .messageLiteral => .desc (some haveDesc)
  | .messageField kind name _ =>
    match kind with
    | .anyType => .desc (S.anyType name)
    | .extension =>
      match S.literalExtension name with
      | some d => .desc (some d)
      | none => .fail
    | .name => .desc (S.fields haveDesc name)
  | .ident name => identifier name
  | .compoundIdent name => identifier name
  | _ => .desc none

/-- `haveDesc.Message()` or `haveDesc.Enum()` by the kind of the field, search.go:337-342. -/
def typeOf (S : Schema D) (f : D) : Option D :=
  match S.kind f with
  | .message => S.message f
  | .enum => S.enum f
  | _ => none

/-- `case protoreflect.ExtensionTypeDescriptor`, search.go:312-347. -/
def stepExtension (S : Schema D) (haveDesc : D) (prev want : Node) : Step D :=
  let identifier : Step D :=
    match prev.shape with
    | .fieldRef _ _ _ => .desc (some haveDesc)
    | .field _ nameId _ _ typeIds =>
      if want.id = nameId then .desc (some (S.descriptor haveDesc))
      else if want.id ∈ typeIds then .desc (typeOf S haveDesc)
      else .desc none
    | _ => .desc none
  match want.shape with
  | .ident _ => identifier
  | .compoundIdent _ => identifier
  | _ => .desc none

/-- `haveDesc.Message().Fields().ByName(name)`, which crashes without a message. -/
def fieldOfMessage (S : Schema D) (f : D) (name : Name) : Step D :=
  match S.message f with
  | some m => .desc (S.fields m name)
  | none => .panic

/-- `case protoreflect.FieldDescriptor`, search.go:348-413. -/
def stepField (S : Schema D) (haveNode : Node) (haveDesc : D) (want : Node) : Step D :=
  let declared (nameId typeFirst typeLast : Nat) : Step D :=
    if typeFirst ≤ want.first ∧ want.last ≤ typeLast then
      if S.isExtension haveDesc then .desc none
      else if S.isMap haveDesc then .desc (some (S.mapValue haveDesc))
      else .desc (typeOf S haveDesc)
    else if want.id = nameId then .desc (some haveDesc)
    else .desc none
  let identifier (name : Name) : Step D :=
    match haveNode.shape with
    | .fieldRef _ _ _ => .desc (some haveDesc)
    | .messageField _ _ val =>
      if S.kind haveDesc = .enum then
        match S.enum haveDesc with
        | none => .panic
        | some e =>
          match val with
          | .ident n => .desc (S.values e n)
          | .array elements => if want.id ∈ elements.map Prod.fst then .desc (S.values e name) else .desc none
          | .other => .desc none
      else .desc none
    | .field _ nameId typeFirst typeLast _ => declared nameId typeFirst typeLast
    | .mapField _ nameId typeFirst typeLast _ _ => declared nameId typeFirst typeLast
    | _ => .desc none
  match want.shape with
  | .field name _ _ _ _ => fieldOfMessage S haveDesc name
  | .mapField name _ _ _ _ _ => fieldOfMessage S haveDesc name
  | .group name => fieldOfMessage S haveDesc name
  | .fieldRef _ _ _ => .desc (some haveDesc)
  | .arrayLiteral => .desc (some haveDesc)
  | .messageLiteral => .desc (S.message haveDesc)
  | .messageField kind name _ => if kind = .anyType then .desc (S.anyType name) else fieldOfMessage S haveDesc name
  | .mapType => .desc (S.message (S.mapValue haveDesc))
  | .compactOptions => .desc (some (S.options haveDesc))
  | .ident name => identifier name
  | .compoundIdent name => identifier name
  | _ => .desc none

/-- `case protoreflect.EnumDescriptor`, search.go:414-432. -/
def stepEnum (S : Schema D) (haveNode : Node) (haveDesc : D) (want : Node) : Step D :=
  match want.shape with
  | .option _ => .desc (some (S.options haveDesc))
  | .enumValue name => .desc (S.values haveDesc name)
  | .ident name =>
    match haveNode.shape with
    | .enum _ nameId => if nameId = want.id then .desc (some haveDesc) else .desc (S.values haveDesc name)
    | _ => .desc (S.values haveDesc name)
  | _ => .desc none

/-- `case protoreflect.EnumValueDescriptor`, search.go:433-441. -/
def stepEnumValue (S : Schema D) (haveDesc : D) (want : Node) : Step D :=
  match want.shape with
  | .enumValue _ => .desc (some haveDesc)
  | .compactOptions => .desc (some (S.options haveDesc))
  | .ident _ => .desc (some haveDesc)
  | .compoundIdent _ => .desc (some haveDesc)
  | _ => .desc none

/-- `case protoreflect.ServiceDescriptor`, search.go:442-453. -/
def stepService (S : Schema D) (haveDesc : D) (want : Node) : Step D :=
  match want.shape with
  | .option _ => .desc (some (S.options haveDesc))
  | .rpc name _ _ => .desc (S.methods haveDesc name)
  | .ident _ => .desc (some haveDesc)
  | .compoundIdent _ => .desc (some haveDesc)
  | _ => .desc none

/-- `case protoreflect.MethodDescriptor`, search.go:454-475. -/
def stepMethod (S : Schema D) (haveNode : Node) (haveDesc : D) (want : Node) : Step D :=
  match want.shape with
  | .option _ => .desc (some (S.options haveDesc))
  | .rpcType =>
    match haveNode.shape with
    | .rpc _ input output =>
      if want.id = input then .desc (some (S.input haveDesc))
      else if want.id = output then .desc (some (S.output haveDesc))
      else .desc none
    | _ => .desc none
  | .compactOptions => .desc (some (S.options haveDesc))
  | .ident _ => .desc (some haveDesc)
  | .compoundIdent _ => .desc (some haveDesc)
  | _ => .desc none

/-- `case protoreflect.OneofDescriptor`, search.go:476-487. -/
def stepOneof (S : Schema D) (haveDesc : D) (want : Node) : Step D :=
  match want.shape with
  | .option _ => .desc (some (S.options haveDesc))
  | .field name _ _ _ _ => .desc (S.fields haveDesc name)
  | .ident _ => .desc (some haveDesc)
  | .compoundIdent _ => .desc (some haveDesc)
  | _ => .desc none

/-- The body of the second loop, search.go:172-490: `haveNode` and `haveDesc` are the next resolved entry, `prev` is the node of
the previous entry. -/
def step (S : Schema D) (haveNode : Node) (haveDesc : D) (prev want : Node) : Step D :=
  match S.sort haveDesc with
  | .file => stepFile S haveDesc prev want
  | .message => stepMessage S haveNode haveDesc want
  | .extension => stepExtension S haveDesc prev want
  | .field => stepField S haveNode haveDesc want
  | .enum => stepEnum S haveNode haveDesc want
  | .enumValue => stepEnumValue S haveDesc want
  | .service => stepService S haveDesc want
  | .method => stepMethod S haveNode haveDesc want
  | .oneof => stepOneof S haveDesc want

/-- `nextResolved`, search.go:520-531, on the entries from the given one upwards. -/
def nextResolved : List (Entry D) → Option (Node × D)
  | [] => none
  | ⟨n, some d⟩ :: _ => some (n, d)
  | ⟨_, none⟩ :: es => nextResolved es

/-- The result of the second loop: the finished stack with the entry pushed first (the node that is looked up) in front. -/
inductive Resolved (D : Type) where
  | stack (entries : List (Entry D))
  | nothing
  | error
  | panic

/-- The second loop, search.go:167-494. The first list contains the entries that have been visited, the last one first. -/
def resolve (S : Schema D) (above : List (Entry D)) : List (Entry D) → Resolved D
  | [] => .stack above
  | e :: es =>
    match e.desc with
    | some _ => resolve S (e :: above) es
    | none =>
      match nextResolved above, above with
      | some (hn, hd), p :: _ =>
        match step S hn hd p.node e.node with
        | .desc (some d) => resolve S (⟨e.node, some d⟩ :: above) es
        | .desc none => .error
        | .stop => .nothing
        | .fail => .error
        | .panic => .panic
      | _, _ => .panic

/-- The result for a finished stack, search.go:496-506: for a component of a compound identifier the range of the whole one. -/
def answer : List (Entry D) → Result D
  | [] => .nothing
  | ⟨n, d⟩ :: rest =>
    let node : Nat :=
      match n.shape, rest with
      | .ident _, ⟨⟨i, _, _, .compoundIdent _⟩, _⟩ :: _ => i
      | _, _ => n.id
    match d with
    | some d => .found d node
    | none => .nothing

/-- `deepPathSearch`, search.go:29-506, for the nodes of the path without the file node `file`. -/
def search (S : Schema D) (file : Node) (path : List Node) : Result D :=
  if path = [] then .found S.root file.id
  else
    match climb S [] (path.reverse ++ [file]) with
    | .nothing => .nothing
    | .error => .error
    | .stack entries =>
      match entries with
      | [⟨n, some d⟩] => .found d n.id
      | _ =>
        match resolve S [] (⟨file, some S.root⟩ :: entries) with
        | .nothing => .nothing
        | .error => .error
        | .panic => .panic
        | .stack es => answer es

end Verif.PathSearch
