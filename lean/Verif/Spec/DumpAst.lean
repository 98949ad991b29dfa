import Verif.Model.DumpAst
/-!
# What a dump of a syntax tree is

Written from the purpose of the command (one line for each node, indented by the depth, with the line of the source, the type and the properties),
not from the traversal.
-/
namespace Verif.DumpAst

/-- A property of a node with its value. -/
def attr (key : String) (value : Str) : Str := lit key ++ '=' :: value

/-- An integer in decimal. -/
def decimal (i : Int) : Str := (if i < 0 then ['-'] else []) ++ dec i.natAbs

/-- The types of nodes (of the package `ast`), in the order of the kinds. -/
def names : List String :=
  ["EditionNode", "ArrayLiteralNode", "CompactOptionsNode", "CompoundIdentNode", "CompoundStringLiteralNode", "EmptyDeclNode", "ErrorNode",
    "EnumNode", "EnumValueNode", "ExtendNode", "ExtensionRangeNode", "FieldNode", "FieldReferenceNode", "FileNode", "FloatLiteralNode",
    "GroupNode", "IdentNode", "ImportNode", "MapFieldNode", "MapTypeNode", "MessageFieldNode", "MessageLiteralNode", "MessageNode",
    "NegativeIntLiteralNode", "OneofNode", "OptionNameNode", "OptionNode", "PackageNode", "RPCNode", "RPCTypeNode", "RangeNode",
    "ReservedNode", "RuneNode", "ServiceNode", "SignedFloatLiteralNode", "SpecialFloatLiteralNode", "StringLiteralNode", "SyntaxNode",
    "UintLiteralNode"]

/-- The properties of a node that are shown. -/
def items (env : Env) : Payload → List Str
  | .edition v => [attr "val" (env.quote v)]
  | .arrayLiteral n => [attr "len" (dec n)]
  | .compactOptions n => [attr "len" (dec n)]
  | .compoundIdent parts => [attr "parts" ('[' :: joinWith ' ' (parts.map fun p => attr "val" (env.quote p)) ++ [']'])]
  | .compoundString v => [attr "val" v]
  | .emptyDecl => []
  | .error => []
  | .enum name n => [attr "val" (env.quote name), attr "#decls" (dec n)]
  | .enumValue name n => [attr "val" (env.quote name), attr "number" (decimal n)]
  | .extend none _ => [lit "!extendee"]
  | .extend (some e) n => [attr "extendee" (env.quote e), attr "#decls" (dec n)]
  | .extensionRange n => [attr "#elements" (dec n)]
  | .field label type name tag options =>
    [attr "label" (env.quote label), attr "type" (env.quote type), attr "name" (env.quote name), attr "tag" (dec tag)] ++
      options.toList.map fun n => attr "#options" (dec n)
  | .fieldReference v => [attr "val" (env.quote v)]
  | .file none n => [lit "!syntax", attr "#decls" (dec n)]
  | .file (some s) n => [attr "syntax" (env.quote s), attr "#decls" (dec n)]
  | .floatLiteral t => [attr "val" t]
  | .group label name tag n =>
    [attr "label" (env.quote label), attr "name" (env.quote name), attr "tag" (dec tag), attr "#decls" (dec n)]
  | .ident true v => [attr "keyword" (env.quote v)]
  | .ident false v => [attr "val" (env.quote v)]
  | .imp _ _ none => [lit "!name"]
  | .imp pub weak (some name) =>
    (if pub then [lit "public"] else []) ++ (if weak then [lit "weak"] else []) ++ [attr "name" (env.quote name)]
  | .mapField key value name tag options =>
    [attr "keytype" (env.quote key), attr "valuetype" (env.quote value), attr "name" (env.quote name), attr "tag" (dec tag)] ++
      options.toList.map fun n => attr "#options" (dec n)
  | .mapType key value => [attr "keytype" (env.quote key), attr "valuetype" (env.quote value)]
  | .messageField name t => [attr "name" (env.quote name), attr "val" t]
  | .messageLiteral n => [attr "#elements" (dec n)]
  | .message name n => [attr "name" (env.quote name), attr "#decls" (dec n)]
  | .negativeInt v => [attr "val" (decimal v)]
  | .oneof name n => [attr "name" (env.quote name), attr "#decls" (dec n)]
  | .optionName name => [attr "name" (env.quote name)]
  | .option incomplete name t => (if incomplete then [lit "(!)"] else []) ++ [attr "name" (env.quote name), attr "val" t]
  | .package none => [lit "!name"]
  | .package (some name) => [attr "name" (env.quote name)]
  | .rpc name input output n =>
    [attr "name" (env.quote name), attr "input" (env.quote input), attr "output" (env.quote output), attr "#decls" (dec n)]
  | .rpcType name stream => [attr "name" (env.quote name), attr "stream" (env.quote stream)]
  | .range start .single => [attr "start" (decimal start)]
  | .range start (.to_ v) => [attr "start" (decimal start), attr "end" (decimal v)]
  | .range start (.max v) => [attr "start" (decimal start), attr "max" (env.quote v)]
  | .reserved n => [attr "#elements" (dec n)]
  | .rune v => [attr "rune" (env.quote v)]
  | .service name n => [attr "name" (env.quote name), attr "#decls" (dec n)]
  | .signedFloat t => [attr "val" t]
  | .specialFloat t => [attr "val" t]
  | .stringLiteral v => [attr "val" v]
  | .syn v => [attr "syntax" (env.quote v)]
  | .uintLiteral v => [attr "val" (dec v)]
  | .other _ => []

/-- The line for a node at a depth. -/
def line (env : Env) (depth : Nat) (i : Info) (p : Payload) : Str :=
  List.replicate (env.width - (dec i.line).length) ' ' ++ dec i.line ++ ' ' :: List.replicate (2 * depth) ' ' ++ '[' :: typeName p ++ ']' ::
    (i.desc.toList.flatMap fun d => '{' :: d ++ ['}']) ++ ' ' ::
    ((if i.leading = 0 then [] else lit "/lc=" ++ dec i.leading ++ lit "/ ") ++
      (if i.trailing = 0 then [] else lit "/tc=" ++ dec i.trailing ++ lit "/ ") ++ joinWith ' ' (items env p))

mutual
/-- The nodes with their depths, each before its children. -/
def places (depth : Nat) : Node → List (Nat × Info × Payload)
  | .mk i p cs => (depth, i, p) :: placesAll (depth + 1) cs

def placesAll (depth : Nat) : List Node → List (Nat × Info × Payload)
  | [] => []
  | n :: ns => places depth n ++ placesAll depth ns
end

/-- The shape of a tree: for each node the line of the source and which kind of node it is. -/
inductive Shape where
  | mk (line kind : Nat) (children : List Shape)

mutual
def shape : Node → Shape
  | .mk i p cs => .mk i.line p.ctorIdx (shapes cs)

def shapes : List Node → List Shape
  | [] => []
  | n :: ns => shape n :: shapes ns
end

/-- Nodes for which exactly one line is written: the kind has a case, a package has its name, and no text that is written as it is has a line
break. -/
def Fine : Info × Payload → Prop
  | (i, p) => (∀ d ∈ i.desc, '\n' ∉ d) ∧
    match p with
    | .package none => False
    | .other _ => False
    | .compoundString v => '\n' ∉ v
    | .stringLiteral v => '\n' ∉ v
    | .floatLiteral v => '\n' ∉ v
    | .signedFloat v => '\n' ∉ v
    | .specialFloat v => '\n' ∉ v
    | .messageField _ t => '\n' ∉ t
    | .option _ _ t => '\n' ∉ t
    | _ => True

end Verif.DumpAst
