import Verif.Util.Str
/-!
# Model of the walk that collects semantic tokens

/repo/pkg/lsp/semantic.go:454-684 (`inspect`), 686-702 (`inspectCompoundIdent`), 790-826 (`inspectFieldLiteral`), 828-881
(`inspectArrayLiteral`), and the calls of `mktokens` and `mkcomments` (288-314, 331-411; what these do with positions is the subject
of C82). The result of the walk is the list of its calls. Not modelled: the tokens inside CEL expressions (a string literal of such
an expression is marked `embedded`), the parts of a string with escape sequences (C65), and the paths of nodes.
-/
namespace Verif.Inspect

/-- A token of the file: an identifier (`IsKeyword`), a rune (`Virtual`; the end of the file is the rune 0), a number, a string
literal (`embedded`: it is part of a CEL expression). -/
inductive Term
  | ident (text : Str) (keyword : Bool)
  | rune (c : Char) (virtual : Bool)
  | number
  | str (embedded : Bool)
deriving DecidableEq, Repr

/-- A leaf of the tree; `id` is the index of the token in the file. -/
structure Leaf where
  id : Nat
  term : Term
deriving DecidableEq, Repr

/-- Token types, semantic.go:18-42, and the modifiers that are used. -/
inductive Typ
  | keyword | string | number | operator | type | interface | variable | property | function | class | namespace | enumMember
deriving DecidableEq, Repr

inductive Mods
  | none | definition | library
deriving DecidableEq, Repr

/-- A token over leaves, or the comments before or behind a leaf. -/
inductive Out
  | tok (ids : List Nat) (typ : Typ) (mods : Mods)
  | lead (id : Nat)
  | trail (id : Nat)
deriving DecidableEq, Repr

/-- `mkcomments` for a node from leaf `first` to leaf `last`. -/
def mkcomments (first last : Leaf) : List Out := [.lead first.id, .trail last.id]

/-- `mktokens` for a node with the given leaves. -/
def mktokens (first : Leaf) (rest : List Leaf) (t : Typ) (m : Mods) : List Out :=
  .tok ((first :: rest).map (·.id)) t m :: mkcomments first (rest.getLastD first)

/-- An identifier or a compound identifier; `whole`: its text in the file is its name, without spaces and comments; `google`: its name
contains `google.protobuf.`. -/
inductive Name
  | ident (l : Leaf)
  | compound (first : Leaf) (rest : List Leaf) (whole google : Bool)
deriving DecidableEq, Repr

/-- `mktokens` for a name. -/
def Name.tokens (n : Name) (t : Typ) (m : Mods) : List Out :=
  match n with
  | .ident l => mktokens l [] t m
  | .compound first rest _ _ => mktokens first rest t m

/-- `inspectCompoundIdent`, semantic.go:686-702. -/
def compoundIdent (first : Leaf) (rest : List Leaf) (whole google : Bool) : List Out :=
  let m := if google then Mods.library else Mods.none
  if whole then mktokens first rest .type m else (first :: rest).flatMap fun l => mktokens l [] .type m

/-- How a node treats one of its names: a token over the name; or, for the type of a field and an extendee, a token with the given
modifier for an identifier and `inspectCompoundIdent` for a compound one (lines 500-505, 522-527). -/
inductive Mark
  | whole (t : Typ) (m : Mods)
  | split (m : Mods)
deriving DecidableEq, Repr

def Mark.tokens : Mark → Name → List Out
  | .whole t m, n => n.tokens t m
  | .split m, .ident l => mktokens l [] .type m
  | .split _, .compound first rest w g => compoundIdent first rest w g

/-- The name of a field in a message literal: `[url/name]`, `[name]` or `name`. -/
inductive Ref
  | any (op : Leaf) (url : Name) (slash : Leaf) (name : Name) (cl : Leaf)
  | ext (op : Leaf) (name : Name) (cl : Leaf)
  | plain (name : Leaf)
deriving DecidableEq, Repr

/-- A part of the name of an option. `pseudo`: it is `default` or `json_name`. -/
inductive Part
  | ext (op : Leaf) (name : Name) (cl : Leaf)
  | plain (name : Name) (pseudo : Bool)
  | dot (l : Leaf)
deriving DecidableEq, Repr

/-- What the linker knows about the type of an option or a field. -/
inductive Kind
  | bool
  | enum (values : List Str)
  | float
  | other
deriving DecidableEq, Repr

/-- The syntax tree, as far as the walk distinguishes nodes.
`named`: a name for which its parent makes a token. `node`: any other node; messages, groups, fields, map fields (with the parts of
their map type), oneofs, extends, enums, enum values, services, methods, method types and the package have `named` children.
`special`: `inf` or `nan` as a number. `option`: with what stands before the value, the value, and what stands behind it. `field`: a
field of a message literal. `array`: with brackets and commas. `fd` is the type of the option or field if the file is linked and
the type is known. -/
inductive Tree
  | leaf (l : Leaf)
  | special (l : Leaf)
  | named (m : Mark) (n : Name)
  | node (kids : List Tree)
  | optionName (parts : List Part)
  | option (fd : Option Kind) (pre : List Tree) (val : Tree) (post : List Tree)
  | field (fd : Option Kind) (ref : Ref) (sep : List Tree) (val : Tree) (post : List Tree)
  | array (kids : List Tree)

def kwTrue : Str := ['t', 'r', 'u', 'e']
def kwFalse : Str := ['f', 'a', 'l', 's', 'e']
def kwInf : Str := ['i', 'n', 'f']
def kwNan : Str := ['n', 'a', 'n']

def isBool (text : Str) : Bool := text = kwTrue || text = kwFalse

/-- `strings.ToLower`, for letters. -/
def isFloat (text : Str) : Bool := text.map Char.toLower = kwInf || text.map Char.toLower = kwNan

/-- Runes without a token, semantic.go:494. -/
def punctuation : List Char := ['}', '{', '.', ',', '<', '>', '(', ')', '[', ']', ';', ':']

/-- The visitor at a leaf, semantic.go:468-498. -/
def visitLeaf (l : Leaf) : List Out :=
  match l.term with
  | .str true => mkcomments l l
  | .str false => mktokens l [] .string .none
  | .number => mktokens l [] .number .none
  | .ident _ true => mktokens l [] .keyword .none
  | .ident _ false => []
  | .rune c virtual =>
    if virtual || c.toNat == 0 then []
    else if punctuation.contains c then mkcomments l l
    else mktokens l [] .operator .none

/-- The leaves of a name are visited. -/
def visitName : Name → List Out
  | .ident l => visitLeaf l
  | .compound first rest _ _ => (first :: rest).flatMap visitLeaf

/-- The leaves of a field name are visited. -/
def visitRef : Ref → List Out
  | .any op url slash name cl => visitLeaf op ++ visitName url ++ visitLeaf slash ++ visitName name ++ visitLeaf cl
  | .ext op name cl => visitLeaf op ++ visitName name ++ visitLeaf cl
  | .plain name => visitLeaf name

/-- The name of a field, semantic.go:627-649. -/
def refTokens : Ref → List Out
  | .any op url slash name cl =>
    mktokens op [] .operator .none ++ url.tokens .type .library ++ mktokens slash [] .type .library ++ name.tokens .type .none
      ++ mktokens cl [] .operator .none
  | .ext op name cl => mktokens op [] .operator .none ++ name.tokens .property .none ++ mktokens cl [] .operator .none
  | .plain name => mktokens name [] .property .none

/-- A part of the name of an option, semantic.go:535-556. -/
def partTokens : Part → List Out
  | .ext op name cl => mktokens op [] .operator .none ++ name.tokens .property .none ++ mktokens cl [] .operator .none
  | .plain name pseudo => name.tokens (if pseudo then .keyword else .property) .none
  | .dot l => mktokens l [] .property .none

/-- The value of an option, semantic.go:568-599. The calls in lines 559-567 do nothing: `lastPart` is a part of a name and not a
`FieldReferenceNode`. -/
def optionTokens : Option Kind → Tree → List Out
  | some .bool, .leaf ⟨id, .ident text false⟩ =>
    mktokens ⟨id, .ident text false⟩ [] (if isBool text then .keyword else .variable) .none
  | some (.enum values), .leaf ⟨id, .ident text false⟩ =>
    mktokens ⟨id, .ident text false⟩ [] (if values.contains text then .enumMember else .variable) .none
  | some .float, .leaf ⟨id, .ident text false⟩ =>
    if isFloat text then mktokens ⟨id, .ident text false⟩ [] .number .none else []
  | _, _ => []

/-- `inspectFieldLiteral`, semantic.go:805-825. -/
def fieldLiteral : Option Kind → Tree → List Out
  | some .float, .special l => mktokens l [] .number .none
  | some .bool, .leaf ⟨id, .ident text kw⟩ => if isBool text then mktokens ⟨id, .ident text kw⟩ [] .keyword .none else []
  | some (.enum values), .leaf ⟨id, .ident text kw⟩ =>
    if values.contains text then mktokens ⟨id, .ident text kw⟩ [] .enumMember .none else []
  | _, _ => []

/-- An element in `inspectArrayLiteral`, semantic.go:842-880. -/
def elementTokens : Option Kind → Tree → List Out
  | some .float, .special l => mktokens l [] .number .none
  | some .bool, .leaf ⟨id, .ident text true⟩ => if isBool text then mktokens ⟨id, .ident text true⟩ [] .keyword .none else []
  | some (.enum values), .leaf ⟨id, .ident text kw⟩ =>
    if values.contains text then mktokens ⟨id, .ident text kw⟩ [] .enumMember .none else []
  | _, _ => []

/-- The value of a field, semantic.go:650-655. -/
def valueTokens (fd : Option Kind) : Tree → List Out
  | .array kids => kids.flatMap (elementTokens fd)
  | val => fieldLiteral fd val

/-- The tokens that a node makes for its names. -/
def marks : List Tree → List Out
  | [] => []
  | .named m n :: kids => m.tokens n ++ marks kids
  | _ :: kids => marks kids

mutual
/-- `inspect`, semantic.go:466-683: first the tokens of the node, then its children. -/
def visit : Tree → List Out
  | .leaf l => visitLeaf l
  | .special l => mktokens l [] .number .none
  | .named _ n => visitName n
  | .node kids => marks kids ++ visits kids
  | .optionName parts => parts.flatMap partTokens
  | .option fd pre val post => optionTokens fd val ++ (visits pre ++ visit val ++ visits post)
  | .field fd ref sep val post => refTokens ref ++ valueTokens fd val ++ (visitRef ref ++ visits sep ++ visit val ++ visits post)
  | .array kids => visits kids

def visits : List Tree → List Out
  | [] => []
  | t :: ts => visit t ++ visits ts
end

end Verif.Inspect
