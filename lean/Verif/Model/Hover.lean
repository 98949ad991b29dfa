import Verif.Model.CursorPath
import Verif.Util.Str
/-!
# Hover, and the parts of a package name

`ComputeHover` of `/repo/pkg/lsp/hover.go`, `tryHoverPackageNode` and `TryFindPackageReferences` of `/repo/pkg/lsp/packages.go`, `PrintNode` of
`/repo/pkg/format/format.go`. What stands at the cursor (C72), the definition, the syntax tree of the file with the definition and the text
that the formatter writes for a node (C70) are parameters.
-/
namespace Verif.Hover

open CursorPath (Pos Node Found findPathIntersectingToken)

/-- "```protobuf" -/
def sOpen : Str := ['`', '`', '`', 'p', 'r', 'o', 't', 'o', 'b', 'u', 'f']
/-- "```" -/
def sClose : Str := ['`', '`', '`']
/-- "package " -/
def sPackage : Str := ['p', 'a', 'c', 'k', 'a', 'g', 'e', ' ']

/-- ``fmt.Sprintf("```protobuf\n%s\n```\n", text)``, hover.go:57, packages.go:182. -/
def fence (text : Str) : Str := sOpen ++ '\n' :: (text ++ '\n' :: (sClose ++ ['\n']))

/-- The end of `PrintNode`, format.go:97-107: one line break is taken from either end. The slice bounds are out of range for a single line
break. -/
def trimNode (s : Str) : Option Str :=
  if 0 < s.length then
    let lower := if s.head? = some '\n' then 1 else 0
    let upper := if s.getLast? = some '\n' then s.length - 1 else s.length
    if lower ≤ upper then some ((s.take upper).drop lower) else none
  else some s

/-- What `FindTypeDescriptorAtLocation` finds: an error, nothing, or a descriptor and the range of its name at the cursor. -/
inductive AtCursor (δ ρ : Type)
  | error
  | nothing
  | desc (d : δ) (range : ρ)

/-- A `protocol.Hover`. -/
structure Hover (ρ : Type) where
  value : Str
  range : ρ
deriving DecidableEq, Repr

/-- What the request depends on. `definition` is `FindDefinitionForTypeDescriptor`, the URI and the start of the range; `parse` is
`FindParseResultByURI` with `GetMapper` and `PositionOffset` (all of them may fail); `item` says whether there is a token at the position, and
not a comment; the tree of a file has the nodes marked that the walker enters for the token. `text` is what the formatter writes for a node of a
tree. -/
structure Env (δ ρ : Type) where
  definition : δ → Option (Str × Pos)
  parse : Str → Pos → Option Node
  item : Str → Pos → Bool
  text : Str → List Nat → Bool → Str

/-- The result of a request: an error, a panic, or an answer, which may be nil. -/
inductive Answer (ρ : Type)
  | error
  | panic
  | ok (hover : Option (Hover ρ))
deriving DecidableEq, Repr

/-- `ComputeHover`, hover.go:12-61; `package` is the answer of `tryHoverPackageNode`. -/
def computeHover {δ ρ : Type} (env : Env δ ρ) (package : Option (Hover ρ)) : AtCursor δ ρ → Answer ρ
  | .error => .error
  | .nothing => .ok package
  | .desc d rng =>
    match env.definition d with
    | none => .error
    | some (uri, start) =>
      match env.parse uri start with
      | none => .error
      | some tree =>
        if env.item uri start then
          match findPathIntersectingToken tree start with
          | none => .ok none
          | some f =>
            match trimNode (env.text uri f.path f.name) with
            | none => .panic
            | some text => .ok (some ⟨fence text, rng⟩)
        else .ok none

/-- An identifier with its token. -/
structure Ident where
  val : Str
  tok : Nat
deriving DecidableEq, Repr

/-- The name in a package statement: an identifier, or several (without the dots) and the tokens at which the name begins and ends. -/
inductive PkgName
  | ident (i : Ident)
  | compound (idents : List Ident)
deriving DecidableEq, Repr

/-- A declaration of a file, as far as it matters: a package statement with its name, if there is one, or something else. -/
inductive Decl
  | package (name : Option PkgName)
  | other
deriving DecidableEq, Repr

/-- What is shown for a package: the statement, or the first parts of the name and `.*`; and how many parts the range has (`none`: the
range of the whole name). -/
inductive Shown
  | statement
  | parts (name : Str) (n : Nat)
deriving DecidableEq, Repr

/-- The loop over the parts, packages.go:194-218; `parts` are the values of the parts so far. -/
def hoverParts (tok len : Nat) (parts : List Str) : Nat → List Ident → Option Shown
  | _, [] => none
  | i, part :: rest =>
    let parts := parts ++ [part.val]
    if tok ≥ part.tok ∧ tok ≤ part.tok then
      if i = len - 1 then some .statement else some (.parts (joinWith '.' parts) (i + 1))
    else hoverParts tok len parts (i + 1) rest

/-- `tryHoverPackageNode`, packages.go:164-224, from the token at the cursor on; only the first package statement counts. -/
def hoverPackage (tok : Nat) : List Decl → Option Shown
  | [] => none
  | .other :: ds => hoverPackage tok ds
  | .package none :: _ => none
  | .package (some (.ident i)) :: _ => if tok ≥ i.tok ∧ tok ≤ i.tok then some .statement else none
  | .package (some (.compound is)) :: _ => hoverParts tok is.length [] 0 is

/-- The text of the answer, packages.go:180-184, 205-210; `statement` is what the formatter writes for the statement. -/
def shownValue (statement : Str) : Shown → Str
  | .statement => fence statement
  | .parts name _ => fence (sPackage ++ (name ++ ['.', '*']))

/-- The loop over the parts, packages.go:48-57: the name and whether packages below it count too. -/
def refParts (tok : Nat) (idents : List Ident) : Nat → List Ident → Option (Str × Bool)
  | _, [] => none
  | i, ident :: rest =>
    if tok ≥ ident.tok ∧ tok ≤ ident.tok then
      some (joinWith '.' ((List.range (i + 1)).filterMap fun j => (idents[j]?).map (·.val)), decide (i < idents.length - 1))
    else refParts tok idents (i + 1) rest

/-- The first and the last token of a name. -/
def nameSpan (is : List Ident) : Option (Nat × Nat) :=
  match is.head?, is.getLast? with
  | some a, some b => some (a.tok, b.tok)
  | _, _ => none

/-- `TryFindPackageReferences`, packages.go:39-65, from the token at the cursor on: what `FindPackageNameRefs` is called with. -/
def refsPackage (tok : Nat) : List Decl → Option (Str × Bool)
  | [] => none
  | .other :: ds => refsPackage tok ds
  | .package none :: _ => none
  | .package (some (.ident i)) :: _ => if tok ≥ i.tok ∧ tok ≤ i.tok then some (i.val, false) else none
  | .package (some (.compound is)) :: _ =>
    match nameSpan is with
    | none => none
    | some (a, b) => if tok ≥ a ∧ tok ≤ b then refParts tok is 0 is else none

end Verif.Hover
