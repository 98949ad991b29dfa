import Verif.Spec.Inspect
import Verif.Model.InlayHints
/-!
# Semantic tokens of a range

`semanticTokensRange` (/repo/pkg/lsp/semantic.go:169-197): the walk of Model/Inspect with the option `ast.WithRange` (external), which skips the
nodes that end before the first token of the range or begin after its last.
-/
namespace Verif.RangeTokens

open Inspect

/-- Whether the walk enters a node with these leaves (the first and the last are the start and the end of the node). -/
def overlaps (lo hi : Int) (ids : List Nat) : Bool :=
  match ids.head?, ids.getLast? with
  | some a, some b => decide ((a : Int) ≤ hi ∧ lo ≤ (b : Int))
  | _, _ => false

/-- The visitor at a leaf. -/
def leafIn (lo hi : Int) (l : Leaf) : List Out := if overlaps lo hi [l.id] then visitLeaf l else []

/-- The leaves of a name that is entered. -/
def nameIn (lo hi : Int) (n : Name) : List Out :=
  if overlaps lo hi n.ids then
    match n with
    | .ident l => leafIn lo hi l
    | .compound first rest _ _ => (first :: rest).flatMap (leafIn lo hi)
  else []

/-- The leaves of the name of a field. -/
def refIn (lo hi : Int) (r : Ref) : List Out :=
  if overlaps lo hi r.ids then
    match r with
    | .any op url slash name cl => leafIn lo hi op ++ nameIn lo hi url ++ leafIn lo hi slash ++ nameIn lo hi name ++ leafIn lo hi cl
    | .ext op name cl => leafIn lo hi op ++ nameIn lo hi name ++ leafIn lo hi cl
    | .plain name => leafIn lo hi name
  else []

mutual
/-- `inspect`, semantic.go:454-684, with the option `ast.WithRange`, line 192. -/
def visitIn (lo hi : Int) : Tree → List Out
  | .leaf l => leafIn lo hi l
  | .special l => if overlaps lo hi [l.id] then mktokens l [] .number .none else []
  | .named _ n => nameIn lo hi n
  | .node kids => if overlaps lo hi (idss kids) then marks kids ++ visitsIn lo hi kids else []
  | .optionName parts => if overlaps lo hi (parts.flatMap Part.ids) then parts.flatMap partTokens else []
  | .option fd pre val post =>
    if overlaps lo hi (idss pre ++ ids val ++ idss post) then
      optionTokens fd val ++ (visitsIn lo hi pre ++ visitIn lo hi val ++ visitsIn lo hi post)
    else []
  | .field fd ref sep val post =>
    if overlaps lo hi (ref.ids ++ idss sep ++ ids val ++ idss post) then
      refTokens ref ++ valueTokens fd val ++ (refIn lo hi ref ++ visitsIn lo hi sep ++ visitIn lo hi val ++ visitsIn lo hi post)
    else []
  | .array kids => if overlaps lo hi (idss kids) then visitsIn lo hi kids else []

def visitsIn (lo hi : Int) : List Tree → List Out
  | [] => []
  | t :: ts => visitIn lo hi t ++ visitsIn lo hi ts
end

/-- `semanticTokensRange`, semantic.go:189-192: the offsets of the range (the error is ignored), the tokens there, the walk. `toks` are the tokens
of the file. -/
def rangeTokens (content : Str) (toks : List (Nat × Nat)) (t : Tree) (rng : Documents.Pos × Documents.Pos) : List Out :=
  let o := InlayHints.rangeOffsets content rng
  visitIn (InlayHints.tokenAt toks o.1) (InlayHints.tokenAt toks o.2) t

/-- What the cache has of a document: is the text well formed (`latestDocumentContentsWellFormedLocked`, a parameter; `none` is an error),
the parse result with its syntax tree (the inner `none` is nil), the text of the mapper, the tokens of the tree. -/
structure Doc where
  wellFormed : Option Bool
  parsed : Option (Option Tree)
  mapper : Option Str
  toks : List (Nat × Nat)

/-- `semanticTokensRange`, semantic.go:169-197; `none` is an error. -/
def semanticTokensRange (d : Doc) (rng : Documents.Pos × Documents.Pos) : Option (List Out) :=
  match d.parsed with
  | none => none
  | some ast =>
    match d.mapper with
    | none => none
    | some content =>
      match ast with
      | none => none
      | some t => some (rangeTokens content d.toks t rng)

/-- `ComputeSemanticTokensRange`, semantic.go:135-149. -/
def computeSemanticTokensRange (d : Doc) (rng : Documents.Pos × Documents.Pos) : Option (List Out) :=
  match d.wellFormed with
  | none => none
  | some ok => if !ok then none else semanticTokensRange d rng

end Verif.RangeTokens
