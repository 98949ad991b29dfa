import Verif.Util.Sort

/-!
# Position lookup

Models `findNarrowestSemanticToken` of `/repo/pkg/lsp/search.go`.
-/
namespace Verif.Search

/-- What the lookup looks at in `token.node` (`ast.Node`): nil, a `*ast.RuneNode`, or
another node. -/
inductive NodeKind
  | none | rune | other
deriving DecidableEq, Repr

/-- `semanticItem`, `/repo/pkg/lsp/semantic.go:81-93`. `ident` stands for the node and
path carried along; token type and modifiers are left out. -/
structure Token where
  proto : Bool            -- lang == tokenLanguageProto
  line : UInt32
  start : UInt32
  len : UInt32
  node : NodeKind
  ident : Nat
deriving DecidableEq, Repr

/-- `protocol.Position`. -/
structure Pos where
  line : UInt32
  char : UInt32
deriving DecidableEq, Repr

/-- The comparison of `computeSemanticTokens`, `/repo/pkg/lsp/semantic.go:205-210`. -/
def less (a b : Token) : Bool :=
  if a.line ≠ b.line then decide (a.line < b.line) else decide (a.start < b.start)

/-- `findNarrowestSemanticToken`, `/repo/pkg/lsp/search.go:571-610`, on `uint32`
arithmetic. `none` is `found = false`. -/
def findToken (pos : Pos) : List Token → Option Token
  | [] => none
  | t :: ts =>
    if t.proto = false then findToken pos ts
    else if pos.line ≠ t.line then
      if pos.line < t.line then none else findToken pos ts
    else if t.len = 0 then findToken pos ts
    else if t.start + t.len < pos.char then findToken pos ts
    else if pos.char < t.start then none
    else if t.node = .none then findToken pos ts
    else if t.node = .rune then findToken pos ts
    else some t

end Verif.Search
