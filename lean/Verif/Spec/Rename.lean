import Verif.Model.Rename
/-!
# What a rename is expected to do
-/
namespace Verif.Rename

/-- The last component of a name in the source, if it has a position. -/
def Written.short : Written → Option Span
  | .ident s => some s
  | .compound _ cs => cs.getLast?.join

/-- The place of the short name in a node. -/
def Node.short : Node → Option Span
  | .name w => w.short
  | .fieldRef w => w.bind Written.short
  | .decl s => some s
  | .rpcType w => w.short
  | .other => none

/-- The edits for a document: one for the short name in every reference in it, in order. -/
def wanted (c : Cache) (new : Str) (u : Str) (refs : List Ref) : List Edit :=
  refs.filterMap fun r => if c.uri r.path = some u then r.node.short.map (⟨·, new⟩) else none

/-- An identifier of the language: a letter or underscore, then letters, digits and underscores. -/
def Identifier (n : Str) : Prop :=
  ∃ ch t, n = ch :: t ∧ (ch.isAlpha ∨ ch = '_') ∧ ∀ x ∈ t, x.isAlphanum ∨ x = '_'

/-- The descriptor may be renamed: it is declared in a file of the workspace without syntax errors. -/
def Renamable (c : Cache) (d : Desc) : Prop :=
  d.kind ≠ .file ∧ d.kind ≠ .other ∧ ∃ r u, c.definition d = some r ∧ c.uri r.path = some u ∧ c.isLocal u = true ∧ c.wellFormed u = true

/-- The node has a name that can be replaced or is to be skipped. -/
def Editable (c : Cache) (r : Ref) : Prop :=
  r.node ≠ .other ∧ (r.node.short ≠ none → ∃ u, c.uri r.path = some u ∧ c.isLocal u = true)

/-- Compound identifiers have components, and the types of methods are not qualified. -/
def Simple : Node → Prop
  | .name (.compound _ cs) => cs ≠ []
  | .fieldRef (some (.compound _ cs)) => cs ≠ []
  | .rpcType (.compound _ _) => False
  | _ => True

end Verif.Rename
