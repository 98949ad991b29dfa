import Verif.Model.SymbolQuery

/-!
# What a workspace symbol request should find
-/
namespace Verif.SymbolQuery

/-- The declarations that can be found: messages (not those of map entries), enums, services, methods,
fields and enum values of the files that have a result. -/
def declared (info : Nat → Desc) (files : List (Option (List Nat))) : List Nat :=
  (files.filterMap id).flatten.filter (fun i =>
    (info i).kind ∈ [.enum, .service, .method, .field, .enumValue] ∨
    ((info i).kind = .message ∧ (info i).placeholder = false ∧ (info i).mapEntry = false))

/-- The scores are those of the query: a declaration has a score iff its name matches. -/
def ScoredBy (lower : Str → Str) (fuzzy : Str → Symbols.Matcher) (q : Str) (info : Nat → Desc) (score : Nat → Nat) : Prop :=
  ∀ i, 0 < score i ↔ 0 < Symbols.parseQuery lower fuzzy q (info i).name

/-- How a declaration is to be shown. -/
structure ShownAs (d : Desc) (uri : Str) (x : Shown) : Prop where
  name : x.name = d.name
  uri : x.uri = uri
  range : d.node = some x.range
  container : x.container = d.parent.getD []
  kind : (d.kind, x.kind) ∈ [(DKind.message, SKind.class_), (.enum, .enum), (.service, .interface_),
    (.method, .function), (.field, .field), (.enumValue, .enumMember)]

end Verif.SymbolQuery
