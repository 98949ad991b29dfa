import Verif.Util.Str

/-!
# Specification: dotted names and their lookup in protobuf
-/
namespace Verif

/-- The dotted form of a list of components. -/
abbrev dotted (ps : List Str) : Str := joinWith '.' ps

/-- A list of identifiers: no component is empty or contains a dot. -/
def Wf (ps : List Str) : Prop := ∀ p ∈ ps, p ≠ [] ∧ '.' ∉ p

/-- Specification of name lookup in protobuf (scopes are searched from the innermost to
the outermost for the *first* component of the name, the rest is looked up from there):
in a file of package `pkg`, the name `nm` denotes the definition `target`. `defs` says which
names (packages or types) exist. -/
def Denotes (defs : List Str → Prop) (pkg nm target : List Str) : Prop :=
  ∃ scope, scope <+: pkg ∧ defs (scope ++ nm.take 1) ∧
    (∀ s, s <+: pkg → scope.length < s.length → ¬ defs (s ++ nm.take 1)) ∧
    target = scope ++ nm ∧ defs target

/-- A name denotes at most one definition. -/
theorem Denotes.unique {defs : List Str → Prop} {pkg nm t1 t2 : List Str}
    (h1 : Denotes defs pkg nm t1) (h2 : Denotes defs pkg nm t2) : t1 = t2 := by
  obtain ⟨s1, p1, d1, m1, e1, _⟩ := h1
  obtain ⟨s2, p2, d2, m2, e2, _⟩ := h2
  have l1 : ¬ s1.length < s2.length := fun h => m1 s2 p2 h d2
  have l2 : ¬ s2.length < s1.length := fun h => m2 s1 p1 h d1
  have : s1 = s2 := by
    have hl : s1.length = s2.length := by omega
    rw [List.prefix_iff_eq_take.mp p1, List.prefix_iff_eq_take.mp p2, hl]
  rw [e1, e2, this]

end Verif
