import Verif.Model.RangeTokens
/-! Which tokens and comments lie in a range of the text. -/
namespace Verif.RangeTokens

open Inspect

/-- The leaves to which a token or a comment belongs. -/
def leaves : Out → List Nat
  | .tok ids _ _ => ids
  | .lead i => [i]
  | .trail i => [i]

/-- The leaf `i` of the file lies, with some of its text, between the offsets `a` and `b` (`b` itself included). -/
def InText (toks : List (Nat × Nat)) (a b i : Nat) : Prop := ∃ s, toks[i]? = some s ∧ s.1 ≤ b ∧ a < s.2

instance (toks : List (Nat × Nat)) (a b i : Nat) : Decidable (InText toks a b i) :=
  match h : toks[i]? with
  | none => .isFalse (by rintro ⟨s, hs, _⟩; rw [h] at hs; cases hs)
  | some s =>
    if hs : s.1 ≤ b ∧ a < s.2 then .isTrue ⟨s, h, hs⟩
    else .isFalse (by rintro ⟨s', hs', h'⟩; rw [h] at hs'; cases hs'; exact hs h')

end Verif.RangeTokens
