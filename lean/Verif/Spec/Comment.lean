import Verif.Util.Str
/-!
# Specification: block comments of the protobuf language

A block comment starts with `/*` and ends with the first `*/` after that.
-/
namespace Verif.Comment

/-- The text after the first `*/`. -/
def closes : Str → Option Str
  | [] => none
  | [_] => none
  | c :: d :: s => if c = '*' ∧ d = '/' then some s else closes (d :: s)

/-- A text that is exactly one block comment. -/
def IsBlock (s : Str) : Prop := ∃ r, s = '/' :: '*' :: r ∧ closes r = some []

/-- `b` is `a` with some runs of white space replaced by others. -/
inductive Respaced : Str → Str → Prop where
  | nil : Respaced [] []
  | char (c : Char) (a b : Str) : Respaced a b → Respaced (c :: a) (c :: b)
  | run (w w' a b : Str) : w ≠ [] → w' ≠ [] → (∀ c ∈ w, isSpace c = true) → (∀ c ∈ w', isSpace c = true) →
      Respaced a b → Respaced (w ++ a) (w' ++ b)

end Verif.Comment
