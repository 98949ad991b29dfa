import Verif.Model.CelTokens
/-!
# Where the tokens of a CEL expression belong
-/
namespace Verif.CelTokens

/-- In `text`, the word `w` stands where the expression starts. -/
def At (text : Str) (e : Expr) (w : Str) : Prop :=
  1 ≤ e.line ∧ ∃ l, (splitOn '\n' text)[e.line - 1]? = some l ∧ e.col ≤ l.length ∧ ∃ r, l.drop e.col = w ++ r

/-- How an expression is written, and the type of its token: the name of an operator, an identifier, a number, a string in quotes, or a
truth value. -/
inductive Written : Kind → Str → Typ → Prop
  | call (c : Char) (d : Str) : Written (.call (some (c :: d))) (c :: d) .operator
  | this : Written (.ident ['t', 'h', 'i', 's']) ['t', 'h', 'i', 's'] .keyword
  | ident (n : Str) (h : n ≠ ['t', 'h', 'i', 's']) : Written (.ident n) n .variable
  | num (p : Str) : Written (.num p) p .number
  | text (q : Char) (v : Str) : Written (.text v) (q :: (v ++ [q])) .string
  | bool (p : Str) : Written (.bool p) p .keyword

/-- Calls of functions and other expressions have no word of their own. -/
def Kind.silent : Kind → Bool
  | .call none => true
  | .call (some []) => true
  | .other => true
  | _ => false

/-- A token in the line of a literal, inside its quotes, covers the word `w` of the file. -/
def Covers (l : Lit) (tok : Tok) (w : Str) : Prop :=
  tok.line + 1 = l.line ∧ l.col ≤ tok.start ∧ tok.start + tok.len + 2 ≤ l.col + l.raw.length ∧
  (l.raw.drop (tok.start + 1 - l.col)).take tok.len = w

/-- A literal in one line, in which only backslashes are written as escape sequences. -/
def Lit.Faithful (l : Lit) : Prop :=
  1 ≤ l.line ∧ 1 ≤ l.col ∧ '\n' ∉ l.value ∧ ∃ q, l.raw = q :: (escape l.value ++ [q])

/-- One faithful literal, or several that do not start with white space. -/
def Val.Faithful : Val → Prop
  | .str l => l.Faithful
  | .strs ls => ls ≠ [] ∧ ∀ l ∈ ls, l.Faithful ∧ ∀ c, l.value.head? = some c → isSpace c = false
  | .other => False

end Verif.CelTokens
