import Verif.Util.Str
import Verif.Util.Trim
/-!
# Model of the tokens inside CEL expressions

/repo/pkg/lsp/semantic.go:316-329 (`mktokens_cel`), 600-623 (message literals in `inspect`) and 883-968 (`inspectCelExpr`). The CEL
parser is a parameter: it gives the expressions in the order of the visitor, or fails. A character is a byte, and positions do not
exceed 32 bits. `none` is a panic.
-/
namespace Verif.CelTokens

/-- A string literal: the place of its first character (from 1), its text in the file with the quotes, the string it stands for. -/
structure Lit where
  line : Nat
  col : Nat
  raw : Str
  value : Str
deriving DecidableEq, Repr

/-- The value of a field of a message literal. -/
inductive Val
  | str (l : Lit)
  | strs (ls : List Lit)
  | other
deriving DecidableEq, Repr

/-- A field of a message literal; `name = none`: `elem.Name` is nil. -/
structure Elem where
  name : Option Str
  val : Val
deriving DecidableEq, Repr

/-- Expressions: a call with the displayed operator, an identifier, literals (numbers and truth values as `fmt.Sprint` prints them). -/
inductive Kind
  | call (display : Option Str)
  | ident (name : Str)
  | num (printed : Str)
  | text (value : Str)
  | bool (printed : Str)
  | other
deriving DecidableEq, Repr

/-- An expression and where it starts: line from 1, column from 0. -/
structure Expr where
  kind : Kind
  line : Nat
  col : Nat
deriving DecidableEq, Repr

inductive Typ
  | operator | keyword | variable | number | string
deriving DecidableEq, Repr

/-- `semanticItem`, from 0. -/
structure Tok where
  line : Nat
  start : Nat
  len : Nat
  typ : Typ
deriving DecidableEq, Repr

def kwThis : Str := ['t', 'h', 'i', 's']
def kwExpression : Str := ['e', 'x', 'p', 'r', 'e', 's', 's', 'i', 'o', 'n']
def kwId : Str := ['i', 'd']

/-- Length and type of the token of an expression, semantic.go:923-961. -/
def Kind.token : Kind → Option (Nat × Typ)
  | .call (some d) => if d.length > 0 then some (d.length, .operator) else none
  | .call none => none
  | .ident n => some (n.length, if n = kwThis then .keyword else .variable)
  | .num p => some (p.length, .number)
  | .text v => some (v.length + 2, .string)
  | .bool p => some (p.length, .keyword)
  | .other => none

/-- `mktokens_cel`, semantic.go:316-329. -/
def mktokens (l : Lit) (start stop : Nat) (t : Typ) : Tok := ⟨l.line - 1, l.col + start, stop - start, t⟩

/-- The visitor, semantic.go:922-962; `stringNodes[start.Line()-1]` panics if there is no such literal. -/
def celTokens (lits : List Lit) : List Expr → Option (List Tok)
  | [] => some []
  | e :: es =>
    match e.kind.token with
    | none => celTokens lits es
    | some (n, t) =>
      if e.line = 0 then none
      else
        match lits[e.line - 1]? with
        | none => none
        | some l => (celTokens lits es).map (mktokens l e.col (e.col + n) t :: ·)

/-- `strings.ReplaceAll(celExpr, "\", "\\")`. -/
def escape (s : Str) : Str := s.flatMap fun c => if c = '\\' then ['\\', '\\'] else [c]

/-- The literals and the text of the expression, semantic.go:886-905. -/
def Val.lits : Val → List Lit
  | .str l => [l]
  | .strs ls => ls
  | .other => []

def Val.text : Val → Str
  | .str l => escape l.value
  | .strs ls => escape (joinWith '\n' (ls.map fun l => trimSpace l.value))
  | .other => escape []

/-- `inspectCelExpr`, semantic.go:883-968. -/
def inspectCelExpr (parse : Str → Option (List Expr)) : List Elem → Option (List Tok × List Lit)
  | [] => some ([], [])
  | e :: es =>
    match e.name with
    | none => none
    | some n =>
      if n = kwExpression then
        match parse e.val.text with
        | none => if e.val.lits = [] then none else inspectCelExpr parse es
        | some exprs => (celTokens e.val.lits exprs).map fun ts => (ts, e.val.lits)
      else inspectCelExpr parse es

/-- A message literal, semantic.go:600-623: with fields `id` and `expression` it is taken for a CEL rule. -/
def messageLiteral (parse : Str → Option (List Expr)) (es : List Elem) : Option (List Tok × List Lit) :=
  if (es.any fun e => e.name = some kwExpression) && (es.any fun e => e.name = some kwId) then inspectCelExpr parse es
  else some ([], [])

end Verif.CelTokens
