import Verif.Util.Str
/-!
# Specification: the tokens of a protobuf source text

The lexical structure of the language: identifiers, numbers (in the way of the usual lexers: a digit, or a dot and a
digit, and what follows of letters, digits, dots, and signs after an `e`), string literals with escapes, and single
characters; white space and comments separate tokens.
-/
namespace Verif.Lexer

/-- What has been read of the current token. -/
inductive Mode where
  | idle
  | ident (a : Str)
  | num (a : Str)
  | dot
  | str (q : Char) (a : Str)
  | esc (q : Char) (a : Str)
  | slash
  | line
  | block
  | star
deriving DecidableEq, Repr

def letter (c : Char) : Bool := c.isAlpha || c == '_'
def digit (c : Char) : Bool := c.isDigit
def isQuote (c : Char) : Bool := c == '"' || c == '\''

/-- Whether a number goes on with the character. -/
def numMore (a : Str) (c : Char) : Bool :=
  letter c || digit c || c == '.' || ((c == '+' || c == '-') && (a.getLast? == some 'e' || a.getLast? == some 'E'))

/-- A character at the start of a token: the tokens that are complete now, and the new mode. -/
def fresh (c : Char) : List Str × Mode :=
  if isSpace c then ([], .idle)
  else if letter c then ([], .ident [c])
  else if digit c then ([], .num [c])
  else if c = '.' then ([], .dot)
  else if isQuote c then ([], .str c [c])
  else if c = '/' then ([], .slash)
  else ([[c]], .idle)

def emit (t : Str) (c : Char) : List Str × Mode := (t :: (fresh c).1, (fresh c).2)

/-- One character. -/
def step : Mode → Char → List Str × Mode
  | .idle, c => fresh c
  | .ident a, c => if letter c || digit c then ([], .ident (a ++ [c])) else emit a c
  | .num a, c => if numMore a c then ([], .num (a ++ [c])) else emit a c
  | .dot, c => if digit c then ([], .num ['.', c]) else emit ['.'] c
  | .str q a, c =>
    if c = '\\' then ([], .esc q (a ++ [c]))
    else if c = q then ([a ++ [c]], .idle)
    else ([], .str q (a ++ [c]))
  | .esc q a, c => ([], .str q (a ++ [c]))
  | .slash, c => if c = '/' then ([], .line) else if c = '*' then ([], .block) else emit ['/'] c
  | .line, c => if c = '\n' then ([], .idle) else ([], .line)
  | .block, c => if c = '*' then ([], .star) else ([], .block)
  | .star, c => if c = '/' then ([], .idle) else if c = '*' then ([], .star) else ([], .block)

/-- A text. -/
def lexFrom : Mode → Str → List Str × Mode
  | m, [] => ([], m)
  | m, c :: s => ((step m c).1 ++ (lexFrom (step m c).2 s).1, (lexFrom (step m c).2 s).2)

/-- The token at the end of the text; a string or block comment that is not closed is a token of its own. -/
def done : Mode → List Str
  | .idle => []
  | .ident a => [a]
  | .num a => [a]
  | .dot => [['.']]
  | .str _ a => [a]
  | .esc _ a => [a]
  | .slash => [['/']]
  | .line => []
  | .block => [['/', '*']]
  | .star => [['/', '*']]

/-- The tokens of a text. -/
def lex (s : Str) : List Str := (lexFrom .idle s).1 ++ done (lexFrom .idle s).2

end Verif.Lexer
