import Verif.Spec.Literal
/-!
# Model of the string literals of the formatter

/repo/pkg/format/formatter.go:1768-1782 (`writeStringLiteral`). A Go string is a list of bytes. The
conversion to runes and back is the identity: the text of a literal is valid UTF-8 (the lexer reports an
error otherwise).
-/
namespace Verif.Requote
open Verif.Literal (Bytes)

/-- The text that is written for the text of a literal; 39 is `'`, 34 is `"`. -/
def requote (raw : Bytes) : Bytes :=
  if raw.length > 1 ∧ raw.head? = some 39 ∧ raw.getLast? = some 39 then 34 :: raw.tail.dropLast ++ [34]
  else raw

end Verif.Requote
