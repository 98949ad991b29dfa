import Verif.Util.Str
/-!
# Model of Go names derived from proto names

/repo/pkg/x/protogen/strs/strs.go:16-87. A string is a list of characters; for `GoCamelCase`, which
works on bytes, this makes no difference, since only ASCII characters are treated specially.
-/
namespace Verif.GoNames

/-- `isASCIILower`, strs.go:77-79. -/
def isLower (c : Char) : Bool := decide ('a' ≤ c) && decide (c ≤ 'z')

/-- `isASCIIDigit`, strs.go:85-87. -/
def isDigit (c : Char) : Bool := decide ('0' ≤ c) && decide (c ≤ '9')

/-- `c -= 'a' - 'A'` for a lower-case letter. -/
def upper (c : Char) : Char := if isLower c then Char.ofNat (c.toNat - 32) else c

/-- The next character is a lower-case letter. -/
def nextLower : Str → Bool
  | [] => false
  | d :: _ => isLower d

/-- The loop of `GoCamelCase`, strs.go:45-73. `prev` is the character before, if there is one; `word`
tells that the inner loop (strs.go:69-71) is accepting lower-case letters. -/
def camel : Option Char → Bool → Str → Str
  | _, _, [] => []
  | prev, word, c :: s =>
    if word && isLower c then c :: camel (some c) true s
    else if c = '.' && nextLower s then camel (some c) false s
    else if c = '.' then '_' :: camel (some c) false s
    else if c = '_' && (decide (prev = none) || decide (prev = some '.')) then 'X' :: camel (some c) false s
    else if c = '_' && nextLower s then camel (some c) false s
    else if isDigit c then c :: camel (some c) false s
    else upper c :: camel (some c) true s

/-- `GoCamelCase`, strs.go:39-75. -/
def goCamelCase (s : Str) : Str := camel none false s

/-- `GoSanitized`, strs.go:16-33. `isLetter`, `isUDigit` are `unicode.IsLetter` and `unicode.IsDigit`,
`isKeyword` is `token.Lookup(s).IsKeyword()`. -/
def goSanitized (isLetter isUDigit : Char → Bool) (isKeyword : Str → Bool) (s : Str) : Str :=
  let t := s.map fun r => if isLetter r || isUDigit r then r else '_'
  match t with
  | [] => ['_']
  | r :: _ => if isKeyword t || !isLetter r then '_' :: t else t

end Verif.GoNames
