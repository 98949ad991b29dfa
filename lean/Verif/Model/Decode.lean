import Verif.Util.Str
/-!
# Model of the decode command

/repo/pkg/protols/commands/decode.go:91-137 (`decodeWithType`), 181-216 (`looksLikeBase64`,
`readMaybeBase64AndTrim`). Bytes are numbers. The codecs of `encoding/base64` and `bytes.TrimSpace` are
part of the model, as the standard library documents them; reading the input does not fail.
-/
namespace Verif.Decode

/-! ### Input -/

/-- The UTF-8 encodings of the characters that `unicode.IsSpace` accepts. -/
def spaceSeqs : List (List Nat) :=
  [[9], [10], [11], [12], [13], [32], [0xC2, 0x85], [0xC2, 0xA0], [0xE1, 0x9A, 0x80],
   [0xE2, 0x80, 0x80], [0xE2, 0x80, 0x81], [0xE2, 0x80, 0x82], [0xE2, 0x80, 0x83], [0xE2, 0x80, 0x84], [0xE2, 0x80, 0x85],
   [0xE2, 0x80, 0x86], [0xE2, 0x80, 0x87], [0xE2, 0x80, 0x88], [0xE2, 0x80, 0x89], [0xE2, 0x80, 0x8A],
   [0xE2, 0x80, 0xA8], [0xE2, 0x80, 0xA9], [0xE2, 0x80, 0xAF], [0xE2, 0x81, 0x9F], [0xE3, 0x80, 0x80]]

/-- Removes one character of white space from the start; `rev` says that the text is reversed. -/
def dropSeq (rev : Bool) (s : List Nat) : Option (List Nat) :=
  spaceSeqs.findSome? fun w =>
    let w := if rev then w.reverse else w
    if w.isPrefixOf s then some (s.drop w.length) else none

/-- Removes the white space at the start; the fuel bounds the number of characters. -/
def dropSpaces (rev : Bool) : Nat → List Nat → List Nat
  | 0, s => s
  | n + 1, s =>
    match dropSeq rev s with
    | some t => dropSpaces rev n t
    | none => s

/-- `bytes.TrimSpace`. -/
def trimSpace (s : List Nat) : List Nat :=
  let t := dropSpaces false s.length s
  (dropSpaces true t.length t.reverse).reverse

/-- The value of a letter or digit in both alphabets of base64. -/
def alnum (c : Nat) : Option Nat :=
  if 65 ≤ c ∧ c ≤ 90 then some (c - 65)
  else if 97 ≤ c ∧ c ≤ 122 then some (c - 97 + 26)
  else if 48 ≤ c ∧ c ≤ 57 then some (c - 48 + 52)
  else none

/-- The value of a character; `url` selects the alphabet for URLs. -/
def value (url : Bool) (c : Nat) : Option Nat :=
  match alnum c with
  | some n => some n
  | none =>
    if c = (if url then 45 else 43) then some 62
    else if c = (if url then 95 else 47) then some 63
    else none

/-- Padding: `=`. -/
def pad : Nat := 61

/-- `looksLikeBase64`, decode.go:181-183: nothing is left after removing the characters from both ends. -/
def looksLikeBase64 (s : List Nat) : Bool := s.all fun c => (value false c).isSome || (value true c).isSome || c == pad

/-- `DecodeString` of an encoding without line breaks in the text: groups of four characters; the last group
may be shorter, with padding if `padded`. -/
def decode (url padded : Bool) : List Nat → Option (List Nat)
  | [] => some []
  | [_] => none
  | [a, b] =>
    if padded then none
    else match value url a, value url b with
      | some x, some y => some [x * 4 + y / 16]
      | _, _ => none
  | [a, b, c] =>
    if padded then none
    else match value url a, value url b, value url c with
      | some x, some y, some z => some [x * 4 + y / 16, y % 16 * 16 + z / 4]
      | _, _, _ => none
  | a :: b :: c :: d :: rest =>
    match value url a, value url b, value url c, value url d with
    | some x, some y, some z, some w =>
      match decode url padded rest with
      | some t => some ([x * 4 + y / 16, y % 16 * 16 + z / 4, z % 4 * 64 + w] ++ t)
      | none => none
    | some x, some y, some z, none =>
      if padded ∧ d = pad ∧ rest = [] then some [x * 4 + y / 16, y % 16 * 16 + z / 4] else none
    | some x, some y, none, none =>
      if padded ∧ c = pad ∧ d = pad ∧ rest = [] then some [x * 4 + y / 16] else none
    | _, _, _, _ => none

/-- The encodings in the order in which they are tried, decode.go:199-207. -/
def codecs (s : List Nat) : List (Bool × Bool) :=
  if s.getLast? = some pad then [(false, true), (true, true)]
  else [(false, true), (true, true), (false, false), (true, false)]

/-- `readMaybeBase64AndTrim`, decode.go:185-216; `none` is the error for no input. -/
def readInput (input : List Nat) : Option (List Nat) :=
  let s := trimSpace input
  if s = [] then none
  else if looksLikeBase64 s then
    some (((codecs s).findSome? fun e => decode e.1 e.2 s).getD s)
  else some s

/-! ### Message types -/

/-- A message: its full name and its name. -/
structure Msg where
  fullName : Str
  name : Str
deriving DecidableEq, Repr

/-- What `decodeWithType` does: it uses a message, asks the user, or fails. -/
inductive Choice where
  | use (m : Msg)
  | ask (ms : List Msg)
  | fail
deriving DecidableEq, Repr

/-- `strings.Contains`. -/
def contains (s sub : Str) : Bool := (List.range (s.length + 1)).any fun i => sub.isPrefixOf (s.drop i)

/-- The loop over the messages, decode.go:104-116; `lower` stands for `strings.ToLower`. -/
def scan (lower : Str → Str) (q : Str) (names parts : List Msg) : List Msg → Option Msg × List Msg × List Msg
  | [] => (none, names, parts)
  | m :: ms =>
    if m.fullName = q then (some m, names, parts)
    else if m.name = q then scan lower q (names ++ [m]) parts ms
    else if contains (lower m.fullName) (lower q) then scan lower q names (parts ++ [m]) ms
    else scan lower q names parts ms

/-- `decodeWithType`, decode.go:101-137, up to the choice of the message. -/
def select (lower : Str → Str) (q : Str) (msgs : List Msg) : Choice :=
  match scan lower q [] [] msgs with
  | (some m, _, _) => .use m
  | (none, [m], _) => .use m
  | (none, m :: m' :: ms, _) => .ask (m :: m' :: ms)
  | (none, [], [m]) => .use m
  | (none, [], m :: m' :: ms) => .ask (m :: m' :: ms)
  | (none, [], []) => .fail

end Verif.Decode
