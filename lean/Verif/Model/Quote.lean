import Verif.Spec.Literal
/-!
# Model of the literals of the descriptor printer

/repo/pkg/format/protoprint/print.go:2077-2163. A Go string is a list of bytes.
-/
namespace Verif.Quote
open Verif.Literal (Bytes)

/-- `fmt.Fprintf("\\%03o", c)` for a byte. -/
def octEscape (c : Nat) : Bytes := [92, 48 + c / 64, 48 + c / 8 % 8, 48 + c % 8]

/-- A digit of `%X`. -/
def hexDigit (d : Nat) : Nat := if d < 10 then 48 + d else 55 + d

/-- `%04X` of a number below 65536. -/
def hex4 (n : Nat) : Bytes :=
  [hexDigit (n / 4096), hexDigit (n / 256 % 16), hexDigit (n / 16 % 16), hexDigit (n % 16)]

/-- `%08X` of a number below 2^32. -/
def hex8 (n : Nat) : Bytes := hex4 (n / 65536) ++ hex4 (n % 65536)

/-- The cases shared by both functions, print.go:2085-2095 and 2132-2142. -/
def special (c : Nat) : Option Bytes :=
  if c = 10 then some [92, 110]
  else if c = 13 then some [92, 114]
  else if c = 9 then some [92, 116]
  else if c = 34 then some [92]
  else if c = 92 then some [92, 92]
  else none

/-- One byte, print.go:2085-2102. -/
def quoteByte (c : Nat) : Bytes :=
  match special c with
  | some b => b
  | none => if 0x20 ≤ c ∧ c < 0x7f then [c] else octEscape c

/-- `quotedBytes`, print.go:2077-2107. -/
def quotedBytes (s : Bytes) : Bytes := 34 :: s.flatMap quoteByte ++ [34]

/-- A continuation byte in the given range. -/
def within (lo hi : Nat) (b : Nat) : Bool := decide (lo ≤ b) && decide (b ≤ hi)

/-- `utf8.DecodeRuneInString` (Go standard library) of a non-empty string: the rune and its width, or
`none` for an invalid first byte (`RuneError` of width 1). -/
def decodeRune (b0 : Nat) (s : Bytes) : Option (Nat × Nat) :=
  if b0 < 0x80 then some (b0, 1)
  else if within 0xC2 0xDF b0 then
    match s with
    | b1 :: _ => if within 0x80 0xBF b1 then some ((b0 - 0xC0) * 64 + (b1 - 0x80), 2) else none
    | _ => none
  else if within 0xE0 0xEF b0 then
    match s with
    | b1 :: b2 :: _ =>
      let lo := if b0 = 0xE0 then 0xA0 else 0x80
      let hi := if b0 = 0xED then 0x9F else 0xBF
      if within lo hi b1 && within 0x80 0xBF b2 then
        some ((b0 - 0xE0) * 4096 + (b1 - 0x80) * 64 + (b2 - 0x80), 3) else none
    | _ => none
  else if within 0xF0 0xF4 b0 then
    match s with
    | b1 :: b2 :: b3 :: _ =>
      let lo := if b0 = 0xF0 then 0x90 else 0x80
      let hi := if b0 = 0xF4 then 0x8F else 0xBF
      if within lo hi b1 && within 0x80 0xBF b2 && within 0x80 0xBF b3 then
        some ((b0 - 0xF0) * 262144 + (b1 - 0x80) * 4096 + (b2 - 0x80) * 64 + (b3 - 0x80), 4) else none
    | _ => none
  else none

/-- One rune, print.go:2132-2156; `isPrint` is `unicode.IsPrint`. -/
def quoteRune (isPrint : Nat → Bool) (r : Nat) : Bytes :=
  match special r with
  | some b => b
  | none =>
    if isPrint r then Literal.utf8 r
    else if r > 0xffff then 92 :: 85 :: hex8 r
    else if r > 0x7F then 92 :: 117 :: hex4 r
    else octEscape r

/-- The loop of `quotedString`, print.go:2117-2158. -/
def quoteRunes (isPrint : Nat → Bool) : Bytes → Bytes
  | [] => []
  | b0 :: s =>
    match decodeRune b0 s with
    | none => octEscape b0 ++ quoteRunes isPrint s
    | some (r, n) => quoteRune isPrint r ++ quoteRunes isPrint (s.drop (n - 1))
termination_by s => s.length
decreasing_by
  all_goals simp only [List.length_drop, List.length_cons]
  all_goals omega

/-- `quotedString`, print.go:2112-2163. -/
def quotedString (isPrint : Nat → Bool) (s : Bytes) : Bytes := 34 :: quoteRunes isPrint s ++ [34]

end Verif.Quote
