/-!
# Specification: the value of a protobuf string literal

The protobuf language specification: a literal is enclosed in `"` or `'`; a backslash starts an
escape: `\a \b \f \n \r \t \v \? \\ \' \"`, one to three octal digits, `\x` with one or two hexadecimal
digits, `\u` with four or `\U` with eight hexadecimal digits (a Unicode code point). A newline or a
zero byte inside the literal is an error. Text is a list of bytes.
-/
namespace Verif.Literal

abbrev Bytes := List Nat

/-- UTF-8 encoding of a code point. -/
def utf8 (r : Nat) : Bytes :=
  if r < 0x80 then [r]
  else if r < 0x800 then [0xC0 + r / 64, 0x80 + r % 64]
  else if r < 0x10000 then [0xE0 + r / 4096, 0x80 + r / 64 % 64, 0x80 + r % 64]
  else [0xF0 + r / 262144, 0x80 + r / 4096 % 64, 0x80 + r / 64 % 64, 0x80 + r % 64]

/-- Value of an octal digit. -/
def octVal (c : Nat) : Option Nat := if 48 ≤ c ∧ c ≤ 55 then some (c - 48) else none

/-- Value of a hexadecimal digit. -/
def hexVal (c : Nat) : Option Nat :=
  if 48 ≤ c ∧ c ≤ 57 then some (c - 48)
  else if 65 ≤ c ∧ c ≤ 70 then some (c - 55)
  else if 97 ≤ c ∧ c ≤ 102 then some (c - 87)
  else none

/-- Reads at most `max` digits: the value and the number of digits. -/
def digits (val : Nat → Option Nat) (base : Nat) : Nat → Nat → Bytes → Nat × Nat
  | 0, acc, _ => (acc, 0)
  | _ + 1, acc, [] => (acc, 0)
  | max + 1, acc, c :: s =>
    match val c with
    | none => (acc, 0)
    | some d =>
      let r := digits val base max (base * acc + d) s
      (r.1, r.2 + 1)

/-- The character of a one-letter escape. -/
def simple (c : Nat) : Option Nat :=
  if c = 97 then some 7 else if c = 98 then some 8 else if c = 102 then some 12
  else if c = 110 then some 10 else if c = 114 then some 13 else if c = 116 then some 9
  else if c = 118 then some 11 else if c = 63 then some 63 else if c = 92 then some 92
  else if c = 39 then some 39 else if c = 34 then some 34 else none

/-- An escape, after the backslash: its bytes and its length. -/
def escape : Bytes → Option (Bytes × Nat)
  | [] => none
  | c :: s =>
    match simple c with
    | some b => some ([b], 1)
    | none =>
      if (octVal c).isSome then
        let r := digits octVal 8 3 0 (c :: s)
        if r.1 < 256 then some ([r.1], r.2) else none
      else if c = 120 then
        let r := digits hexVal 16 2 0 s
        if r.2 = 0 then none else some ([r.1], r.2 + 1)
      else if c = 117 then
        let r := digits hexVal 16 4 0 s
        if r.2 = 4 then some (utf8 r.1, 5) else none
      else if c = 85 then
        let r := digits hexVal 16 8 0 s
        if r.2 = 8 ∧ r.1 < 0x110000 then some (utf8 r.1, 9) else none
      else none

/-- The rest of a literal after the opening quote `q`. -/
def body (q : Nat) : Bytes → Option Bytes
  | [] => none
  | c :: s =>
    if c = q then (if s = [] then some [] else none)
    else if c = 10 ∨ c = 0 then none
    else if c ≠ 92 then (body q s).map (c :: ·)
    else match escape s with
      | none => none
      | some (b, n) => (body q (s.drop n)).map (b ++ ·)
termination_by s => s.length
decreasing_by
  all_goals simp only [List.length_drop, List.length_cons]
  all_goals omega

/-- The value of a literal. -/
def value : Bytes → Option Bytes
  | [] => none
  | q :: s => if q = 34 ∨ q = 39 then body q s else none

end Verif.Literal
