import Verif.Util.Trim
/-!
# Model of the low-level operations of the formatter

/repo/pkg/format/formatter.go:41-76 (state), 121-225 (`P`, `Space`, `In`, `Out`, `Indent`,
`WriteString`), 1826-1834 (`writeRune`). The underlying writer does not fail. Runes are characters;
`RuneError`, which `utf8.DecodeRuneInString` returns for the empty string, is U+FFFD.
-/
namespace Verif.FormatWriter

/-- The state of the formatter, formatter.go:41-76, with the text written so far; `failed` says that
`Out` reported an error. -/
structure St where
  out : Str := []
  indent : Nat := 0
  last : Char := '\x00'
  pendingSpace : Bool := false
  pendingIndent : Int := 0
  inline : Bool := false
  failed : Bool := false
deriving DecidableEq, Repr

/-- The characters after which a pending space is not written, formatter.go:204-208. -/
def prevBlock (inline : Bool) (c : Char) : Bool :=
  if inline then ['\x00', ' ', '\t', '\n', '<', '[', '{', '('].contains c
  else ['\x00', ' ', '\t', '\n'].contains c

/-- The characters before which a pending space is not written. -/
def nextBlock (inline : Bool) (c : Char) : Bool :=
  if inline then ['\n', ';', ',', ')', ']', '}', '>'].contains c
  else ['\n', ';', ','].contains c

/-- The first rune of a string. -/
def firstRune (s : Str) : Char := s.headD '�'

/-- What is written for a pending space before `elem`, formatter.go:189-217. -/
def spaceFor (st : St) (elem : Str) : Str :=
  if st.pendingSpace && !prevBlock st.inline st.last && !nextBlock st.inline (firstRune elem) then [' '] else []

/-- `WriteString`, formatter.go:188-224. -/
def write (st : St) (elem : Str) : St :=
  { st with
    out := st.out ++ spaceFor st elem ++ elem
    pendingSpace := false
    last := elem.getLast?.getD st.last }

/-- `Space`, formatter.go:145-147. -/
def space (st : St) : St := { st with pendingSpace := true }

/-- `In`, formatter.go:150-152. -/
def incr (st : St) : St := { st with indent := st.indent + 1 }

/-- `Out`, formatter.go:155-164. -/
def decr (st : St) : St := if st.indent = 0 then { st with failed := true } else { st with indent := st.indent - 1 }

/-- `Indent`, formatter.go:168-182; `next` is the rune of the next node, if it is a rune node. -/
def indentation (st : St) (next : Option Char) : St :=
  if st.last ≠ '\n' then st
  else
    let n := match next with
      | some c => if ['}', ']', ')', '>'].contains c then st.indent - 1 else st.indent
      | none => st.indent
    write st (List.replicate (2 * n) ' ')

/-- The end of `P`, formatter.go:136-141. -/
def settle (st : St) : St :=
  { (if st.pendingIndent > 0 then incr st else if st.pendingIndent < 0 then decr st else st) with pendingIndent := 0 }

/-- `P`, formatter.go:127-142. -/
def P (st : St) (elem : Str) : St :=
  settle (write (if trimSpace elem = [] then st else write (indentation st none) elem) ['\n'])

/-- The change of the pending indentation for a rune, formatter.go:1828-1832. -/
def weight (c : Char) : Int :=
  if ['{', '[', '(', '<'].contains c then 1 else if ['}', ']', ')', '>'].contains c then -1 else 0

/-- `writeRune`, formatter.go:1827-1834. -/
def writeRune (st : St) (c : Char) : St := write { st with pendingIndent := st.pendingIndent + weight c } [c]

/-- The operations of the formatter. -/
inductive Op where
  | write (s : Str)
  | space
  | line (s : Str)
  | incr
  | decr
  | indentation (next : Option Char)
  | rune (c : Char)
  | inline (b : Bool)
deriving DecidableEq

def apply (st : St) : Op → St
  | .write s => write st s
  | .space => space st
  | .line s => P st s
  | .incr => incr st
  | .decr => decr st
  | .indentation n => indentation st n
  | .rune c => writeRune st c
  | .inline b => { st with inline := b }

def run (st : St) (ops : List Op) : St := ops.foldl apply st

end Verif.FormatWriter
