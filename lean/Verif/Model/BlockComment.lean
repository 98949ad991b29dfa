import Verif.Model.FormatWriter
/-!
# Model of comments written on lines of their own

/repo/pkg/format/formatter.go:2320-2476 (`writeComment`, `isCommentPrefix`, `unindent`,
`computeIndent`). `pfx` stands for `isCommentPrefix` of the first byte of a character together with that
byte: it depends on `unicode.IsLetter` and `unicode.IsNumber`.
-/
namespace Verif.BlockComment
open Verif.FormatWriter

/-- The end of a block comment. -/
def closing : Str := ['*', '/']

/-- The loop of `computeIndent`, formatter.go:2462-2473. -/
def indentLoop (indent : Nat) : Str → Option Nat
  | [] => none
  | r :: s =>
    if r = ' ' then indentLoop (indent + 1) s
    else if r = '\t' then indentLoop (indent + (8 - indent % 8)) s
    else some indent

/-- `computeIndent`, formatter.go:2458-2476. -/
def computeIndent (s : Str) : Option Nat := if trimSpace s = closing then none else indentLoop 0 s

/-- The loop of `unindent`, formatter.go:2434-2455. -/
def unindentLoop (target pos : Nat) : Str → Str
  | [] => []
  | r :: s =>
    if pos = target then r :: s
    else if pos > target then List.replicate (pos - target) ' ' ++ r :: s
    else if r = ' ' then unindentLoop target (pos + 1) s
    else if r = '\t' then unindentLoop target (pos + (8 - pos % 8)) s
    else r :: s

/-- `unindent`, formatter.go:2432-2456. -/
def unindent (s : Str) (n : Nat) : Str := unindentLoop n 0 s

/-- The minimum of the indentation of the lines, formatter.go:2329-2332. -/
def stepMin (min : Option Nat) (line : Str) : Option Nat :=
  match computeIndent line, min with
  | some n, none => some n
  | some n, some m => if n < m then some n else some m
  | none, m => m

/-- The common prefix of the lines, formatter.go:2333-2351; `i` is the index of the line. -/
def stepPrefix (pfx : Char → Option Nat) (i : Nat) (prefix' : Option Nat) (line : Str) : Option Nat :=
  if i > 1 ∧ prefix' = none then prefix'
  else if trimSpace line = closing then prefix'
  else
    let linePrefix := (trimSpace line).head?.bind pfx
    if i = 1 then linePrefix else if linePrefix ≠ prefix' then none else prefix'

/-- The loop over the lines, formatter.go:2328-2352. -/
def scan (pfx : Char → Option Nat) (i : Nat) (min prefix' : Option Nat) : List Str → Option Nat × Option Nat
  | [] => (min, prefix')
  | l :: ls => scan pfx (i + 1) (stepMin min l) (stepPrefix pfx i prefix' l) ls

/-- How a line is written, formatter.go:2358-2403; `first` says that it is the first line. -/
def formatLine (min : Nat) (prefix' : Option Nat) (first : Bool) (line : Str) : Str :=
  let line1 := if trimSpace line = [] ∨ trimSpace line = closing ∨ prefix' ≠ none then trimSpace line
    else trimRight (unindent line min)
  let line2 := if first = false ∧ line1 ≠ closing then
      (if prefix' = none then [' ', ' ', ' '] ++ line1 else ' ' :: line1) else line1
  if line2 = closing ∧ prefix' = some 42 then ' ' :: line2 else line2

/-- The loop that writes the lines after the first one, formatter.go:2405-2412. -/
def writeRest (min : Nat) (prefix' : Option Nat) (st : St) : List Str → St
  | [] => st
  | [l] => write (indentation st none) (formatLine min prefix' false l)
  | l :: ls => writeRest min prefix' (P st (formatLine min prefix' false l)) ls

/-- A comment of several lines, formatter.go:2321-2413. -/
def writeLines (pfx : Char → Option Nat) (st : St) : List Str → St
  | [] => st
  | l :: ls =>
    let r := scan pfx 1 none none ls
    let min := r.1.getD 0
    writeRest min r.2 (P st (formatLine min r.2 true l)) ls

/-- `writeComment`, formatter.go:2320-2418. -/
def writeComment (pfx : Char → Option Nat) (st : St) (comment : Str) : St :=
  if ['/', '*'].isPrefixOf comment ∧ '\n' ∈ comment then writeLines pfx st (splitOn '\n' comment)
  else write (indentation st none) (trimSpace comment)

end Verif.BlockComment
