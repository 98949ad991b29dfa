import Verif.Util.Str
/-!
# Model of `Printer.printComment`

/repo/pkg/format/protoprint/print.go:2622-2732. The model returns the text passed to the writer in one
piece (what the writer does with it is modelled in `Model/PrintWriter.lean`).
-/
namespace Verif.PrintComment

/-- The outcome: a crash (index out of range), or the text and the returned flag. -/
inductive Out where
  | panic
  | ok (text : Str) (endsInNewline : Bool)
deriving DecidableEq, Repr

/-- The options of the printer and the state of the writer used here: `PreferMultiLineStyleComments`,
`Indent`, and the flags `newline` and `space` of the writer. -/
structure Cfg where
  preferMulti : Bool
  indent : Str
  newline : Bool
  space : Bool
deriving DecidableEq, Repr

/-- `inline`, print.go:1727-1734. -/
def inline (indent : Int) : Int := if indent < 0 then indent else -indent - 2

/-- `Printer.indent`, print.go:2721-2725. -/
def indentText (cfg : Cfg) (n : Int) : Str := (List.replicate n.toNat cfg.indent).flatten

/-- `Printer.maybeIndent`, print.go:2727-2733. -/
def maybeIndent (cfg : Cfg) (n : Int) (require : Bool) : Str :=
  if n < 0 ∧ require = true then indentText cfg (-n) else indentText cfg n

/-- `strings.TrimRight(l, " \t")` -/
def trimRight (l : Str) : Str := (l.reverse.dropWhile (fun c => decide (c = ' ' ∨ c = '\t'))).reverse

/-- Whether the multi-line style is used, print.go:2627-2637. -/
def useMulti (cfg : Cfg) (indent : Int) (comments : Str) : Bool :=
  (if indent < 0 then true else cfg.preferMulti) && !decide (['*', '/'] <:+: comments)

/-- Removes an empty first line, print.go:2642-2644. -/
def dropFirst : List Str → List Str
  | [] => []
  | l :: ls => if l = [] then ls else l :: ls

/-- Removes an empty last line, print.go:2645-2647. -/
def dropLast (ls : List Str) : List Str := if ls.getLast? = some [] then ls.dropLast else ls

/-- The lines that are printed, print.go:2639-2647. -/
def commentLines (comments : Str) : List Str := dropLast (dropFirst (splitOn '\n' comments))

/-- print.go:2652-2665: text written before the comment, and the new indentation. -/
def lead (cfg : Cfg) (indent : Int) (force : Bool) (lines : List Str) : Str × Int :=
  if indent ≥ 0 ∧ cfg.newline = false then
    if force = true ∨ lines.length > 1 then (['\n'], indent)
    else ((if cfg.space then [] else [' ']), inline indent)
  else ([], indent)

/-- print.go:2688-2690: a blank is put before the text of a line. -/
def spaced (l : Str) : Str := if l ≠ [] ∧ l.head? ≠ some ' ' then ' ' :: l else l

/-- The lines of a multi-line comment between the first and the last, print.go:2707-2709. -/
def middle (cfg : Cfg) (indent : Int) (l : Str) : Str :=
  maybeIndent cfg indent true ++ [' ', '*'] ++ trimRight (spaced l) ++ ['\n']

/-- A comment over several lines in multi-line style, print.go:2679-2709: the list of lines is
extended by an empty first and an empty last line. -/
def multi (cfg : Cfg) (indent : Int) (lines : List Str) : Str :=
  maybeIndent cfg indent false ++ ['/', '*', '\n'] ++ lines.flatMap (middle cfg indent) ++
    maybeIndent cfg indent true ++ [' ', '*', '/'] ++ (if indent ≥ 0 then ['\n'] else [])

/-- One `//` line, print.go:2710-2712. -/
def single (cfg : Cfg) (indent : Int) (require : Bool) (l : Str) : Str :=
  maybeIndent cfg indent require ++ ['/', '/'] ++ trimRight (spaced l) ++ ['\n']

/-- The `//` lines. -/
def singles (cfg : Cfg) (indent : Int) : List Str → Str
  | [] => []
  | l :: ls => single cfg indent false l ++ ls.flatMap (single cfg indent true)

/-- `printComment`, print.go:2622-2719. -/
def printComment (cfg : Cfg) (comments : Str) (indent : Int) (force : Bool) : Out :=
  if comments = [] then .ok [] false
  else
    let m := useMulti cfg indent comments
    let lines := commentLines comments
    if lines.length = 0 then .ok [] false
    else
      let (pre, ind) := lead cfg indent force lines
      match lines, m with
      | [[]], true => .panic
      | [c :: l], true =>
        let line := if c = ' ' ∧ (c :: l).getLast? ≠ some ' ' then (c :: l) ++ [' '] else c :: l
        .ok (pre ++ indentText cfg ind ++ ['/', '*'] ++ line ++ ['*', '/'] ++ (if ind ≥ 0 then ['\n'] else []))
          (decide (ind ≥ 0))
      | ls, true => .ok (pre ++ multi cfg ind ls) (decide (ind ≥ 0))
      | ls, false => .ok (pre ++ singles cfg ind ls) true

end Verif.PrintComment
