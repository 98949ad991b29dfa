import Verif.Util.Str
/-!
# Model of the writer of the descriptor printer

/repo/pkg/format/protoprint/print.go:2735-2782. The underlying writer is assumed never to fail (it is
a buffer or a file; an error is remembered in `err` and nothing more is guaranteed).
-/
namespace Verif.PrintWriter

/-- `writer`, print.go:2735-2744; `out` is what has been written to the underlying writer. -/
structure Writer where
  out : Str := []
  space : Bool := false
  newline : Bool := true
deriving DecidableEq, Repr

/-- The pending blank, print.go:2753-2764: what is written before the text. -/
def pendingBlank (space : Bool) (c : Char) : Str :=
  if space then (if c ≠ ';' ∧ c ≠ ',' then [' '] else []) else []

/-- `Write`, print.go:2746-2782: the new state and the number of bytes reported. -/
def write (w : Writer) (p : Str) : Writer × Nat :=
  match p with
  | [] => (w, 0)
  | c :: p' =>
    let out := w.out ++ pendingBlank w.space c
    let space := decide (p.getLast? = some ' ')
    let q := if space then (c :: p').dropLast else c :: p'
    let newline := decide (q.getLast? = some '\n')
    (⟨out ++ q, space, newline⟩, q.length + if space then 1 else 0)

/-- A sequence of writes to a new writer. -/
def writeAll (ps : List Str) : Writer := ps.foldl (fun w p => (write w p).1) {}

end Verif.PrintWriter
