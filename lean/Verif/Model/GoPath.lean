import Verif.Model.FindFile
/-!
# Paths as strings

Package `path` of the Go standard library (`Clean`, `Split`, `Dir`, `Base`, `Join`), and the functions of package `filepath`
with the same names on systems where the separator is `/`. The library is not part of /repo; the definitions follow its
documentation and implementation.
-/
namespace Verif.GoPath

open Verif.FindFile (cleanAux)

/-- `path.Split`: everything up to the last slash, and the rest. -/
def split (p : Str) : Str × Str :=
  match lastIndexChar '/' p with
  | some i => (p.take (i + 1), p.drop (i + 1))
  | none => ([], p)

/-- `path.Clean`. -/
def clean (p : Str) : Str :=
  if p.head? = some '/' then '/' :: joinWith '/' (cleanAux true [] (splitOn '/' p))
  else
    match cleanAux false [] (splitOn '/' p) with
    | [] => ['.']
    | l => joinWith '/' l

/-- `path.Dir`. -/
def dirOf (p : Str) : Str := clean (split p).1

/-- The path without the slashes at its end. -/
def trimSlashes (p : Str) : Str := (p.reverse.dropWhile (· == '/')).reverse

/-- `path.Base`. -/
def baseOf (p : Str) : Str :=
  if p = [] then ['.']
  else
    match (split (trimSlashes p)).2 with
    | [] => ['/']
    | b => b

/-- `path.Join` of two paths. -/
def join (a b : Str) : Str :=
  if a = [] then (if b = [] then [] else clean b)
  else if b = [] then clean a
  else clean (a ++ '/' :: b)

end Verif.GoPath
