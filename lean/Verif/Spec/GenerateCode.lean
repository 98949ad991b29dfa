import Verif.Model.GenerateCode
import Verif.Spec.GoPath
/-!
# Which files `GenerateCode` is to generate, and where they go
-/
namespace Verif.GenerateCode

open Verif.GoPath

/-- The directory of a document, as a place on the disk. -/
def home (f : Str) : List Str := (place f).dropLast

/-- The place of a search directory: relative paths begin at the working directory. -/
def root (wd dir : Str) : List Str := if dir.head? = some '/' then place dir else FindFile.walk (place wd) (splitOn '/' dir)

/-- The document is in the directory or in one below it. -/
def Below (wd f dir : Str) : Prop := root wd dir <+: home f

/-- Documents have absolute paths, import paths are names separated by slashes, and documents with import paths in one
directory are in one directory. -/
structure Sane (ds : List Desc) : Prop where
  file : ∀ d ∈ ds, ∀ f, d.file = some f → f.head? = some '/' ∧ ∃ a b, f = a ++ '/' :: b ∧ Name b
  path : ∀ d ∈ ds, ∃ k x, In k x d.path
  one : ∀ d ∈ ds, ∀ e ∈ ds, ∀ f g k x y, d.file = some f → e.file = some g → In k x d.path → In k y e.path → home f = home g

/-- The last name of the directory `s` is only the beginning of a name on the way to `l`: a sibling of the directory. -/
def Sibling (s l : List Str) : Prop := ∃ init x y rest, y ≠ [] ∧ s = init ++ [x] ∧ l = init ++ (x ++ y) :: rest

end Verif.GenerateCode
