import Verif.Model.Generate
import Verif.Spec.GoPath
/-!
# Where generated files belong
-/
namespace Verif.Generate

open Verif.GoPath

variable {Uri : Type}

/-- A requested document for which code is generated. -/
def Target (w : World Uri) (uris : List Uri) (u : Uri) : Prop :=
  u ∈ uris ∧ ∃ d, w.result u = some d ∧ d.package ≠ [] ∧ d.noGenerate = false

/-- The directory of the document, as a place on the disk. -/
def home (w : World Uri) (u : Uri) : List Str := (place (w.file u)).dropLast

/-- The code of the document may be generated into the directory `k` of the response: the directory of its import path, or its
`go_package` (without the name after the semicolon). -/
def Speaks (w : World Uri) (u : Uri) (k : Str) : Prop :=
  (∃ x, In k x (w.path u)) ∨ ∃ d g, w.result u = some d ∧ d.goPkg = some g ∧ ';' ∉ k ∧ (g = k ∨ ∃ x, g = k ++ ';' :: x)

/-- The documents are absolute paths of files. -/
def Absolute (w : World Uri) (uris : List Uri) : Prop :=
  ∀ u ∈ uris, (w.file u).head? = some '/' ∧ ∃ a b, w.file u = a ++ '/' :: b ∧ Name b

/-- The directories of the documents exist: everything on the way to them is a directory. -/
def DirsExist (w : World Uri) (uris : List Uri) (d : Disk) : Prop :=
  ∀ u ∈ uris, ∀ l, l <+: home w u → d.at_ (pathOf l) = some .dir

/-- A file in the directory of a document for which code is generated. -/
def Beside (w : World Uri) (uris : List Uri) (p : Str) : Prop :=
  ∃ u, Target w uris u ∧ ∃ b, Name b ∧ p = pathOf (home w u ++ [b])

/-- Import paths and names of generated files are names separated by slashes. -/
structure WellNamed (w : World Uri) (uris : List Uri) (files : List (Str × Str)) : Prop where
  paths : ∀ u ∈ uris, ∃ k x, In k x (w.path u)
  names : ∀ e ∈ files, ∃ k b, In k b e.1

/-- The path holds what it held before, or one of the contents. -/
def Whole (contents : List Str) (d0 d : Disk) (p : Str) : Prop :=
  d.at_ p = d0.at_ p ∨ ∃ c ∈ contents, d.at_ p = some (.file c)

/-- Nothing of the path is lost: it holds what it held before or one of the contents; or the file is new and has a beginning of
one of the contents; or there is a backup of what it held (before the command, or by the command). -/
def Recoverable (contents : List Str) (d0 d : Disk) (p : Str) : Prop :=
  Whole contents d0 d p ∨ (d0.at_ p = none ∧ ∃ c ∈ contents, ∃ t, t <+: c ∧ d.at_ p = some (.file t)) ∨
  ∃ t, (p, t) ∈ d.backups ∧ (d0.at_ p = some (.file t) ∨ t ∈ contents)

/-- Nothing fails. -/
def Fine (c : Call) : Prop := c = {}

end Verif.Generate
