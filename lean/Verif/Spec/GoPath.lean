import Verif.Spec.FindFile
/-!
# Which file an absolute path leads to
-/
namespace Verif.GoPath

open Verif.FindFile (walk plain)

/-- The names on the way from the root to the file with an absolute path (without symbolic links). -/
def place (p : Str) : List Str := walk [] (splitOn '/' p)

/-- The clean absolute path of a place. -/
def pathOf (l : List Str) : Str := '/' :: joinWith '/' l

/-- A name of a file: not empty, not `.` or `..`, without slash. -/
def Name (b : Str) : Prop := plain b ∧ '/' ∉ b

/-- The parts of a path in which every part is a name. -/
def Names (p : Str) : Prop := ∀ part ∈ splitOn '/' p, plain part

/-- `p` is the file `b` in the directory `k`, where `.` stands for the directory that paths are relative to. -/
def In (k b p : Str) : Prop := Name b ∧ (Names k ∧ p = k ++ '/' :: b ∨ k = ['.'] ∧ p = b)

end Verif.GoPath
