import Verif.Model.FmtCmd
/-!
# Specification: formatting files

What the files shall be after all arguments have been formatted, and which errors there are.
-/
namespace Verif.FmtCmd

variable {α E : Type}

/-- The content of a file after it has been formatted; it is unchanged if it cannot be formatted. -/
def formatted (fmt : List α → Result α E) (c : List α) : List α :=
  match fmt c with
  | .ok new => new
  | _ => c

/-- The files after the command. -/
def wanted (fmt : List α → Result α E) (args : List Nat) (files : Nat → Option (List α)) (i : Nat) : Option (List α) :=
  if i ∈ args then (files i).map (formatted fmt) else files i

/-- What is wrong with a file. -/
def failure (fmt : List α → Result α E) (files : Nat → Option (List α)) (i : Nat) : Option (Err E) :=
  match files i with
  | none => some .missing
  | some c => match fmt c with
    | .error e => some (.format e)
    | _ => none

end Verif.FmtCmd
