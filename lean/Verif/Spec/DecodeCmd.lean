import Verif.Model.DecodeCmd

/-!
# What the decode command should print
-/
namespace Verif.DecodeCmd

open Verif.Decode

/-- All messages of the files, at any depth. -/
def declared (files : List (List TopMsg)) (m : Msg) : Prop :=
  ∃ f ∈ files, ∃ t ∈ f, m = t.msg ∨ m ∈ t.nested

/-- A message at the top level of a file. -/
def topLevel (files : List (List TopMsg)) (m : Msg) : Prop := ∃ f ∈ files, ∃ t ∈ f, m = t.msg

/-- How well a message fits a query: 1 full name, 2 name, 3 contained in the full name, disregarding
case. -/
def Fits (lower : Str → Str) (q : Str) (m : Msg) : Nat → Prop
  | 1 => m.fullName = q
  | 2 => m.name = q
  | 3 => lower q <:+: lower m.fullName
  | _ => False

/-- A message at the top level fits a query best: in a way in which no other fits better. -/
def Best (lower : Str → Str) (q : Str) (files : List (List TopMsg)) (m : Msg) : Prop :=
  topLevel files m ∧ ∃ n, Fits lower q m n ∧ ∀ m' n', topLevel files m' → n' < n → ¬ Fits lower q m' n'

variable {V T : Type}

/-- The text of a value in the formats of the command. -/
inductive Format (env : Env V T) (v : V) : Str → Str → Prop
  | text : Format env v "text".toList (env.text v)
  | json : Format env v "json".toList (env.json v)

end Verif.DecodeCmd
