import Verif.Model.Versions

/-! Vocabulary of the properties C01-C03: it only talks about observed events. -/
namespace Verif.Versions

/-- All modifications processed in a trace, oldest first. -/
def mods (es : List Event) : List Mod :=
  es.flatMap fun e => match e with
    | .update ms => ms
    | _ => []

/-- A modification with version `k` lets through a wait for `v`. -/
def Satisfies (k v : Int) : Prop := v ≤ k ∨ k = -1

/-- Version of the last modification of `u` in a trace. -/
def lastVersion (es : List Event) (u : Uri) : Option Int :=
  (((mods es).filter (·.uri = u)).getLast?).map (·.version)

/-- The last modification of `u` in `es` satisfies `v`. -/
def SatLast (es : List Event) (u : Uri) (v : Int) : Prop :=
  ∃ k, lastVersion es u = some k ∧ Satisfies k v

/-- Some modification of `u` in `es` satisfies `v`. -/
def SatSome (es : List Event) (u : Uri) (v : Int) : Prop :=
  ∃ m ∈ mods es, m.uri = u ∧ Satisfies m.version v

end Verif.Versions
