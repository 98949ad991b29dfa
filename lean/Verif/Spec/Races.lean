import Verif.Model.Races

/-!
# Data races
-/
namespace Verif.Races

/-- The access that request `i` is in the middle of. -/
def accessing (s : State) (i : Nat) (a : Act) : Prop :=
  ∃ t, s.threads[i]? = some t ∧ t.busy = true ∧ t.prog.head? = some a

/-- Two requests access `v` at the same time and at least the first of them changes it. -/
def Race (s : State) (v : Var) (i j : Nat) : Prop :=
  i ≠ j ∧ accessing s i (.write v) ∧ (accessing s j (.read v) ∨ accessing s j (.write v))

/-- The request `i` is of kind `k`. -/
def IsKind (log : List Event) (i : Nat) (k : Kind) : Prop :=
  (log.filterMap (fun e => match e with | .arrive k => some k | _ => none))[i]? = some k

/-- The requests that access the data without the mutex that belongs to it. -/
def Careless : Var → Kind → Prop
  | .caches, .symbol _ => True
  | .caches, .shutdown _ => True
  | .results c, .completion _ d _ => c = d
  | .paths c, .cmdGenerate _ d _ => c = d
  | .paths c, .cmdGenerateWorkspace d _ => c = d
  | _, _ => False

/-- The requests that are commands (`workspace/executeCommand`). -/
inductive Kind.IsCommand : Kind → Prop
  | synthetic (cs c) : IsCommand (.cmdSynthetic cs c)
  | ast (cs c) : IsCommand (.cmdAst cs c)
  | reindex (n fs) : IsCommand (.cmdReindex n fs)
  | refresh (n) : IsCommand (.cmdRefresh n)
  | generated (cs c) : IsCommand (.cmdGenerated cs c)
  | generate (cs c n) : IsCommand (.cmdGenerate cs c n)
  | generateWorkspace (c n) : IsCommand (.cmdGenerateWorkspace c n)

end Verif.Races
