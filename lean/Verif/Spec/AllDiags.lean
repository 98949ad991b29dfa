import Verif.Model.AllDiags
import Verif.Props.Diagnostics

/-!
# What a report of all diagnostics has to say
-/
namespace Verif.AllDiags

open Diagnostics (Path Severity)

/-- A report of the compiler: the error, whether it was reported as a warning, and the values of the pragma `debug` of its file at the
times when it was published since. -/
structure Entry where
  err : Err
  warning : Bool
  published : List (Option Str)

/-- The reports for a file since it was last invalidated, oldest first. -/
def note (p : Path) (acc : List Entry) : Op → List Entry
  | .error e => if e.file = p then acc ++ [⟨e, false, []⟩] else acc
  | .warning e => if e.file = p then acc ++ [⟨e, true, []⟩] else acc
  | .clear q => if q = p then [] else acc
  | .stream env q => if q = p ∧ (env.uriOf p).isSome then acc.map fun x => { x with published := env.pragma p :: x.published } else acc
  | .all _ _ _ => acc

/-- The same for a history. -/
def entries (p : Path) (hist : List Op) : List Entry := hist.foldl (note p) []

/-- There were reports for the file. -/
def Reported (hist : List Op) (p : Path) : Prop := ∃ e, (Op.error e ∈ hist ∨ Op.warning e ∈ hist) ∧ e.file = p

/-- No report has an other declaration. -/
def Unrelated (hist : List Op) : Prop := ∀ e, Op.error e ∈ hist ∨ Op.warning e ∈ hist → e.other = none

/-- A value of the pragma `debug` that has the word `Wnoerror=category` or `Wnoerror=all`. -/
def Tolerates (pragma : Option Str) (category : Str) : Prop :=
  ∃ dbg, pragma = some dbg ∧ Diagnostics.Suppresses dbg category

/-- The report is shown as an error: it is one, or it has a category which the file does not tolerate, now or when it was published. -/
def ShownAsError (env : Env) (x : Entry) : Prop :=
  x.warning = false ∨
    x.err.category ≠ [] ∧ ∃ pragma ∈ env.pragma x.err.file :: x.published, ¬ Tolerates pragma x.err.category

/-- The item shows the report. -/
structure Shows (env : Env) (x : Entry) (i : Item) : Prop where
  range : i.range = x.err.range
  ident : i.ident = x.err.ident
  code : i.code = if x.warning = true ∧ x.err.category ≠ [] then some x.err.category else none
  related : i.related = match x.err.other with
    | none => []
    | some r => match env.uriOf r.file with
      | none => []
      | some u => [(u, r.range)]
  asError : ShownAsError env x → i.severity = .error
  asWarning : ¬ ShownAsError env x → i.severity = .warning

/-- What the handler holds for a file. -/
def State.view (s : State) (p : Path) : List Stored := (s.lists p).filterMap (s.heap[·]?)

end Verif.AllDiags
