import Verif.Model.Vet
import Verif.Spec.AllDiags
import Verif.Spec.Driver

/-!
# What the command `vet` has to say
-/
namespace Verif.Vet

open AllDiags (Uri Op Entry Reported ShownAsError)
open Diagnostics (Path)

/-- The report stands: it was made for the file, which was not invalidated since. -/
def Stands (hist : List Op) (p : Path) (x : Entry) : Prop := x ∈ AllDiags.entries p hist

/-- Different files with reports have different documents (C10). -/
def Distinct (w : World) (hist : List Op) : Prop :=
  ∀ p q, Reported hist p → Reported hist q → w.env.uriOf p = w.env.uriOf q → p = q

/-- The report lies in one line. -/
def OneLine (w : World) (x : Entry) : Prop := (w.place x.err.range).1.1 = (w.place x.err.range).2.1

/-- The message tells about the report: the file, the line from 1 on, the text, and whether it is an error. -/
structure Tells (w : World) (u : Uri) (x : Entry) (m : Driver.Message) : Prop where
  file : m.file = w.fileOf u
  line : m.line = (w.place x.err.range).1.1 + 1
  text : m.text = (w.text x.err.ident).1
  isError : m.severity = 1 ↔ ShownAsError w.env x
  isWarning : m.severity = 2 ↔ ¬ ShownAsError w.env x

end Verif.Vet
