import Verif.Model.AllDiags
import Verif.Model.Driver

/-!
# The command `vet`

`BuildVetCmd` (/repo/pkg/protols/commands/vet.go:13-37) with `Driver.Compile` (/repo/sdk/driver/driver.go:95-211, Model/Driver) and
`XGetAllDiagnostics` (Model/AllDiags). The search for files (C40, Model/SearchDirs) and the compiler are not part of this model: what the
compiler reports while the files are loaded is an arbitrary history of reports, and what it links an arbitrary list.
-/
namespace Verif.Vet

open Documents (Res)
open Diagnostics (Path Severity)
open AllDiags (Uri Item Op)

/-- What the command finds. `wd` is the working directory (`none`: `os.Getwd` fails), `fileOf` the name of a document relative to it
(driver.go:144-154), `content` its text (`none`: `XGetMapper` fails), `place` the lines and columns of a range, `text` the message of an error
and whether it has the tag `Unnecessary`; `order` and `order'` are the orders in which the two maps of diagnostics are read. -/
structure World where
  wd : Option (List Str)
  exists_ : List Str → Bool
  env : AllDiags.Env
  fileOf : Uri → Str
  content : Uri → Option Str
  place : Nat → (Nat × Nat) × (Nat × Nat)
  text : Nat → Str × Bool
  pathOf : Nat → Option (List Str)
  linked : List Driver.Linked
  order : List (Path × List Nat) → List (Path × List Nat)
  order' : List (Uri × List Item) → List (Uri × List Item)

/-- The numbers of `protocol.DiagnosticSeverity`. -/
def severityNumber : Severity → Nat
  | .error => 1
  | .warning => 2
  | .information => 3
  | .hint => 4

/-- A `protocol.Diagnostic` as the driver reads it. -/
def diagOf (w : World) (i : Item) : Driver.Diag :=
  ⟨severityNumber i.severity, (w.place i.range).1.1, (w.place i.range).1.2, (w.place i.range).2.1, (w.place i.range).2.2,
    (w.text i.ident).1, (w.text i.ident).2⟩

/-- The entries of the map of diagnostics as the driver reads them, driver.go:104-113. -/
def sources (w : World) (m : List (Uri × List Item)) : List Driver.Source :=
  (w.order' m).map fun e => ⟨w.fileOf e.1, w.content e.1, e.2.map (diagOf w)⟩

/-- `RunE`, vet.go:17-34, after the history `hist` of reports: what is printed, and whether the error `one or more errors occurred` is
returned; `.err` is an other error. -/
def vet (w : World) (hist : List Op) : Res (List Driver.Message × Bool) :=
  match w.wd with
  | none => .err
  | some wd =>
    match AllDiags.run {} hist with
    | none => .panic
    | some s =>
      match (AllDiags.getAll s w.env w.order).2 with
      | .err => .err
      | .panic => .panic
      | .ok m =>
        match Driver.compile ⟨w.exists_, wd⟩ wd w.pathOf (sources w m) w.linked with
        | .err => .err
        | .panic => .panic
        | .ok r => .ok (r.messages, r.error)

/-- The exit status of the program: `Execute`, /repo/pkg/protols/root.go:30-34; a panic ends a Go program with status 2. -/
def exitStatus : Res (List Driver.Message × Bool) → Nat
  | .panic => 2
  | .err => 1
  | .ok (_, failed) => if failed then 1 else 0

end Verif.Vet
