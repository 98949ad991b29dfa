import Verif.Model.Driver
/-!
# What the driver is to report
-/
namespace Verif.Driver

/-- The lines of a text. -/
def linesOf (content : Str) : List Str := splitOn '\n' content

/-- Is the line shown below the message? -/
def Diag.shown (d : Diag) : Prop := d.severity ≤ 2 ∧ d.unnecessary = false

/-- The message for a diagnostic in a line: it names file and line and has its text; the parts of the context make up the line,
and if the range lies in the line, the second part is the text of the range. -/
structure Reports (file line : Str) (d : Diag) (m : Message) : Prop where
  hseverity : m.severity = d.severity
  hfile : m.file = file
  hline : m.line = d.startLine + 1
  htext : m.text = d.text
  hidden : ¬ d.shown → m.context = none
  shown : d.shown → ∃ a b c, m.context = some (a, b, c) ∧ a ++ b ++ c = line ∧
    (d.startChar ≤ d.endChar → d.endChar ≤ line.length → a.length = d.startChar ∧ a.length + b.length = d.endChar)

/-- Corresponding elements of two lists. -/
inductive Each {α β : Type} (R : α → β → Prop) : List α → List β → Prop
  | nil : Each R [] []
  | cons {a b as bs} (h : R a b) (t : Each R as bs) : Each R (a :: as) (b :: bs)

/-- The file of a diagnostic is known and the diagnostic lies in one of its lines, but not in the last one. -/
def Inside (f : Source) (d : Diag) : Prop :=
  ∃ content, f.content = some content ∧ d.startLine + 1 < (linesOf content).length

/-- All diagnostics with their files. -/
def pairs (sources : List Source) : List (Source × Diag) := sources.flatMap fun f => f.diags.map fun d => (f, d)

/-- The file lies in the workspace and exists. -/
def InWorkspace (env : Env) (ws : List Str) (path : Option (List Str)) : Prop :=
  ∃ r, path = some (ws ++ r) ∧ env.exists_ (ws ++ r) = true

end Verif.Driver
