import Verif.Model.TypeComplete
import Verif.Spec.OptionComplete
import Mathlib.Logic.Relation
/-!
# What the completion of a type is to do
-/
namespace Verif.TypeComplete
open Verif.QuickFix (Edit)

/-- The files of a workspace: what each of them imports (with `true` for a public import), and the full names that it declares. -/
structure World where
  imports : Str → Str → Bool → Prop
  declares : Str → Str → Prop

/-- The files whose declarations a file may use because of its imports: those that it imports, and those that they import publicly. -/
inductive World.Via (w : World) (f : Str) : Str → Prop
  | direct {g b} : w.imports f g b → w.Via f g
  | pub {g h} : w.Via f g → w.imports g h true → w.Via f h

/-- A file may use its own declarations and those of the files that it sees. -/
def World.Visible (w : World) (f n : Str) : Prop := ∃ g, (g = f ∨ w.Via f g) ∧ w.declares g n

/-- One file imports another one. -/
def World.Imports (w : World) (f g : Str) : Prop := ∃ b, w.imports f g b

/-- No file imports itself, be it through others. -/
def World.Acyclic (w : World) : Prop := ∀ f, ¬ Relation.TransGen w.Imports f f

/-- The contract of the external name resolution of the document `f`. -/
def Resolves (doc : Doc) (w : World) (f : Str) : Prop := ∀ n, doc.resolves n = true ↔ w.Visible f n

/-- The edit adds an import of the file `p`. -/
def AddsImport (e : Edit) (p : Str) : Prop :=
  e.text = ['\n', 'i', 'm', 'p', 'o', 'r', 't', ' ', '"'] ++ p ++ ['"', ';']

/-- The workspace after an item has been accepted in file `f`. -/
def after (w : World) (f : Str) (it : Item) : World where
  imports g h b := w.imports g h b ∨ (g = f ∧ b = false ∧ ∃ e ∈ it.more, AddsImport e h)
  declares := w.declares

/-- The document after the item has been accepted: the additional edits are above the word. -/
def accept (content : Str) (it : Item) : Option Str :=
  it.more.foldl (fun t e => t.bind (fun x => QuickFix.applyEdit x e)) (QuickFix.applyEdit content it.edit)

/-- The name that is to be shown and inserted for a type: behind a leading dot the full name with the dot, behind another dot the full
name, and otherwise the full name without the package of the document. -/
inductive Shows (pkg typed full : Str) : Str → Prop
  | absolute (t) : typed = '.' :: t → Shows pkg typed full ('.' :: full)
  | qualified (t u x) : typed = x :: t ++ '.' :: u → x ≠ '.' → Shows pkg typed full full
  | short (rest) : '.' ∉ typed → full = pkg ++ '.' :: rest → Shows pkg typed full rest
  | foreign : '.' ∉ typed → (∀ rest, full ≠ pkg ++ '.' :: rest) → Shows pkg typed full full

/-- The text refers to the type from a place in `scope` (packages and messages around the place). -/
def Refers (defs : List Str → Prop) (scope : List Str) (text : Str) (target : List Str) : Prop :=
  (text = '.' :: dotted target ∧ defs target) ∨ ∃ nm, Wf nm ∧ text = dotted nm ∧ Denotes defs scope nm target

/-- Messages and enums. -/
def IsType (c : Cand) : Prop := c.kind = .enum ∨ ∃ m e, c.kind = .message m e

instance (c : Cand) : Decidable (IsType c) :=
  match h : c.kind with
  | .message m e => isTrue (.inr ⟨m, e, h⟩)
  | .enum => isTrue (.inl h)
  | .field => isFalse (by rintro (k | ⟨m, e, k⟩) <;> rw [h] at k <;> cases k)
  | .other => isFalse (by rintro (k | ⟨m, e, k⟩) <;> rw [h] at k <;> cases k)

end Verif.TypeComplete
