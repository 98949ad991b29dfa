import Verif.Model.OptionComplete
import Verif.Spec.ImportComplete
/-!
# What the completion of a name is to do
-/
namespace Verif.OptionComplete
open Verif.QuickFix (posAfter)

/-- A piece of text in one line, with the cursor between `l` and `r`. -/
structure Place where
  above : Str
  l : Str
  r : Str
  rest : Str

def Place.content (p : Place) : Str := p.above ++ p.l ++ (p.r ++ p.rest)

/-- The same text with another piece. -/
def Place.with (p : Place) (new : Str) : Str := p.above ++ new ++ p.rest

def Place.cursor (p : Place) : Cursor := ⟨p.content, p.above.length + p.l.length, posAfter (p.above ++ p.l)⟩

structure Place.Ok (p : Place) : Prop where
  l : '\n' ∉ p.l
  r : '\n' ∉ p.r
  fits : QuickFix.Fits p.content

/-- The text after an item has been accepted (without the import that it may add). -/
def accept (content : Str) (it : Item) : Option Str := QuickFix.applyEdit content it.edit

/-- A field that is to be offered: it begins as typed, and it is repeated, not set, or the one under the cursor. -/
def Open (typed word : Str) (set : List Str) (f : Field) : Prop :=
  typed <+: f.name ∧ (f.name = word ∨ f.repeated = true ∨ f.fullName ∉ set)

instance (typed word : Str) (set : List Str) (f : Field) : Decidable (Open typed word set f) := inferInstanceAs (Decidable (_ ∧ _))

/-- An extension that is to be offered: those of gogoproto only if the word begins so. -/
def Shown (typed : Str) (x : Ext) : Prop :=
  ['g', 'o', 'g', 'o', 'p', 'r', 'o', 't', 'o', '.'] <+: x.fullName → ['g', 'o', 'g', 'o'] <+: typed

instance (typed : Str) (x : Ext) : Decidable (Shown typed x) := inferInstanceAs (Decidable (_ → _))

def inParens (s : Str) : Str := '(' :: (s ++ [')'])

/-- What is to be seen of an item: its label, the text after it has been accepted, whether it is selected at first, and further edits. -/
def row (content : Str) (it : Item) : Str × Option Str × Bool × List QuickFix.Edit := (it.label, accept content it, it.preselect, it.more)

/-- A name without parentheses that starts at `above`. -/
def plainNode (above word : Str) : Node := ⟨⟨false, none, none⟩, some (above.length, above.length + word.length), false⟩

/-- A name in parentheses (or brackets) with nothing between them and the name. -/
def parenNode (above name : Str) : Node :=
  ⟨⟨true, some (posAfter above).char, some ((posAfter above).char + 1 + name.length)⟩, some (above.length + 1, above.length + 1 + name.length), true⟩

/-- Declarations that have options. -/
def Declares : NodeKind → Prop
  | .messageField | .extend | .other => False
  | _ => True

/-- The declaration to which an option belongs is the innermost one around it. -/
inductive Belongs {δ : Type} : List (NodeKind × Option δ) → NodeKind → Option δ → Prop
  | here (k d rest) : Declares k → Belongs ((k, d) :: rest) k d
  | there (k d rest k' d') : ¬ Declares k → Belongs rest k' d' → Belongs ((k, d) :: rest) k' d'

end Verif.OptionComplete
