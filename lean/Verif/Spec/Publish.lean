import Verif.Model.Publish
/-!
# What the client should see of the diagnostics

In terms of the events of an execution.
-/
namespace Verif.Publish

open Diagnostics

/-- The reports that were made, oldest first. -/
def made (tr : List Event) : List Report := tr.filterMap fun | .call _ r => some r | _ => none

/-- The reports that the client was to be sent, with those for which this failed. -/
def tried (tr : List Event) : List Report := tr.filterMap fun | .published r => some r | .failed r => some r | _ => none

/-- The reports that the client got. -/
def got (tr : List Event) : List Report := tr.filterMap fun | .published r => some r | _ => none

/-- What the client shows for a URI after some reports: the items of the last one. -/
def Shown (reports : List Report) (u : Uri) (items : List Diag) : Prop :=
  (∃ before r after, reports = before ++ r :: after ∧ r.uri = u ∧ r.items = items ∧ ∀ x ∈ after, x.uri ≠ u) ∨
  ((∀ x ∈ reports, x.uri ≠ u) ∧ items = [])

/-- Nothing is under way. -/
def Quiet (s : State) : Prop := s.flush = none ∧ s.calling = none ∧ s.channel = [] ∧ s.publisher = .idle

/-- Events that the server does by itself. -/
def Internal : Event → Prop
  | .modify _ | .update _ | .startFlush | .cancel => False
  | _ => True

/-- The version that was last given for a URI. -/
inductive Version : List Event → Uri → Int → Prop
  | none (u) : Version [] u 0
  | given (tr u v) (before after : List (Uri × Int)) (h : ∀ m ∈ after, m.1 ≠ u) : Version (tr ++ [.update (before ++ (u, v) :: after)]) u v
  | other (tr u v e) (h : Version tr u v) (he : ∀ mods, e = .update mods → ∀ m ∈ mods, m.1 ≠ u) : Version (tr ++ [e]) u v

/-- Operations that may change the diagnostics of a path: adding one, or clearing any path, as diagnostics of other paths may be related. -/
def Touches (p : Path) : Event → Prop
  | .modify (.add q _ _) => q = p
  | .modify (.clearPath _ _) => True
  | _ => False

end Verif.Publish
