import Verif.Model.Diagnostics
import Mathlib.Data.List.Induction
import Mathlib.Tactic.Common
/-!
# What the diagnostic lists contain: C07, C71
-/
namespace Verif.Diagnostics

/-! ### C07 -/

/-- The diagnostic that an operation adds. -/
def added : Op → Option Diag
  | .add _ d => some d
  | _ => none

def isClear : Op → Bool
  | .clear _ => true
  | _ => false

def isDelete : Op → Bool
  | .deleteRelated .. => true
  | _ => false

/-- Specification: the diagnostics that were added after the last time the list was cleared, in the order in which they were
added. -/
def sinceClear (ops : List Op) : List Diag := ((ops.reverse.takeWhile (fun o => !isClear o)).reverse).filterMap added

/-- C07: as long as no diagnostic is deleted as related to another one, the list contains what was added since it was
cleared. -/
theorem C07_contents (ops : List Op) (h : ∀ o ∈ ops, isDelete o = false) : (({} : DList).run ops).diags = sinceClear ops := by
  induction ops using List.reverseRecOn with
  | nil => rfl
  | append_singleton ops o ih =>
    have ih := ih (fun x hx => h x (List.mem_append_left _ hx))
    have ho := h o (by simp)
    have e : (({} : DList).run (ops ++ [o])) = (({} : DList).run ops).step o := by simp [DList.run]
    rw [e]
    unfold sinceClear at ih ⊢
    rw [List.reverse_append, List.reverse_singleton, List.singleton_append, List.takeWhile_cons]
    cases o with
    | add now d =>
      show (({} : DList).run ops).diags ++ [d] = _
      rw [ih]
      simp [isClear, added, List.filterMap_append]
    | clear now => rfl
    | deleteRelated now r => cases ho
    | flush =>
      have : ((({} : DList).run ops).step .flush).diags = (({} : DList).run ops).diags := by
        show (DList.flush _).2.diags = _
        unfold DList.flush
        split <;> rfl
      rw [this, ih]
      simp [isClear, added, List.filterMap_append]

example : sinceClear [.add 1 ⟨1, 1, .error, [], []⟩, .clear 2, .add 3 ⟨2, 2, .error, [], []⟩, .flush, .add 4 ⟨3, 3, .error, [], []⟩] =
    [⟨2, 2, .error, [], []⟩, ⟨3, 3, .error, [], []⟩] := by decide

/-! ### C71 -/

theorem deleteFirst_spec (r : Nat) (ds : List Diag) :
    (deleteFirst r ds = none → ∀ d ∈ ds, d.range ≠ r) ∧
    ∀ es, deleteFirst r ds = some es → ∃ a d b, ds = a ++ d :: b ∧ (∀ x ∈ a, x.range ≠ r) ∧ d.range = r ∧ es = a ++ b := by
  induction ds with
  | nil => exact ⟨fun _ d hd => by simp at hd, fun es h => by cases h⟩
  | cons d ds ih =>
    unfold deleteFirst
    by_cases hd : d.range = r
    · rw [if_pos hd]
      refine ⟨fun h => (by cases h), fun es h => ?_⟩
      obtain rfl := Option.some.inj h
      exact ⟨[], d, ds, rfl, by simp, hd, rfl⟩
    · rw [if_neg hd]
      constructor
      · intro h x hx
        rcases List.mem_cons.1 hx with rfl | hx
        · exact hd
        · exact ih.1 (Option.map_eq_none_iff.1 h) x hx
      · intro es h
        obtain ⟨es', h1, rfl⟩ := Option.map_eq_some_iff.1 h
        obtain ⟨a, d', b, e1, e2, e3, e4⟩ := ih.2 es' h1
        refine ⟨d :: a, d', b, by rw [e1]; rfl, ?_, e3, by rw [e4]; rfl⟩
        intro x hx
        rcases List.mem_cons.1 hx with rfl | hx
        · exact hd
        · exact e2 x hx

/-- How many diagnostics of a range there are. -/
def ofRange (r : Nat) (ds : List Diag) : Nat := ds.countP (fun d => decide (d.range = r))

theorem deleteRelated_spec (l : DList) (now : Nat) (x : Related) :
    (l.deleteRelated now x).diags.Sublist l.diags ∧
    ∀ r, ofRange r (l.deleteRelated now x).diags = ofRange r l.diags - (if x.range = r then 1 else 0) := by
  unfold DList.deleteRelated
  obtain ⟨h1, h2⟩ := deleteFirst_spec x.range l.diags
  cases hd : deleteFirst x.range l.diags with
  | none =>
    refine ⟨List.Sublist.refl _, fun r => ?_⟩
    by_cases hr : x.range = r
    · have : ofRange r l.diags = 0 := by
        unfold ofRange
        rw [List.countP_eq_zero]
        intro d hd'
        simpa [← hr] using h1 hd d hd'
      simp only [this, Nat.zero_sub]
    · simp only [if_neg hr, Nat.sub_zero]
  | some es =>
    obtain ⟨a, d, b, e1, e2, e3, rfl⟩ := h2 es hd
    refine ⟨?_, fun r => ?_⟩
    · show (a ++ b).Sublist l.diags
      rw [e1]
      exact List.Sublist.append (List.Sublist.refl _) (List.sublist_cons_self _ _)
    · show ofRange r (a ++ b) = _
      rw [e1]
      unfold ofRange
      rw [List.countP_append, List.countP_append, List.countP_cons, e3]
      by_cases hr : x.range = r
      · simp only [hr, decide_true, if_true]; omega
      · simp [hr]

/-- How many of the places are of the file and the range. -/
def places (q : Path) (r : Nat) (rs : List Related) : Nat := rs.countP (fun x => decide (x.file = q ∧ x.range = r))

theorem deleteAllRelated_spec (now : Nat) (rs : List Related) : ∀ (h : Handler) (q : Path),
    ((h.deleteAllRelated now rs).lists q).diags.Sublist (h.lists q).diags ∧ (h.deleteAllRelated now rs).keys = h.keys ∧
    (q ∈ h.keys → ∀ r, ofRange r ((h.deleteAllRelated now rs).lists q).diags = ofRange r (h.lists q).diags - places q r rs) ∧
    ((∀ x ∈ rs, x.file ≠ q) → (h.deleteAllRelated now rs).lists q = h.lists q) := by
  induction rs with
  | nil =>
    intro h q
    exact ⟨List.Sublist.refl _, rfl, fun _ r => by simp [places, Handler.deleteAllRelated], fun _ => rfl⟩
  | cons x rs ih =>
    intro h q
    have e : h.deleteAllRelated now (x :: rs) =
        (if x.file ∈ h.keys then h.set x.file ((h.lists x.file).deleteRelated now x) else h).deleteAllRelated now rs := rfl
    rw [e]
    by_cases hk : x.file ∈ h.keys
    · rw [if_pos hk]
      obtain ⟨i1, i2, i3, i4⟩ := ih (h.set x.file ((h.lists x.file).deleteRelated now x)) q
      by_cases hq : q = x.file
      · subst hq
        have es : (h.set x.file ((h.lists x.file).deleteRelated now x)).lists x.file = (h.lists x.file).deleteRelated now x := by
          simp [Handler.set]
        rw [es] at i1 i3 i4
        obtain ⟨d1, d2⟩ := deleteRelated_spec (h.lists x.file) now x
        refine ⟨i1.trans d1, i2, fun hm r => ?_, fun hn => absurd rfl (hn x (by simp))⟩
        rw [i3 hm r, d2 r]
        unfold places
        rw [List.countP_cons]
        by_cases hr : x.range = r
        · simp only [hr, and_self, decide_true, if_true]; omega
        · simp [hr]
      · have es : (h.set x.file ((h.lists x.file).deleteRelated now x)).lists q = h.lists q := by
          simp [Handler.set, hq]
        rw [es] at i1 i3 i4
        refine ⟨i1, i2, fun hm r => ?_, fun hn => i4 (fun y hy => hn y (List.mem_cons_of_mem _ hy))⟩
        rw [i3 hm r]
        unfold places
        rw [List.countP_cons]
        have : ¬ (x.file = q ∧ x.range = r) := fun hh => hq hh.1.symm
        simp [this]
    · rw [if_neg hk]
      obtain ⟨i1, i2, i3, i4⟩ := ih h q
      refine ⟨i1, i2, fun hm r => ?_, fun hn => i4 (fun y hy => hn y (List.mem_cons_of_mem _ hy))⟩
      rw [i3 hm r]
      unfold places
      rw [List.countP_cons]
      have : ¬ (x.file = q ∧ x.range = r) := by rintro ⟨rfl, _⟩; exact hk hm
      simp [this]

/-- C71: after the diagnostics of a file are cleared, it has none. -/
theorem C71_cleared (h : Handler) (p : Path) (now : Nat) (hp : p ∈ h.keys) : ((h.step (.clearPath p now)).lists p).diags = [] := by
  have e : h.step (.clearPath p now) =
      (h.set p ((h.lists p).clear now)).deleteAllRelated now ((h.lists p).diags.flatMap (·.related)) := by
    simp only [Handler.step, if_pos hp]
  rw [e]
  have := (deleteAllRelated_spec now ((h.lists p).diags.flatMap (·.related)) (h.set p ((h.lists p).clear now)) p).1
  have e2 : ((h.set p ((h.lists p).clear now)).lists p).diags = [] := by simp [Handler.set, DList.clear, DList.reset]
  rw [e2] at this
  exact List.sublist_nil.1 this

/-- C71: what is removed from another file: for each place that the cleared diagnostics refer to, one diagnostic at that place;
everything else stays, in the same order. -/
theorem C71_others (h : Handler) (p q : Path) (now : Nat) (hp : p ∈ h.keys) (hq : q ∈ h.keys) (hpq : q ≠ p) :
    ((h.step (.clearPath p now)).lists q).diags.Sublist (h.lists q).diags ∧
    ∀ r, ofRange r ((h.step (.clearPath p now)).lists q).diags =
      ofRange r (h.lists q).diags - places q r ((h.lists p).diags.flatMap (·.related)) := by
  have e : h.step (.clearPath p now) =
      (h.set p ((h.lists p).clear now)).deleteAllRelated now ((h.lists p).diags.flatMap (·.related)) := by
    simp only [Handler.step, if_pos hp]
  rw [e]
  obtain ⟨i1, i2, i3, i4⟩ :=
    deleteAllRelated_spec now ((h.lists p).diags.flatMap (·.related)) (h.set p ((h.lists p).clear now)) q
  have es : (h.set p ((h.lists p).clear now)).lists q = h.lists q := by simp [Handler.set, hpq]
  rw [es] at i1 i3
  exact ⟨i1, i3 hq⟩

/-- C71 (partial): the diagnostics of the files that the cleared ones do not refer to stay as they are, and so does the result
id. Missing: files to which they refer, see `C71_violated`. -/
theorem C71_partial (h : Handler) (p q : Path) (now : Nat) (hpq : q ≠ p)
    (hr : ∀ d ∈ (h.lists p).diags, ∀ x ∈ d.related, x.file ≠ q) : (h.step (.clearPath p now)).lists q = h.lists q := by
  unfold Handler.step
  simp only
  split
  · have es : (h.set p ((h.lists p).clear now)).lists q = h.lists q := by simp [Handler.set, hpq]
    rw [(deleteAllRelated_spec now _ (h.set p ((h.lists p).clear now)) q).2.2.2, es]
    intro x hx
    obtain ⟨d, hd, hx⟩ := List.mem_flatMap.1 hx
    exact hr d hd x hx
  · rfl

/-- C71 fails: when the diagnostics of `a` are cleared, an error of `b` is removed because the error of `a` refers to the same
place, although it does not refer to `a` and `b` has not changed. -/
theorem C71_violated : ∃ (ops : List HOp) (d : Diag), d.related = [] ∧ d ∈ ((({} : Handler).run ops).lists "b").diags ∧
    ((({} : Handler).run (ops ++ [.clearPath "a" 5])).lists "b").diags = [] :=
  ⟨[.create "b", .add "b" 1 ⟨1, 4, .error, [], []⟩, .create "a", .add "a" 2 ⟨2, 7, .error, [⟨"b", 4⟩], []⟩],
    ⟨1, 4, .error, [], []⟩, rfl, by decide, by decide⟩

/-- A reference to another place of the same file does not remove the error. -/
example : ((({} : Handler).run [.create "b", .add "b" 1 ⟨1, 4, .error, [], []⟩, .create "a",
    .add "a" 2 ⟨2, 7, .error, [⟨"b", 3⟩], []⟩, .clearPath "a" 5]).lists "b").diags = [⟨1, 4, .error, [], []⟩] := by decide

end Verif.Diagnostics
