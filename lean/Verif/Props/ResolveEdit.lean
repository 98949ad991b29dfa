import Verif.Model.ResolveEdit

/-!
# C112: edits of a code action are applied to the text for which they were made
-/
namespace Verif.ResolveEdit

/-- **C112** (answer): resolving fails exactly if the closure fails; otherwise the answer has the edits of the action, for its document and, if
the client can resolve edits, its version, and nothing else. -/
theorem C112_answer (resolveEdits : Bool) (p : Pending) :
    (resolve resolveEdits p = none ↔ p.closure = .fails) ∧
    ∀ edits, p.closure = .sets edits → ∃ e, resolve resolveEdits p = some e ∧
      (resolveEdits = true → e.changes = [] ∧ ∀ u v es, (u, v, es) ∈ e.documentChanges ↔ u = p.uri ∧ v = p.version ∧ es = edits) ∧
      (resolveEdits = false → e.documentChanges = [] ∧ ∀ u es, (u, es) ∈ e.changes ↔ u = p.uri ∧ es = edits) := by
  constructor
  · unfold resolve closureEdit
    cases p.closure <;> cases resolveEdits <;> simp
  · intro edits h
    unfold resolve closureEdit
    rw [h]
    cases resolveEdits <;> simp [textEditsToDocumentChanges]

/-- What holds of the states: versions of the texts that the server was told are those of one history. -/
structure Inv (s : State) : Prop where
  current : ∀ u, s.docs u ∈ s.told u
  bound : ∀ u v t, (v, t) ∈ s.told u → v ≤ (s.docs u).1
  one : ∀ u v t t', (v, t) ∈ s.told u → (v, t') ∈ s.told u → t = t'
  pending : ∀ p ∈ s.pending, (p.version, p.made) ∈ s.told p.uri
  answers : ∀ a ∈ s.answers, a.edit.changes = [] ∧ ∀ u v es, (u, v, es) ∈ a.edit.documentChanges → (v, a.made) ∈ s.told u

theorem told1_told {s : State} {u : Uri} {v : Nat} {t : Text} {x : Uri} {e : Nat × Text} (h : e ∈ s.told x) : e ∈ (s.told1 u v t).told x := by
  unfold State.told1
  simp only
  split
  · rename_i hx; subst hx; exact List.mem_cons_of_mem _ h
  · exact h

theorem Inv.step {s t : State} {e : Event} (h : Inv s) (hs : Step true s e t) (hr : e ≠ .reopened) : Inv t := by
  cases hs with
  | change u v x hv =>
    have hmem : ∀ y w z, (w, z) ∈ (s.told1 u v x).told y → (w, z) ∈ s.told y ∨ y = u ∧ w = v ∧ z = x := by
      intro y w z hm
      unfold State.told1 at hm
      simp only at hm
      split at hm
      · rename_i hy
        subst hy
        rcases List.mem_cons.1 hm with hm | hm
        · cases hm; exact .inr ⟨rfl, rfl, rfl⟩
        · exact .inl hm
      · exact .inl hm
    refine ⟨?_, ?_, ?_, fun p hp => told1_told (h.pending p hp),
      fun a ha => ⟨(h.answers a ha).1, fun u v es hm => told1_told ((h.answers a ha).2 u v es hm)⟩⟩
    · intro y
      unfold State.told1
      simp only
      split
      · exact List.mem_cons_self
      · exact h.current y
    · intro y w z hm
      have hd : (s.docs y).1 ≤ ((s.told1 u v x).docs y).1 := by
        unfold State.told1
        simp only
        split
        · rename_i hy; subst hy; exact Nat.le_of_lt hv
        · exact Nat.le_refl _
      rcases hmem y w z hm with hm | ⟨rfl, rfl, rfl⟩
      · exact Nat.le_trans (h.bound y w z hm) hd
      · unfold State.told1
        simp
    · intro y w z z' hm hm'
      rcases hmem y w z hm with hm | ⟨rfl, rfl, rfl⟩
      · rcases hmem y w z' hm' with hm' | ⟨rfl, rfl, rfl⟩
        · exact h.one y w z z' hm hm'
        · have := h.bound _ _ _ ‹(_, z) ∈ s.told _›; omega
      · rcases hmem _ _ z' hm' with hm' | ⟨-, -, rfl⟩
        · have := h.bound _ _ _ hm'; omega
        · rfl
  | reopen u v x => exact absurd rfl hr
  | offer p hp =>
    refine ⟨h.current, h.bound, h.one, fun q hq => ?_, h.answers⟩
    rcases List.mem_cons.1 hq with rfl | hq
    · exact hp
    · exact h.pending q hq
  | expire id => exact ⟨h.current, h.bound, h.one, fun q hq => h.pending q ((List.mem_filter.1 hq).1), h.answers⟩
  | resolve p hp e he =>
    refine ⟨h.current, h.bound, h.one, fun q hq => h.pending q ((List.mem_filter.1 hq).1), fun a ha => ?_⟩
    rcases List.mem_cons.1 ha with rfl | ha
    · cases hc : p.closure with
      | fails =>
        have := (C112_answer true p).1.2 hc
        rw [this] at he
        cases he
      | sets edits =>
        obtain ⟨e', h1, h2, -⟩ := (C112_answer true p).2 edits hc
        rw [he] at h1
        cases h1
        refine ⟨(h2 rfl).1, fun u v es hm => ?_⟩
        obtain ⟨rfl, rfl, -⟩ := ((h2 rfl).2 u v es).1 hm
        exact h.pending p hp
    · exact h.answers a ha
  | applyVersion => exact h
  | refuse => exact h
  | applyChanges => exact h

theorem inv_of_run {log : List Event} {s : State} (h : Run true log s) (hr : Event.reopened ∉ log) : Inv s := by
  induction h with
  | init docs =>
    refine ⟨fun u => List.mem_singleton.2 rfl, fun u v t hm => ?_, fun u v t t' hm hm' => ?_, fun p hp => (by cases hp),
      fun a ha => (by cases ha)⟩
    · have : (v, t) = docs u := List.mem_singleton.1 hm
      simp only [← this]
      exact Nat.le_refl _
    · have h1 : (v, t) = docs u := List.mem_singleton.1 hm
      have h2 : (v, t') = docs u := List.mem_singleton.1 hm'
      rw [← h2] at h1
      cases h1
      rfl
  | step _ hs ih => exact (ih (fun hh => hr (List.mem_append_left _ hh))).step hs (fun he => hr (by simp [he]))

/-- **C112**: if the client can resolve edits, then whatever happens between the offer of an action, its resolution and the application of the
edits, edits are applied only to the text for which they were made. (Partial: while documents are not closed and opened again, see
`C112_reopen_violated`; for other clients see `C112_changes_violated`.) -/
theorem C112_applied_partial {log : List Event} {s : State} (h : Run true log s) (hr : Event.reopened ∉ log) (u : Uri) (text : Text) (es : Edits)
    (made : Text) (ha : Event.applied u text es made ∈ log) : text = made := by
  induction h with
  | init => cases ha
  | @step log s e t h hs ih =>
    have hr' : Event.reopened ∉ log := fun hh => hr (List.mem_append_left _ hh)
    rcases List.mem_append.1 ha with ha | ha
    · exact ih hr' ha
    · rw [List.mem_singleton] at ha
      have hi := inv_of_run h hr'
      subst ha
      cases hs with
      | applyVersion a haa u v es hd hv =>
        have h1 := (hi.answers a haa).2 _ _ _ hd
        have h2 := hi.current u
        subst hv
        exact hi.one _ _ _ _ h2 h1
      | applyChanges a haa u es hc =>
        rw [(hi.answers a haa).1] at hc
        cases hc

/-- **C112**: and an edit for the current version of the document is not refused. -/
theorem C112_current {log : List Event} {s : State} (_ : Run true log s) (p : Pending) (hp : p ∈ s.pending) (edits : Edits)
    (hc : p.closure = .sets edits) (hv : (s.docs p.uri).1 = p.version) :
    ∃ s' s'', Step true s .none s' ∧ Step true s' (.applied p.uri (s.docs p.uri).2 edits p.made) s'' := by
  obtain ⟨e, h1, h2, -⟩ := (C112_answer true p).2 edits hc
  refine ⟨_, _, .resolve s p hp e h1, .applyVersion _ ⟨e, p.made⟩ List.mem_cons_self p.uri p.version edits ?_ hv⟩
  exact ((h2 rfl).2 _ _ _).2 ⟨rfl, rfl, rfl⟩

/-- **C112** (refusals): edits are refused only if the document was changed since the text for which they were made, and a refusal changes
nothing. (Partial: while documents are not closed and opened again, as `C112_applied_partial`.) -/
theorem C112_refused_partial {log : List Event} {s s' : State} (h : Run true log s) (hr : Event.reopened ∉ log) (u : Uri)
    (hs : Step true s (.refused u) s') :
    s' = s ∧ ∃ a ∈ s.answers, ∃ v es, (u, v, es) ∈ a.edit.documentChanges ∧ (v, a.made) ∈ s.told u ∧ v < (s.docs u).1 := by
  have hi := inv_of_run h hr
  cases hs with
  | refuse a ha _ v es hd hv =>
    have h1 := (hi.answers a ha).2 _ _ _ hd
    have h2 := hi.bound u v a.made h1
    exact ⟨rfl, a, ha, v, es, hd, h1, by omega⟩

/-! ## Examples -/

namespace Demo

def pending : Pending := ⟨1, 0, 1, .sets [7], 10⟩

/-- Document 0 has the text 10, then 11. -/
def s0 : State := ⟨fun _ => (1, 10), fun _ => [(1, 10)], [], []⟩

/-- The action is offered, the document is changed, the action is resolved, and the client refuses the edits. -/
theorem refused : ∃ s, Run true [.none, .none, .none, .refused 0] s := by
  have r1 := Run.step (Run.init (resolveEdits := true) fun _ => (1, 10)) (.offer _ pending (List.mem_singleton.2 rfl))
  have r2 := Run.step r1 (.change _ 0 2 11 (by decide))
  have r3 := Run.step r2 (.resolve _ pending List.mem_cons_self ⟨[], [(0, 1, [7])]⟩ (by decide))
  exact ⟨_, Run.step r3 (.refuse _ ⟨⟨[], [(0, 1, [7])]⟩, 10⟩ List.mem_cons_self 0 1 [7] List.mem_cons_self (by decide))⟩

/-- `C112_refused_partial`: the hypotheses hold for this refusal. -/
example : ∃ log s s', Run true log s ∧ Event.reopened ∉ log ∧ Step true s (.refused 0) s' ∧
    ∃ a ∈ s.answers, ∃ v es, (0, v, es) ∈ a.edit.documentChanges ∧ (v, a.made) ∈ s.told 0 ∧ v < (s.docs 0).1 := by
  have r1 := Run.step (Run.init (resolveEdits := true) fun _ => (1, 10)) (.offer _ pending (List.mem_singleton.2 rfl))
  have r2 := Run.step r1 (.change _ 0 2 11 (by decide))
  have r3 := Run.step r2 (.resolve _ pending List.mem_cons_self ⟨[], [(0, 1, [7])]⟩ (by decide))
  exact ⟨_, _, _, r3, by decide, .refuse _ ⟨⟨[], [(0, 1, [7])]⟩, 10⟩ List.mem_cons_self 0 1 [7] List.mem_cons_self (by decide),
    (C112_refused_partial r3 (by decide) 0 (.refuse _ ⟨⟨[], [(0, 1, [7])]⟩, 10⟩ List.mem_cons_self 0 1 [7] List.mem_cons_self (by decide))).2⟩

/-- The action is offered, resolved, and applied. -/
theorem applied : ∃ s, Run true [.none, .none, .applied 0 10 [7] 10] s := by
  have r1 := Run.step (Run.init (resolveEdits := true) fun _ => (1, 10)) (.offer _ pending (List.mem_singleton.2 rfl))
  have r2 := Run.step r1 (.resolve _ pending List.mem_cons_self ⟨[], [(0, 1, [7])]⟩ (by decide))
  exact ⟨_, Run.step r2 (.applyVersion _ ⟨⟨[], [(0, 1, [7])]⟩, 10⟩ List.mem_cons_self 0 1 [7] List.mem_cons_self (by decide))⟩

example : (10 : Text) = 10 := by
  obtain ⟨s, h⟩ := applied
  exact C112_applied_partial h (by decide) 0 10 [7] 10 (by decide)

end Demo

/-- **C112** fails for a client that did not announce that it resolves edits: the document changes between offer and resolution, and the edits,
which have no version, are applied to the new text. -/
theorem C112_changes_violated : ∃ s, Run false [.none, .none, .none, .applied 0 11 [7] 10] s := by
  have r1 := Run.step (Run.init (resolveEdits := false) fun _ => (1, 10)) (.offer _ Demo.pending (List.mem_singleton.2 rfl))
  have r2 := Run.step r1 (.change _ 0 2 11 (by decide))
  have r3 := Run.step r2 (.resolve _ Demo.pending List.mem_cons_self ⟨[(0, [7])], []⟩ (by decide))
  exact ⟨_, Run.step r3 (.applyChanges _ ⟨⟨[(0, [7])], []⟩, 10⟩ List.mem_cons_self 0 [7] List.mem_cons_self)⟩

/-- **C112** fails if a document is closed and opened again with another text while an action is pending: the version is the same. -/
theorem C112_reopen_violated : ∃ s, Run true [.none, .reopened, .none, .applied 0 11 [7] 10] s := by
  have r1 := Run.step (Run.init (resolveEdits := true) fun _ => (1, 10)) (.offer _ Demo.pending (List.mem_singleton.2 rfl))
  have r2 := Run.step r1 (.reopen _ 0 1 11)
  have r3 := Run.step r2 (.resolve _ Demo.pending List.mem_cons_self ⟨[], [(0, 1, [7])]⟩ (by decide))
  exact ⟨_, Run.step r3 (.applyVersion _ ⟨⟨[], [(0, 1, [7])]⟩, 10⟩ List.mem_cons_self 0 1 [7] List.mem_cons_self (by decide))⟩

end Verif.ResolveEdit
