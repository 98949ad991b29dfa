import Verif.Model.ActionQueue

/-!
# C24: deferred code actions
-/
namespace Verif.ActionQueue

theorem mem_delete {id : Nat} {q : List (Nat × Nat)} {e : Nat × Nat} :
    e ∈ delete id q ↔ e ∈ q ∧ e.1 ≠ id := by
  simp [delete]

/-- The invariant, in terms of the log. -/
structure Inv (log : List Event) (s : State) : Prop where
  used : ∀ id, id ∈ s.used ↔ ∃ a, Event.create id a ∈ log
  once : ∀ id a b, Event.create id a ∈ log → Event.create id b ∈ log → a = b
  created : ∀ id a, (id, a) ∈ s.created ↔ Event.create id a ∈ log ∧ Event.handOut id a ∉ log
  out : ∀ id a, Event.handOut id a ∈ log → Event.create id a ∈ log
  queue : ∀ id a, (id, a) ∈ s.queue → Event.handOut id a ∈ log ∧ ∀ b, Event.resolved id b ∉ log
  kept : ∀ id a, Event.handOut id a ∈ log → Event.expired id ∉ log →
    (∀ b, Event.resolved id b ∉ log) → (id, a) ∈ s.queue
  resolved : ∀ id a, Event.resolved id a ∈ log → Event.handOut id a ∈ log

theorem inv_of_run {log : List Event} {s : State} (h : Run log s) : Inv log s := by
  induction h with
  | init => constructor <;> simp [init]
  | @step log s e t _ hs ih =>
    obtain ⟨i1, i2, i3, i4, i5, i6, i7⟩ := ih
    cases hs with
    | create id a hf =>
      have hnew : ∀ b, Event.create id b ∉ log := fun b hb => hf ((i1 id).mpr ⟨b, hb⟩)
      constructor
      · intro x
        simp only [List.mem_cons, List.mem_append, i1]
        constructor
        · rintro (rfl | ⟨b, hb⟩)
          · exact ⟨a, by simp⟩
          · exact ⟨b, .inl hb⟩
        · rintro ⟨b, hb | hb⟩
          · exact .inr ⟨b, hb⟩
          · simp at hb; exact .inl hb.1
      · intro x b c; simp only [List.mem_append, List.mem_singleton, Event.create.injEq]; grind
      · intro x b
        simp only [List.mem_cons, List.mem_append, i3, Prod.mk.injEq]
        grind
      · grind
      · grind
      · grind
      · grind
    | handOut id a hc =>
      have hc' := (i3 id a).mp hc
      have hnr : ∀ b, Event.resolved id b ∉ log := by
        intro b hb
        have h1 := i7 id b hb
        have := i2 id a b hc'.1 (i4 id b h1)
        subst this
        exact hc'.2 h1
      constructor
      · grind
      · grind
      · intro x b
        simp only [mem_delete, i3]
        constructor
        · grind
        · grind
      · grind
      · intro x b hx
        rcases List.mem_cons.mp hx with hx | hx
        · grind
        · have := i5 x b (mem_delete.mp hx).1
          grind
      · intro x b h1 h2 h3
        simp only [List.mem_cons, mem_delete, Prod.mk.injEq]
        by_cases hx : x = id
        · subst hx
          left
          refine ⟨rfl, ?_⟩
          have : Event.create x b ∈ log := by grind
          exact i2 x b a this hc'.1
        · right
          exact ⟨i6 x b (by grind) (by grind) (by grind), hx⟩
      · grind
    | expired id hu =>
      constructor
      · grind
      · grind
      · intro x b; simp only [i3]; grind
      · grind
      · intro x b hx
        have := i5 x b (mem_delete.mp hx).1
        grind
      · intro x b h1 h2 h3
        have hx : x ≠ id := by rintro rfl; simp at h2
        exact mem_delete.mpr ⟨i6 x b (by grind) (by grind) (by grind), hx⟩
      · grind
    | resolved id a hq =>
      have hq' := i5 id a hq
      constructor
      · grind
      · grind
      · intro x b; simp only [i3]; grind
      · grind
      · intro x b hx
        have h1 := mem_delete.mp hx
        have := i5 x b h1.1
        grind
      · intro x b h1 h2 h3
        have hx : x ≠ id := by rintro rfl; exact h3 a (by simp)
        exact mem_delete.mpr ⟨i6 x b (by grind) (by grind) (by grind), hx⟩
      · grind
    | refused id hq =>
      constructor
      · grind
      · grind
      · intro x b; simp only [i3]; grind
      · grind
      · grind
      · grind
      · grind

/-- Split a run at an event of its log. -/
theorem run_split {log : List Event} {s : State} (h : Run log s) (pre : List Event) (e : Event)
    (post : List Event) (hl : log = pre ++ e :: post) : ∃ a b, Run pre a ∧ Step a e b := by
  induction h generalizing post with
  | init => simp at hl
  | @step log s e' t hr hs ih =>
    rcases List.eq_nil_or_concat post with rfl | ⟨post', x, rfl⟩
    · have := List.append_inj' hl (by simp)
      obtain ⟨rfl, h2⟩ := this
      injection h2 with h2
      subst h2
      exact ⟨s, t, hr, hs⟩
    · rw [List.concat_eq_append, ← List.cons_append, ← List.append_assoc] at hl
      exact ih post' (List.append_inj' hl (by simp)).1

/-- **C24**: an action is resolved at most once: in no execution is a successful resolution of
an identifier followed by another one. -/
theorem C24_at_most_once {log : List Event} {s : State} (h : Run log s) (pre post : List Event)
    (id a b : Nat) (hl : log = pre ++ Event.resolved id a :: post) : Event.resolved id b ∉ post := by
  intro hin
  obtain ⟨p1, p2, rfl⟩ := List.append_of_mem hin
  obtain ⟨t, _, hr, hs⟩ := run_split h (pre ++ Event.resolved id a :: p1) (Event.resolved id b) p2
    (by simp [hl])
  cases hs with
  | resolved _ _ hq => exact ((inv_of_run hr).queue id b hq).2 a (by simp)

/-- **C24**: a resolution runs the very action that was handed out before under that
identifier, and no other action was handed out under it. -/
theorem C24_same_action {log : List Event} {s : State} (h : Run log s) (pre post : List Event)
    (id a : Nat) (hl : log = pre ++ Event.resolved id a :: post) :
    Event.handOut id a ∈ pre ∧ ∀ b, Event.handOut id b ∈ log → b = a := by
  obtain ⟨t, _, hr, hs⟩ := run_split h pre _ post hl
  have hi := inv_of_run h
  have h1 : Event.handOut id a ∈ pre := by
    cases hs with
    | resolved _ _ hq => exact ((inv_of_run hr).queue id a hq).1
  exact ⟨h1, fun b hb => hi.once id b a (hi.out id b hb) (hi.out id a (by simp [hl, h1]))⟩

/-- **C24**: an action that was handed out, has not expired and was not resolved can be
resolved: the request is not refused. -/
theorem C24_available {log : List Event} {s : State} (h : Run log s) (id a : Nat)
    (h1 : Event.handOut id a ∈ log) (h2 : Event.expired id ∉ log)
    (h3 : ∀ b, Event.resolved id b ∉ log) :
    (∀ t, ¬ Step s (.refused id) t) ∧ ∃ t, Step s (.resolved id a) t := by
  have hq := (inv_of_run h).kept id a h1 h2 h3
  refine ⟨?_, _, Step.resolved s id a hq⟩
  intro t ht
  cases ht with
  | refused _ hn => exact hn a hq

/-- After a stored action was removed, it does not come back. -/
theorem gone {log : List Event} {s : State} (h : Run log s) (id a : Nat)
    (hout : Event.handOut id a ∈ log) (hq : ∀ b, (id, b) ∉ s.queue) (e : Event) (t : State)
    (hs : Step s e t) : ∀ b, (id, b) ∉ t.queue := by
  have hi := inv_of_run h
  cases hs with
  | create x y hf => exact hq
  | handOut x y hc =>
    intro b hb
    rcases List.mem_cons.mp hb with hb | hb
    · injection hb with e1 e2
      subst e1
      have h1 := (hi.created id y).mp hc
      have := hi.once id y a h1.1 (hi.out id a hout)
      subst this
      exact h1.2 hout
    · exact hq b (mem_delete.mp hb).1
  | expired x hu => exact fun b hb => hq b (mem_delete.mp hb).1
  | resolved x y hq' => exact fun b hb => hq b (mem_delete.mp hb).1
  | refused x hq' => exact hq

/-- **C24**: an expired action is not resolved any more.

Partial: if the timer fires after the action was stored. (It could fire before, if the server
stops for 30 s between two statements, `C24_early_expiry_violated`.) -/
theorem C24_not_after_expiry_partial {log : List Event} {s : State} (h : Run log s)
    (pre post : List Event) (id a : Nat) (hl : log = pre ++ Event.expired id :: post)
    (hout : Event.handOut id a ∈ pre) : ∀ b, Event.resolved id b ∉ post := by
  have key : ∀ {log s}, Run log s → ∀ post, log = pre ++ Event.expired id :: post →
      (∀ b, Event.resolved id b ∉ post) ∧ ∀ b, (id, b) ∉ s.queue := by
    intro log s h
    induction h with
    | init => intro post hl; simp at hl
    | @step log s e t hr hs ih =>
      intro post hl
      rcases List.eq_nil_or_concat post with rfl | ⟨post', x, rfl⟩
      · obtain ⟨rfl, h2⟩ := List.append_inj' hl (by simp)
        injection h2 with h2
        subst h2
        refine ⟨by simp, ?_⟩
        cases hs with
        | expired _ hu => exact fun b hb => (mem_delete.mp hb).2 rfl
      · rw [List.concat_eq_append, ← List.cons_append, ← List.append_assoc] at hl
        obtain ⟨hl', hx⟩ := List.append_inj' hl (by simp)
        injection hx with hx
        subst hx
        obtain ⟨k1, k2⟩ := ih post' hl'
        refine ⟨?_, gone hr id a (by rw [hl']; simp [hout]) k2 e t hs⟩
        intro b hb
        rw [List.concat_eq_append] at hb
        rcases List.mem_append.mp hb with hb | hb
        · exact k1 b hb
        · simp at hb
          subst hb
          cases hs with
          | resolved _ _ hq => exact k2 b hq
  exact (key h post hl).1

/-- C24 is violated if the timer fires between its start and the storing of the action: the
action can be resolved although it expired (and is never removed otherwise). -/
theorem C24_early_expiry_violated :
    ∃ s, Run [.create 1 7, .expired 1, .handOut 1 7, .resolved 1 7] s := by
  have r1 := Run.step Run.init (Step.create init 1 7 (by decide))
  have r2 := Run.step r1 (Step.expired _ 1 (by decide))
  have r3 := Run.step r2 (Step.handOut _ 1 7 (by decide))
  have r4 := Run.step r3 (Step.resolved _ 1 7 (by decide))
  exact ⟨_, r4⟩

/-- A run with two actions, one of which is resolved and one expires. -/
example : ∃ s, Run [.create 1 7, .handOut 1 7, .create 2 8, .handOut 2 8, .expired 1,
    .resolved 2 8, .refused 2, .refused 1] s := by
  have r1 := Run.step Run.init (Step.create init 1 7 (by decide))
  have r2 := Run.step r1 (Step.handOut _ 1 7 (by decide))
  have r3 := Run.step r2 (Step.create _ 2 8 (by decide))
  have r4 := Run.step r3 (Step.handOut _ 2 8 (by decide))
  have r5 := Run.step r4 (Step.expired _ 1 (by decide))
  have r6 := Run.step r5 (Step.resolved _ 2 8 (by decide))
  have r7 := Run.step r6 (Step.refused _ 2 (by intro a h; exact (mem_delete.mp h).2 rfl))
  have r8 := Run.step r7 (Step.refused _ 1 (by
    intro a h
    have h := (mem_delete.mp h).1
    exact (mem_delete.mp h).2 rfl))
  exact ⟨_, r8⟩

end Verif.ActionQueue
