import Verif.Model.Async

/-!
# C26: requests are handled in the order in which they arrive
-/
namespace Verif.Async

/-- Specification: the kind (long-lived?) of request `i`, read off the log. -/
def kinds (log : List Event) : List Bool :=
  log.filterMap (fun e => match e with | .arrive k => some k | _ => none)

structure Inv (log : List Event) (s : State) : Prop where
  sameKinds : s.reqs.map Req.streaming = kinds log
  started : ∀ i q, s.reqs[i]? = some q → (q.started = true ↔ Event.start i ∈ log)
  replied : ∀ i q, s.reqs[i]? = some q → (q.replied = true ↔ Event.reply i ∈ log)
  order : ∀ i, Event.reply i ∈ log → Event.start i ∈ log
  range : ∀ i, Event.start i ∈ log → i < s.reqs.length
  opened : ∀ i, Event.start i ∈ log → i ∈ s.closed
  closed : ∀ c, c ∈ s.closed ↔ c = 0 ∨ ∃ i, c = i + 1 ∧ i < s.reqs.length ∧
    ((kinds log)[i]? = some true ∨ ((kinds log)[i]? = some false ∧ Event.reply i ∈ log))
  panicked : s.panicked = false

theorem kinds_append (log : List Event) (e : Event) :
    kinds (log ++ [e]) = kinds log ++ (match e with | .arrive k => [k] | _ => []) := by
  cases e <;> simp [kinds]

theorem close_eq {s : State} {c : Nat} (h : c ∉ s.closed) : close s c = { s with closed := c :: s.closed } := by
  simp [close, h]

theorem inv_of_run {log : List Event} {s : State} (h : Run log s) : Inv log s := by
  induction h with
  | init =>
    constructor <;> simp [kinds]
  | @step log s e t hr hs ih =>
    have ih' := ih
    obtain ⟨i1, i2, i3, i4, i5, i6, i7, i8⟩ := ih
    have hlen : (kinds log).length = s.reqs.length := by rw [← i1]; simp
    have hk : ∀ (i : Nat) (q : Req), s.reqs[i]? = some q → (kinds log)[i]? = some q.streaming := by
      intro i q hq; rw [← i1, List.getElem?_map, hq]; rfl
    cases hs with
    | arriveStreaming =>
      have hnc : s.reqs.length + 1 ∉ s.closed := by
        intro hc
        rcases (i7 _).mp hc with h | ⟨i, h1, h2, _⟩ <;> omega
      rw [close_eq (by exact hnc)]
      have hkk : kinds (log ++ [Event.arrive true]) = kinds log ++ [true] := kinds_append _ _
      constructor
      · simp [hkk, i1]
      · intro i q hq
        simp only [List.mem_append, List.mem_singleton]
        by_cases hi : i < s.reqs.length
        · rw [List.getElem?_append_left hi] at hq
          rw [i2 i q hq]; simp
        · have : i = s.reqs.length := by
            have := (List.getElem?_eq_some_iff.mp hq).1
            simp at this; omega
          subst this
          simp at hq
          subst hq
          simp
          intro hin; have := i5 _ hin; omega
      · intro i q hq
        simp only [List.mem_append, List.mem_singleton]
        by_cases hi : i < s.reqs.length
        · rw [List.getElem?_append_left hi] at hq
          rw [i3 i q hq]; simp
        · have : i = s.reqs.length := by
            have := (List.getElem?_eq_some_iff.mp hq).1
            simp at this; omega
          subst this
          simp at hq
          subst hq
          simp
          intro hin; have := i5 _ (i4 _ hin); omega
      · intro i; simp; exact i4 i
      · intro i hin; simp at hin ⊢; have := i5 i hin; omega
      · intro i hin; simp at hin; exact List.mem_cons_of_mem _ (i6 i hin)
      · intro c
        simp only [List.mem_cons, i7 c, hkk, List.mem_append, List.length_append, List.length_singleton]
        constructor
        · rintro (rfl | rfl | ⟨i, rfl, h2, h3⟩)
          · refine .inr ⟨s.reqs.length, rfl, by omega, .inl ?_⟩
            rw [← hlen]; simp
          · exact .inl rfl
          · refine .inr ⟨i, rfl, by omega, ?_⟩
            rw [List.getElem?_append_left (by omega)]
            rcases h3 with h3 | ⟨h3, h4⟩
            · exact .inl h3
            · exact .inr ⟨h3, .inl h4⟩
        · rintro (rfl | ⟨i, rfl, h2, h3⟩)
          · exact .inr (.inl rfl)
          · by_cases hi : i < s.reqs.length
            · rw [List.getElem?_append_left (by omega)] at h3
              refine .inr (.inr ⟨i, rfl, hi, ?_⟩)
              simpa using h3
            · left; omega
      · exact i8
    | arrive =>
      have hkk : kinds (log ++ [Event.arrive false]) = kinds log ++ [false] := kinds_append _ _
      constructor
      · simp [hkk, i1]
      · intro i q hq
        simp only [List.mem_append, List.mem_singleton]
        by_cases hi : i < s.reqs.length
        · rw [List.getElem?_append_left hi] at hq
          rw [i2 i q hq]; simp
        · have : i = s.reqs.length := by
            have := (List.getElem?_eq_some_iff.mp hq).1
            simp at this; omega
          subst this
          simp at hq
          subst hq
          simp
          intro hin; have := i5 _ hin; omega
      · intro i q hq
        simp only [List.mem_append, List.mem_singleton]
        by_cases hi : i < s.reqs.length
        · rw [List.getElem?_append_left hi] at hq
          rw [i3 i q hq]; simp
        · have : i = s.reqs.length := by
            have := (List.getElem?_eq_some_iff.mp hq).1
            simp at this; omega
          subst this
          simp at hq
          subst hq
          simp
          intro hin; have := i5 _ (i4 _ hin); omega
      · intro i; simp; exact i4 i
      · intro i hin; simp at hin ⊢; have := i5 i hin; omega
      · intro i hin; simp at hin; exact i6 i hin
      · intro c
        simp only [i7 c, hkk, List.mem_append, List.length_append, List.length_singleton]
        constructor
        · rintro (rfl | ⟨i, rfl, h2, h3⟩)
          · exact .inl rfl
          · refine .inr ⟨i, rfl, by omega, ?_⟩
            rw [List.getElem?_append_left (by omega)]
            rcases h3 with h3 | ⟨h3, h4⟩
            · exact .inl h3
            · exact .inr ⟨h3, .inl h4⟩
        · rintro (rfl | ⟨i, rfl, h2, h3⟩)
          · exact .inl rfl
          · by_cases hi : i < s.reqs.length
            · rw [List.getElem?_append_left (by omega)] at h3
              refine .inr ⟨i, rfl, hi, ?_⟩
              simpa using h3
            · have : i = s.reqs.length := by omega
              subst this
              rw [← hlen] at h3
              simp at h3
              have := i5 _ (i4 _ h3)
              omega
      · exact i8
    | start i q hq hn hc =>
      have hi := (List.getElem?_eq_some_iff.mp hq).1
      have hkk : kinds (log ++ [Event.start i]) = kinds log := by rw [kinds_append]; simp
      constructor
      · rw [hkk, ← i1]
        apply List.ext_getElem?
        intro j
        simp only [List.getElem?_map, List.getElem?_set]
        by_cases hj : i = j
        · subst hj
          have : q = s.reqs[i] := (List.getElem?_eq_some_iff.mp hq).2.symm
          simp [hi, this]
        · simp [hj]
      · intro j r hr'
        simp only [List.mem_append, List.mem_singleton, Event.start.injEq]
        rw [List.getElem?_set] at hr'
        by_cases hj : i = j
        · subst hj; simp [hi] at hr'; subst hr'; simp
        · simp [hj] at hr'; rw [i2 j r hr']; simp [Ne.symm hj]
      · intro j r hr'
        simp only [List.mem_append, List.mem_singleton]
        rw [List.getElem?_set] at hr'
        by_cases hj : i = j
        · subst hj; simp [hi] at hr'; subst hr'; simpa using i3 i q hq
        · simp [hj] at hr'; rw [i3 j r hr']; simp
      · intro j hj; simp at hj ⊢; exact .inl (i4 j hj)
      · intro j hj
        simp at hj ⊢
        rcases hj with hj | rfl
        · exact i5 j hj
        · exact hi
      · intro j hj
        simp at hj
        rcases hj with hj | rfl
        · exact i6 j hj
        · exact hc
      · intro c
        simp only [i7 c, hkk, List.mem_append, List.mem_singleton, List.length_set, or_false, reduceCtorEq]
      · exact i8
    | replyStreaming i q hq hst hr' hkq =>
      have hi := (List.getElem?_eq_some_iff.mp hq).1
      have hkk : kinds (log ++ [Event.reply i]) = kinds log := by rw [kinds_append]; simp
      have hki : (kinds log)[i]? = some true := by rw [hk i q hq, hkq]
      constructor
      · rw [hkk, ← i1]
        apply List.ext_getElem?
        intro j
        simp only [List.getElem?_map, List.getElem?_set]
        by_cases hj : i = j
        · subst hj
          have : q = s.reqs[i] := (List.getElem?_eq_some_iff.mp hq).2.symm
          simp [hi, this]
        · simp [hj]
      · intro j r hr''
        simp only [List.mem_append, List.mem_singleton]
        rw [List.getElem?_set] at hr''
        by_cases hj : i = j
        · subst hj; simp [hi] at hr''; subst hr''; simpa using i2 i q hq
        · simp [hj] at hr''; rw [i2 j r hr'']; simp
      · intro j r hr''
        simp only [List.mem_append, List.mem_singleton, Event.reply.injEq]
        rw [List.getElem?_set] at hr''
        by_cases hj : i = j
        · subst hj; simp [hi] at hr''; subst hr''; simp
        · simp [hj] at hr''; rw [i3 j r hr'']; simp [Ne.symm hj]
      · intro j hj
        simp at hj ⊢
        rcases hj with hj | rfl
        · exact i4 j hj
        · exact (i2 _ q hq).mp hst
      · intro j hj; simp at hj ⊢; exact i5 j hj
      · intro j hj; simp at hj; exact i6 j hj
      · intro c
        simp only [i7 c, hkk, List.mem_append, List.mem_singleton, List.length_set, Event.reply.injEq]
        constructor
        · rintro (h | ⟨j, h1, h2, h3⟩)
          · exact .inl h
          · exact .inr ⟨j, h1, h2, h3.imp id (fun h => ⟨h.1, .inl h.2⟩)⟩
        · rintro (h | ⟨j, h1, h2, h3⟩)
          · exact .inl h
          · refine .inr ⟨j, h1, h2, ?_⟩
            rcases h3 with h3 | ⟨h3, h4 | rfl⟩
            · exact .inl h3
            · exact .inr ⟨h3, h4⟩
            · exact .inl hki
      · exact i8
    | reply i q hq hst hr' hkq =>
      have hi := (List.getElem?_eq_some_iff.mp hq).1
      have hkk : kinds (log ++ [Event.reply i]) = kinds log := by rw [kinds_append]; simp
      have hki : (kinds log)[i]? = some false := by rw [hk i q hq, hkq]
      have hnr : Event.reply i ∉ log := by rw [← i3 i q hq, hr']; simp
      have hnc : i + 1 ∉ s.closed := by
        intro hc
        rcases (i7 _).mp hc with h | ⟨j, h1, h2, h3⟩
        · omega
        · have : j = i := by omega
          subst this
          rw [hki] at h3
          rcases h3 with h3 | h3
          · simp at h3
          · exact hnr h3.2
      rw [close_eq (by exact hnc)]
      constructor
      · rw [hkk, ← i1]
        apply List.ext_getElem?
        intro j
        simp only [List.getElem?_map, List.getElem?_set]
        by_cases hj : i = j
        · subst hj
          have : q = s.reqs[i] := (List.getElem?_eq_some_iff.mp hq).2.symm
          simp [hi, this]
        · simp [hj]
      · intro j r hr''
        simp only [List.mem_append, List.mem_singleton]
        rw [List.getElem?_set] at hr''
        by_cases hj : i = j
        · subst hj; simp [hi] at hr''; subst hr''; simpa using i2 i q hq
        · simp [hj] at hr''; rw [i2 j r hr'']; simp
      · intro j r hr''
        simp only [List.mem_append, List.mem_singleton, Event.reply.injEq]
        rw [List.getElem?_set] at hr''
        by_cases hj : i = j
        · subst hj; simp [hi] at hr''; subst hr''; simp
        · simp [hj] at hr''; rw [i3 j r hr'']; simp [Ne.symm hj]
      · intro j hj
        simp at hj ⊢
        rcases hj with hj | rfl
        · exact i4 j hj
        · exact (i2 _ q hq).mp hst
      · intro j hj; simp at hj ⊢; exact i5 j hj
      · intro j hj; simp at hj; exact List.mem_cons_of_mem _ (i6 j hj)
      · intro c
        simp only [List.mem_cons, i7 c, hkk, List.mem_append, List.mem_singleton, List.length_set, Event.reply.injEq]
        constructor
        · rintro (rfl | h | ⟨j, h1, h2, h3⟩)
          · exact .inr ⟨i, rfl, hi, .inr ⟨hki, .inr (by simp)⟩⟩
          · exact .inl h
          · exact .inr ⟨j, h1, h2, h3.imp id (fun h => ⟨h.1, .inl h.2⟩)⟩
        · rintro (h | ⟨j, h1, h2, h3⟩)
          · exact .inr (.inl h)
          · rcases h3 with h3 | ⟨h3, h4 | h4⟩
            · exact .inr (.inr ⟨j, h1, h2, .inl h3⟩)
            · exact .inr (.inr ⟨j, h1, h2, .inr ⟨h3, h4⟩⟩)
            · simp at h4; subst h4; exact .inl h1
      · exact i8

/-- Split a run at an event of its log. -/
theorem run_split {log : List Event} {s : State} (h : Run log s) (pre : List Event) (e : Event)
    (post : List Event) (hl : log = pre ++ e :: post) : ∃ a b, Run pre a ∧ Step a e b := by
  induction h generalizing post with
  | init => simp at hl
  | @step log s e' t hr hs ih =>
    rcases List.eq_nil_or_concat post with rfl | ⟨post', x, rfl⟩
    · obtain ⟨rfl, h2⟩ := List.append_inj' hl (by simp)
      injection h2 with h2
      subst h2
      exact ⟨s, t, hr, hs⟩
    · rw [List.concat_eq_append, ← List.cons_append, ← List.append_assoc] at hl
      exact ih post' (List.append_inj' hl (by simp)).1

/-- The channel of request `j` is closed only if the ordinary requests right before it are
answered. -/
theorem chain {log : List Event} {s : State} (hi : Inv log s) (i : Nat) : ∀ (d : Nat),
    i + d + 1 ∈ s.closed → (∀ k, i ≤ k → k ≤ i + d → (kinds log)[k]? = some false) →
    Event.reply i ∈ log := by
  intro d
  induction d with
  | zero =>
    intro hc hk
    rcases (hi.closed _).mp hc with h | ⟨j, h1, _, h3⟩
    · omega
    · have : j = i := by omega
      subst this
      rw [hk j (by omega) (by omega)] at h3
      simpa using h3
  | succ d ih =>
    intro hc hk
    rcases (hi.closed _).mp hc with h | ⟨j, h1, _, h3⟩
    · omega
    · have : j = i + d + 1 := by omega
      subst this
      rw [hk _ (by omega) (by omega)] at h3
      simp at h3
      exact ih (hi.opened _ (hi.order _ h3)) (fun k h1 h2 => hk k h1 (by omega))

/-- **C26**, order: in every execution, when request `j` is started, every ordinary request `i`
received before has been answered.

Partial: if no long-lived request was received between `i` and `j`
(`C26_overtaking_violated`). -/
theorem C26_order_partial {log : List Event} {s : State} (h : Run log s) (pre post : List Event)
    (i j : Nat) (hl : log = pre ++ Event.start j :: post) (hij : i < j)
    (hk : ∀ k, i ≤ k → k < j → (kinds pre)[k]? = some false) : Event.reply i ∈ pre := by
  obtain ⟨a, b, hr, hs⟩ := run_split h pre _ post hl
  cases hs with
  | start _ q hq hn hc =>
    obtain ⟨d, rfl⟩ : ∃ d, j = i + d + 1 := ⟨j - i - 1, by omega⟩
    exact chain (inv_of_run hr) i d hc (fun k h1 h2 => hk k h1 (by omega))

/-- **C26**: if there are only ordinary requests, they are handled strictly one after the
other. -/
theorem C26_fifo {log : List Event} {s : State} (h : Run log s) (pre post : List Event)
    (i j : Nat) (hl : log = pre ++ Event.start j :: post) (hij : i < j)
    (hk : ∀ k ∈ kinds log, k = false) : Event.reply i ∈ pre := by
  refine C26_order_partial h pre post i j hl hij ?_
  intro k _ hkj
  obtain ⟨a, b, hr, hs⟩ := run_split h pre _ post hl
  have hi := inv_of_run hr
  cases hs with
  | start _ q hq hn hc =>
    have hlt := (List.getElem?_eq_some_iff.mp hq).1
    have hlen : (kinds pre).length = a.reqs.length := by rw [← hi.sameKinds]; simp
    have hk' : k < (kinds pre).length := by omega
    rw [List.getElem?_eq_getElem hk']
    congr 1
    refine hk _ ?_
    rw [hl]
    simp only [kinds, List.filterMap_append, List.mem_append]
    exact .inl (List.getElem_mem hk')

/-- **C26**: no request is started twice. -/
theorem C26_not_twice {log : List Event} {s : State} (h : Run log s) (pre post : List Event)
    (i : Nat) (hl : log = pre ++ Event.start i :: post) : Event.start i ∉ post := by
  intro hin
  obtain ⟨p1, p2, rfl⟩ := List.append_of_mem hin
  obtain ⟨a, b, hr, hs⟩ := run_split h (pre ++ Event.start i :: p1) (Event.start i) p2 (by simp [hl])
  cases hs with
  | start _ q hq hn hc =>
    have := ((inv_of_run hr).started i q hq).mpr (by simp)
    rw [hn] at this
    simp at this

/-- **C26**: no request is skipped: a received request that was not started can be started as
soon as all ordinary requests before it are answered. Long-lived requests do not hold it up. -/
theorem C26_not_skipped {log : List Event} {s : State} (h : Run log s) (j : Nat)
    (hj : j < (kinds log).length) (hn : Event.start j ∉ log)
    (hprev : ∀ i < j, (kinds log)[i]? = some false → Event.reply i ∈ log) :
    ∃ t, Step s (.start j) t := by
  have hi := inv_of_run h
  have hlen : (kinds log).length = s.reqs.length := by rw [← hi.sameKinds]; simp
  have hq : s.reqs[j]? = some (s.reqs[j]'(by omega)) := List.getElem?_eq_getElem (by omega)
  refine ⟨_, Step.start s j _ hq ?_ ?_⟩
  · cases hst : (s.reqs[j]'(by omega)).started with
    | false => rfl
    | true => exact absurd ((hi.started j _ hq).mp hst) hn
  · rw [hi.closed]
    cases j with
    | zero => exact .inl rfl
    | succ i =>
      refine .inr ⟨i, rfl, by omega, ?_⟩
      cases hk : (kinds log)[i]? with
      | none => rw [List.getElem?_eq_none_iff] at hk; omega
      | some b =>
        cases b with
        | true => exact .inl rfl
        | false => exact .inr ⟨rfl, hprev i (by omega) hk⟩

/-- **C26**: a request right behind a long-lived one can be started at once, whatever the
state of earlier requests. -/
theorem C26_long_lived_no_hold_up {log : List Event} {s : State} (h : Run log s) (i : Nat)
    (hj : i + 1 < (kinds log).length) (hn : Event.start (i + 1) ∉ log)
    (hs : (kinds log)[i]? = some true) : ∃ t, Step s (.start (i + 1)) t := by
  have hi := inv_of_run h
  have hlen : (kinds log).length = s.reqs.length := by rw [← hi.sameKinds]; simp
  have hq : s.reqs[i + 1]? = some (s.reqs[i + 1]'(by omega)) := List.getElem?_eq_getElem (by omega)
  refine ⟨_, Step.start s (i + 1) _ hq ?_ ?_⟩
  · cases hst : (s.reqs[i + 1]'(by omega)).started with
    | false => rfl
    | true => exact absurd ((hi.started (i + 1) _ hq).mp hst) hn
  · exact (hi.closed _).mpr (.inr ⟨i, rfl, by omega, .inl hs⟩)

/-- No channel is closed twice (which would crash the server). -/
theorem C26_no_panic {log : List Event} {s : State} (h : Run log s) : s.panicked = false :=
  (inv_of_run h).panicked

/-- C26 is violated with a long-lived request in between: request 0 (say, a document change) is
still being handled when request 2 (say, hover) starts, because request 1 is long-lived. -/
theorem C26_overtaking_violated :
    ∃ (log : List Event) (s : State), Run log s ∧ kinds log = [false, true, false] ∧
      Event.start 2 ∈ log ∧ Event.reply 0 ∉ log := by
  have r1 := Run.step Run.init (Step.arrive {})
  have r2 := Run.step r1 (Step.start _ 0 _ rfl rfl (by decide))
  have r3 := Run.step r2 (Step.arriveStreaming _)
  have r4 := Run.step r3 (Step.arrive _)
  have r5 := Run.step r4 (Step.start _ 2 _ rfl rfl (by decide))
  exact ⟨_, _, r5, by decide, by decide, by decide⟩

/-- Two ordinary requests. -/
example : ∃ s, Run [.arrive false, .arrive false, .start 0, .reply 0, .start 1, .reply 1] s := by
  have r1 := Run.step Run.init (Step.arrive {})
  have r2 := Run.step r1 (Step.arrive _)
  have r3 := Run.step r2 (Step.start _ 0 _ rfl rfl (by decide))
  have r4 := Run.step r3 (Step.reply _ 0 _ rfl rfl rfl rfl)
  have r5 := Run.step r4 (Step.start _ 1 _ rfl rfl (by decide))
  have r6 := Run.step r5 (Step.reply _ 1 _ rfl rfl rfl rfl)
  exact ⟨_, r6⟩

end Verif.Async
