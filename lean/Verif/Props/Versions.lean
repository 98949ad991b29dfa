import Verif.Lemmas.Versions

/-!
# C01, C02, C03: waiting for document versions

`Exec es s`: `es` is the trace of API events (oldest first) of an execution
ending in state `s`, for any interleaving of any number of concurrent calls.
-/
namespace Verif.Versions

/-- **C01** A call `Wait(u, v)` returns nil only after a modification of the same
document `u` whose version is `≥ v` or `-1`. More precisely such a modification
came after the call started, or was the latest one of `u` when it started. -/
theorem C01_wait_sound {es : List Event} {s : State} (h : Exec es s)
    {pre' post' : List Event} {w : Nat} (hg : es = pre' ++ .granted w :: post') :
    ∃ pre u v mid, pre' = pre ++ .request w u v :: mid ∧
      (SatLast pre u v ∨ SatSome mid u v) := by
  induction h generalizing pre' post' w with
  | init => simp at hg
  | step hex hs ih =>
    rcases split_snoc hg with ⟨rfl, rfl, he⟩ | ⟨p, rfl, heq⟩
    · have hinv := inv_exec hex
      cases hs with
      | request u v => simp at he
      | failed w hw hb => simp at he
      | update ms => simp at he
      | granted wt hw hr =>
        simp only [Event.granted.injEq] at he
        subst he
        obtain ⟨pre, post, heq, hwok⟩ := hinv.b wt hw
        refine ⟨pre, wt.uri, wt.version, post, heq, ?_⟩
        unfold WOK at hwok
        unfold canReturn at hr
        cases hst : wt.status with
        | ready => simp only [hst] at hwok; exact Or.inl hwok
        | blocked c =>
          simp only [hst] at hwok hr
          exact Or.inr (hwok.2.1.mp (by simpa using hr))
    · exact ih heq

/-- C01 in its plain form: some modification of `u` with version `≥ v` or `-1`
was processed before the call returned nil. -/
theorem C01_wait_sound_plain {es : List Event} {s : State} (h : Exec es s)
    {pre' post' : List Event} {w : Nat} (hg : es = pre' ++ .granted w :: post') :
    ∃ u v, .request w u v ∈ pre' ∧ ∃ m ∈ mods pre', m.uri = u ∧ (v ≤ m.version ∨ m.version = -1) := by
  obtain ⟨pre, u, v, mid, rfl, hsat⟩ := C01_wait_sound h hg
  refine ⟨u, v, by simp, ?_⟩
  rcases hsat with ⟨k, hk, hs⟩ | ⟨m, hm, hu, hs⟩
  · simp only [lastVersion, Option.map_eq_some_iff] at hk
    obtain ⟨m, hm, rfl⟩ := hk
    have hm := List.mem_of_getLast? hm
    obtain ⟨hm1, hm2⟩ := List.mem_filter.mp hm
    refine ⟨m, ?_, by simpa using hm2, hs⟩
    rw [mods_append]; exact List.mem_append_left _ hm1
  · refine ⟨m, ?_, hu, hs⟩
    rw [mods_append]
    refine List.mem_append_right _ ?_
    have : mods (Event.request w u v :: mid) = mods [Event.request w u v] ++ mods mid := by
      rw [← mods_append]; rfl
    rw [this]; exact List.mem_append_right _ hm

/-- **C02** No lost wake-up: if `Wait(u, v)` was called and afterwards a
modification of `u` with version `≥ v` or `-1` was processed (or was the latest
one of `u` already when the call was made), and the call has not returned yet,
then it can return nil now. -/
theorem C02_no_lost_wakeup {es : List Event} {s : State} (h : Exec es s)
    {pre post : List Event} {w : Nat} {u : Uri} {v : Int}
    (hreq : es = pre ++ .request w u v :: post)
    (hsat : SatLast pre u v ∨ SatSome post u v)
    (hg : .granted w ∉ es) (hf : .failed w ∉ es) :
    ∃ s', Step s (.granted w) s' := by
  have hinv := inv_exec h
  rcases hinv.a pre w u v post hreq with hx | ⟨wt, hwt, h1, h2, h3, hwok⟩
  · exfalso
    rcases hx with hx | hx
    · exact hg (by rw [hreq]; simp [hx])
    · exact hf (by rw [hreq]; simp [hx])
  · subst h1 h2 h3
    refine ⟨_, Step.granted s wt hwt ?_⟩
    unfold WOK at hwok
    unfold canReturn
    cases hst : wt.status with
    | ready => rfl
    | blocked c =>
      simp only [hst] at hwok ⊢
      obtain ⟨k1, k2, k3⟩ := hwok
      rcases hsat with hs | hs
      · exact absurd hs k1
      · simpa using k2.mpr hs

/-- **C02**, converse direction (together with C01 this pins the behaviour down):
a call that has not been satisfied and not been cancelled stays blocked. -/
theorem C02_blocked_otherwise {es : List Event} {s : State} (h : Exec es s)
    {w : Nat} (hen : ∃ s', Step s (.granted w) s') :
    ∃ pre u v mid, es = pre ++ .request w u v :: mid ∧ (SatLast pre u v ∨ SatSome mid u v) := by
  obtain ⟨s', hs⟩ := hen
  have h2 := Exec.step h hs
  exact C01_wait_sound h2 (pre' := es) (post' := []) rfl

/-- **C03** No execution closes a channel twice (no run-time panic). -/
theorem C03_no_double_close {es : List Event} {s : State} (h : Exec es s) :
    s.panicked = false := by
  obtain ⟨owner, hq⟩ := (inv_exec h).q
  exact hq.nopanic

/-- **C03** Calls that wait for different (document, version) pairs never block
on the same channel. -/
theorem C03_channels_not_shared {es : List Event} {s : State} (h : Exec es s)
    {w1 w2 : Waiter} (h1 : w1 ∈ s.waiters) (h2 : w2 ∈ s.waiters) {c : Nat}
    (hc1 : w1.status = .blocked c) (hc2 : w2.status = .blocked c) :
    w1.uri = w2.uri ∧ w1.version = w2.version := by
  obtain ⟨owner, hq⟩ := (inv_exec h).q
  have a := hq.wowner w1 h1 c hc1
  have b := hq.wowner w2 h2 c hc2
  rw [a] at b
  simpa using b

/-! Non-trivial executions meeting the hypotheses. -/

/-- Two waiters for the same version, an insufficient update, an update of another
document, then a sufficient one: waiter 0 is released. -/
example : ∃ s, Exec
    [.request 0 "a" 3, .request 1 "a" 3, .update [⟨"a", 2⟩], .update [⟨"b", 9⟩, ⟨"a", 4⟩],
      .granted 0] s :=
  ⟨_, .step (.step (.step (.step (.step .init (.request _ "a" 3)) (.request _ "a" 3))
      (.update _ [⟨"a", 2⟩])) (.update _ [⟨"b", 9⟩, ⟨"a", 4⟩]))
      (.granted _ ⟨0, "a", 3, .blocked 0⟩ (by decide) (by decide))⟩

/-- The hypotheses of C02 for waiter 1 in the same execution. -/
example : SatSome [.update [⟨"a", 2⟩], .update [⟨"b", 9⟩, ⟨"a", 4⟩]] "a" 3 :=
  ⟨⟨"a", 4⟩, by decide, rfl, Or.inl (by decide)⟩

/-- The early-return case. -/
example : SatLast [.update [⟨"a", 2⟩], .update [⟨"a", -1⟩]] "a" 3 :=
  ⟨-1, by decide, Or.inr rfl⟩

/-- Two blocked waiters sharing a channel exist (C03 is not vacuous). -/
example : ∃ s, Exec [.request 0 "a" 3, .request 1 "a" 3] s ∧
    ⟨0, "a", 3, .blocked 0⟩ ∈ s.waiters ∧ ⟨1, "a", 3, .blocked 0⟩ ∈ s.waiters :=
  ⟨_, .step (.step .init (.request _ "a" 3)) (.request _ "a" 3), by decide, by decide⟩

end Verif.Versions
