import Verif.Spec.ExtPlugin
/-!
# Lemmas about external generators
-/
namespace Verif.ExtPlugin

variable {σ α : Type}

/-- What holds in every state of a call. -/
structure Inv (prog : Prog σ α) (s0 : σ) (request : List α) (st : State σ α) : Prop where
  /-- Once the first pipe is closed, everything has been written to it, and only then. -/
  closed : (st.phase = .writing → st.open_ = true) ∧ (st.open_ = false → st.rest = []) ∧ (st.phase = .reading → st.open_ = false)
  /-- The result of the plugin on what it has still to read completes the one on the request. -/
  answer : ∀ s, st.child = .running s → ∀ out ok, Runs prog s (st.inBuf ++ st.rest) out ok →
    Runs prog s0 request (st.got ++ st.outBuf ++ out) ok
  exited : ∀ ok, st.child = .exited ok → Runs prog s0 request (st.got ++ st.outBuf) ok
  waiting : st.phase = .waiting → (∃ ok, st.child = .exited ok) ∧ st.outBuf = []
  answered : ∀ b, st.phase = .answered b → b = st.got ∧ st.outBuf = [] ∧ st.child = .exited true

theorem inv_init (prog : Prog σ α) (s0 : σ) (request : List α) : Inv prog s0 request (State.init s0 request) := by
  refine ⟨⟨fun _ => rfl, fun h => by simp [State.init] at h, fun h => by simp [State.init] at h⟩, ?_, ?_, ?_, ?_⟩
  · intro s hs out ok hr
    simp only [State.init, Child.running.injEq] at hs
    subst hs
    simpa [State.init] using hr
  · intro ok h; simp [State.init] at h
  · intro h; simp [State.init] at h
  · intro b h; simp [State.init] at h

theorem inv_step {prog : Prog σ α} {cap : Nat} {s0 : σ} {request : List α} {st st' : State σ α} (h : Inv prog s0 request st)
    (hs : Step prog cap st st') : Inv prog s0 request st' := by
  obtain ⟨⟨c1, c2, c3⟩, ha, he, hw, hd⟩ := h
  cases hs with
  | write hp hr hc hb =>
    rename_i a t s
    refine ⟨⟨c1, fun ho => ?_, c3⟩, ?_, he, hw, hd⟩
    · simp only [] at ho
      rw [c1 hp] at ho; cases ho
    · intro s' hs' out ok hrun
      refine ha s' hs' out ok ?_
      rw [hr]
      simpa using hrun
  | broken hp hr hc =>
    exact ⟨⟨fun h => by simp at h, fun ho => absurd ((c1 hp).symm.trans ho) (by simp), fun h => by simp at h⟩, ha, he,
      fun h => by simp at h, fun b h => by simp at h⟩
  | close hp hr =>
    exact ⟨⟨fun h => by simp at h, fun _ => hr, fun _ => rfl⟩, ha, he, fun h => by simp at h, fun b h => by simp at h⟩
  | read hp hb =>
    rename_i a t
    refine ⟨⟨c1, c2, c3⟩, ?_, ?_, fun h => ?_, fun b h => ?_⟩
    · intro s hs out ok hrun
      have := ha s hs out ok hrun
      rw [hb] at this
      simpa using this
    · intro ok hs
      have := he ok hs
      rw [hb] at this
      simpa using this
    · simp only [] at h; rw [hp] at h; cases h
    · simp only [] at h; rw [hp] at h; cases h
  | eof hp hb hc =>
    exact ⟨⟨fun h => by simp at h, c2, fun h => by simp at h⟩, ha, he, fun _ => ⟨⟨_, hc⟩, hb⟩, fun b h => by simp at h⟩
  | wait hp hc =>
    rename_i ok
    refine ⟨⟨fun h => ?_, c2, fun h => ?_⟩, ha, he, fun h => ?_, fun b h => ?_⟩
    · cases ok <;> simp at h
    · cases ok <;> simp at h
    · cases ok <;> simp at h
    · cases ok with
      | false => simp at h
      | true =>
        simp only [if_true, Phase.answered.injEq] at h
        exact ⟨h.symm, (hw hp).2, hc⟩
  | childRead hc hk hb =>
    rename_i s k a t
    refine ⟨⟨c1, c2, c3⟩, ?_, ?_, fun h => ?_, fun b h => ?_⟩
    · intro s' hs' out ok hrun
      simp only [Child.running.injEq] at hs'
      subst hs'
      refine ha s hc out ok ?_
      rw [hb]
      exact .read hk hrun
    · intro ok h; simp at h
    · obtain ⟨⟨ok, h1⟩, -⟩ := hw h
      rw [hc] at h1; cases h1
    · have := (hd b h).2.2
      rw [hc] at this; cases this
  | childEof hc hk hb ho =>
    rename_i s k
    refine ⟨⟨c1, c2, c3⟩, ?_, ?_, fun h => ?_, fun b h => ?_⟩
    · intro s' hs' out ok hrun
      simp only [Child.running.injEq] at hs'
      subst hs'
      refine ha s hc out ok ?_
      have hr := c2 ho
      simp only [hb, hr, List.append_nil] at hrun ⊢
      exact .eof hk hrun
    · intro ok h; simp at h
    · obtain ⟨⟨ok, h1⟩, -⟩ := hw h
      rw [hc] at h1; cases h1
    · have := (hd b h).2.2
      rw [hc] at this; cases this
  | childWrite hc hk hb =>
    rename_i s a n
    refine ⟨⟨c1, c2, c3⟩, ?_, ?_, fun h => ?_, fun b h => ?_⟩
    · intro s' hs' out ok hrun
      simp only [Child.running.injEq] at hs'
      subst hs'
      have := ha s hc (a :: out) ok (.write hk hrun)
      simpa using this
    · intro ok h; simp at h
    · obtain ⟨⟨ok, h1⟩, -⟩ := hw h
      rw [hc] at h1; cases h1
    · have := (hd b h).2.2
      rw [hc] at this; cases this
  | childExit hc hk =>
    rename_i s ok
    refine ⟨⟨c1, c2, c3⟩, ?_, ?_, fun h => ?_, fun b h => ?_⟩
    · intro s' hs'; simp at hs'
    · intro ok' h
      simp only [Child.exited.injEq] at h
      subst h
      have := ha s hc [] ok (.exit hk)
      simpa using this
    · obtain ⟨⟨ok, h1⟩, -⟩ := hw h
      rw [hc] at h1; cases h1
    · have := (hd b h).2.2
      rw [hc] at this; cases this

theorem inv_run {prog : Prog σ α} {cap : Nat} {s0 : σ} {request : List α} {n : Nat} {st : State σ α}
    (h : Run prog cap (State.init s0 request) n st) : Inv prog s0 request st := by
  induction h with
  | refl => exact inv_init _ _ _
  | step _ hs ih => exact inv_step ih hs

/-- A program has one result. -/
theorem runs_unique {prog : Prog σ α} {s : σ} {inp out out' : List α} {ok ok' : Bool} (h : Runs prog s inp out ok)
    (h' : Runs prog s inp out' ok') : out = out' ∧ ok = ok' := by
  induction h generalizing out' ok' with
  | read h hr ih =>
    cases h' with
    | read h2 hr2 => rw [h] at h2; cases h2; exact ih hr2
    | write h2 => rw [h] at h2; cases h2
    | exit h2 => rw [h] at h2; cases h2
  | eof h hr ih =>
    cases h' with
    | eof h2 hr2 => rw [h] at h2; cases h2; exact ih hr2
    | write h2 => rw [h] at h2; cases h2
    | exit h2 => rw [h] at h2; cases h2
  | write h hr ih =>
    cases h' with
    | read h2 => rw [h] at h2; cases h2
    | eof h2 => rw [h] at h2; cases h2
    | write h2 hr2 =>
      rw [h] at h2; cases h2
      obtain ⟨e1, e2⟩ := ih hr2
      exact ⟨by rw [e1], e2⟩
    | exit h2 => rw [h] at h2; cases h2
  | exit h =>
    cases h' with
    | read h2 => rw [h] at h2; cases h2
    | eof h2 => rw [h] at h2; cases h2
    | write h2 => rw [h] at h2; cases h2
    | exit h2 => rw [h] at h2; cases h2; exact ⟨rfl, rfl⟩

theorem runs_of_halts {prog : Prog σ α} {s : σ} {inp : List α} {n : Nat} (h : Halts prog s inp n) :
    ∃ out ok, Runs prog s inp out ok := by
  induction h with
  | read h _ ih => obtain ⟨out, ok, hr⟩ := ih; exact ⟨out, ok, .read h hr⟩
  | eof h _ ih => obtain ⟨out, ok, hr⟩ := ih; exact ⟨out, ok, .eof h hr⟩
  | write h _ ih => obtain ⟨out, ok, hr⟩ := ih; exact ⟨_, ok, .write h hr⟩
  | exit h => exact ⟨[], _, .exit h⟩

/-! ## No step -/

/-- When no step is possible and the call has not returned, both processes are writing into full pipes. -/
theorem stuck {prog : Prog σ α} {cap : Nat} (hcap : 0 < cap) {s0 : σ} {request : List α} {st : State σ α}
    (hi : Inv prog s0 request st) (hn : ∀ st', ¬ Step prog cap st st') (hd : st.done = false) :
    st.phase = .writing ∧ cap ≤ st.inBuf.length ∧ cap ≤ st.outBuf.length ∧ ∃ s a m, st.child = .running s ∧ prog s = .write a m := by
  obtain ⟨⟨c1, c2, c3⟩, -, -, hw, -⟩ := hi
  have hphase : st.phase = .writing ∨ st.phase = .reading ∨ st.phase = .waiting := by
    unfold State.done at hd
    cases hp : st.phase <;> simp [hp] at hd ⊢
  rcases hphase with hp | hp | hp
  · -- writing
    cases hr : st.rest with
    | nil => exact absurd (.close hp hr) (hn _)
    | cons a t =>
      cases hc : st.child with
      | exited ok => exact absurd (.broken hp hr hc) (hn _)
      | running s =>
        have hfull : cap ≤ st.inBuf.length := by
          rcases Nat.lt_or_ge st.inBuf.length cap with h | h
          · exact absurd (.write hp hr hc h) (hn _)
          · exact h
        cases hk : prog s with
        | read k =>
          cases hb : st.inBuf with
          | nil => rw [hb] at hfull; simp at hfull; omega
          | cons b u => exact absurd (.childRead hc hk hb) (hn _)
        | write b m =>
          refine ⟨hp, hfull, ?_, s, b, m, rfl, hk⟩
          rcases Nat.lt_or_ge st.outBuf.length cap with h | h
          · exact absurd (.childWrite hc hk h) (hn _)
          · exact h
        | exit ok => exact absurd (.childExit hc hk) (hn _)
  · -- reading
    cases hb : st.outBuf with
    | cons a t => exact absurd (.read hp hb) (hn _)
    | nil =>
      cases hc : st.child with
      | exited ok => exact absurd (.eof hp hb hc) (hn _)
      | running s =>
        cases hk : prog s with
        | read k =>
          cases hi : st.inBuf with
          | nil => exact absurd (.childEof hc hk hi (c3 hp)) (hn _)
          | cons b u => exact absurd (.childRead hc hk hi) (hn _)
        | write b m => exact absurd (.childWrite hc hk (by rw [hb]; simpa using hcap)) (hn _)
        | exit ok => exact absurd (.childExit hc hk) (hn _)
  · obtain ⟨⟨ok, hc⟩, -⟩ := hw hp
    exact absurd (.wait hp hc) (hn _)

/-! ## Patient programs -/

/-- Before the input is closed the program is in its initial states and has room for what it may write. -/
def Room (Q : σ → Nat → Prop) (cap : Nat) (st : State σ α) : Prop :=
  st.open_ = true → st.phase = .writing ∧ ∃ s n, st.child = .running s ∧ Q s n ∧ st.outBuf.length + n ≤ cap

theorem room_step {prog : Prog σ α} {cap : Nat} {Q : σ → Nat → Prop} (hq : Patient prog Q) {st st' : State σ α}
    (h : Room Q cap st) (hs : Step prog cap st st') : Room Q cap st' := by
  intro ho
  cases hs with
  | write hp hr hc hb => exact h ho
  | broken hp hr hc =>
    obtain ⟨-, s, n, h1, -⟩ := h ho
    rw [hc] at h1; cases h1
  | close hp hr => simp at ho
  | read hp hb =>
    obtain ⟨h0, -⟩ := h ho
    rw [hp] at h0; cases h0
  | eof hp hb hc =>
    obtain ⟨h0, -⟩ := h ho
    rw [hp] at h0; cases h0
  | wait hp hc =>
    obtain ⟨h0, -⟩ := h ho
    rw [hp] at h0; cases h0
  | childRead hc hk hb =>
    obtain ⟨h0, s, n, h1, h2, h3⟩ := h ho
    rw [hc] at h1; cases h1
    exact ⟨h0, _, n, rfl, hq.read _ _ _ _ h2 hk, h3⟩
  | childEof hc hk hb ho' =>
    simp only [] at ho
    rw [ho] at ho'; cases ho'
  | childWrite hc hk hb =>
    obtain ⟨h0, s, n, h1, h2, h3⟩ := h ho
    rw [hc] at h1; cases h1
    obtain ⟨h4, h5⟩ := hq.write _ _ _ _ h2 hk
    refine ⟨h0, _, n - 1, rfl, h5, ?_⟩
    simp only [List.length_append, List.length_cons, List.length_nil]
    omega
  | childExit hc hk =>
    obtain ⟨h0, s, n, h1, h2, h3⟩ := h ho
    rw [hc] at h1; cases h1
    exact absurd hk (hq.exit _ _ _ h2)

theorem room_run {prog : Prog σ α} {cap : Nat} {Q : σ → Nat → Prop} (hq : Patient prog Q) {s0 : σ} {n0 : Nat} (h0 : Q s0 n0)
    (hn : n0 ≤ cap) {request : List α} {n : Nat} {st : State σ α}
    (h : Run prog cap (State.init s0 request) n st) : Room Q cap st := by
  induction h with
  | refl => exact fun _ => ⟨rfl, s0, n0, rfl, h0, by simpa [State.init] using hn⟩
  | step _ hs ih => exact room_step hq ih hs

/-! ## Termination -/

/-- The number of steps that the phases still take. -/
def rank : Phase α → Nat
  | .writing => 3
  | .reading => 2
  | .waiting => 1
  | _ => 0

/-- A bound for the number of steps: `n` bounds those of the plugin. -/
def Bound (prog : Prog σ α) (st : State σ α) (m : Nat) : Prop :=
  (∃ s n, st.child = .running s ∧ Halts prog s (st.inBuf ++ st.rest) n ∧ 2 * n + st.rest.length + st.outBuf.length + rank st.phase ≤ m) ∨
  ∃ ok, st.child = .exited ok ∧ st.rest.length + st.outBuf.length + rank st.phase ≤ m

theorem bound_step {prog : Prog σ α} {cap : Nat} {s0 : σ} {request : List α} {st st' : State σ α} {m : Nat}
    (hi : Inv prog s0 request st) (h : Bound prog st m) (hs : Step prog cap st st') : ∃ m', m = m' + 1 ∧ Bound prog st' m' := by
  have pos : ∀ {s inp n}, Halts prog s inp n → 0 < n := by
    intro s inp n h; cases h <;> omega
  cases hs with
  | write hp hr hc hb =>
    rename_i a t s
    rcases h with ⟨s', n, h1, h2, h3⟩ | ⟨ok, h1, -⟩
    · rw [hr] at h2 h3
      refine ⟨m - 1, ?_, .inl ⟨s', n, h1, by simpa using h2, ?_⟩⟩
      · simp only [List.length_cons] at h3; omega
      · simp only [List.length_cons] at h3 ⊢; omega
    · rw [hc] at h1; cases h1
  | broken hp hr hc =>
    rcases h with ⟨s', n, h1, h2, h3⟩ | ⟨ok, h1, h3⟩
    · rw [hc] at h1; cases h1
    · rw [hp] at h3
      simp only [rank] at h3
      refine ⟨m - 1, by omega, .inr ⟨ok, h1, ?_⟩⟩
      simp only [rank]; omega
  | close hp hr =>
    rw [Bound] at h
    rw [hp] at h
    rcases h with ⟨s', n, h1, h2, h3⟩ | ⟨ok, h1, h3⟩
    · simp only [rank] at h3
      refine ⟨m - 1, by omega, .inl ⟨s', n, h1, h2, ?_⟩⟩
      simp only [rank]; omega
    · simp only [rank] at h3
      refine ⟨m - 1, by omega, .inr ⟨ok, h1, ?_⟩⟩
      simp only [rank]; omega
  | read hp hb =>
    rw [Bound] at h
    rw [hb] at h
    rcases h with ⟨s', n, h1, h2, h3⟩ | ⟨ok, h1, h3⟩
    · simp only [List.length_cons] at h3
      refine ⟨m - 1, by omega, .inl ⟨s', n, h1, h2, ?_⟩⟩
      simp only []; omega
    · simp only [List.length_cons] at h3
      refine ⟨m - 1, by omega, .inr ⟨ok, h1, ?_⟩⟩
      simp only []; omega
  | eof hp hb hc =>
    rcases h with ⟨s', n, h1, h2, h3⟩ | ⟨ok, h1, h3⟩
    · rw [hc] at h1; cases h1
    · rw [hp] at h3
      simp only [rank] at h3
      refine ⟨m - 1, by omega, .inr ⟨ok, h1, ?_⟩⟩
      simp only [rank]; omega
  | wait hp hc =>
    rename_i ok
    rcases h with ⟨s', n, h1, h2, h3⟩ | ⟨ok', h1, h3⟩
    · rw [hc] at h1; cases h1
    · rw [hp] at h3
      simp only [rank] at h3
      refine ⟨m - 1, by omega, .inr ⟨ok', h1, ?_⟩⟩
      cases ok <;> simp only [rank, if_true, Bool.false_eq_true, if_false] <;> omega
  | childRead hc hk hb =>
    rename_i s k a t
    rcases h with ⟨s', n, h1, h2, h3⟩ | ⟨ok, h1, -⟩
    · rw [hc] at h1; cases h1
      rw [hb] at h2
      cases h2 with
      | read e hr =>
        rw [hk] at e; cases e
        refine ⟨m - 1, by omega, .inl ⟨_, _, rfl, hr, ?_⟩⟩
        simp only []; omega
      | write e => rw [hk] at e; cases e
      | exit e => rw [hk] at e; cases e
    · rw [hc] at h1; cases h1
  | childEof hc hk hb ho =>
    rename_i s k
    have hr0 := hi.closed.2.1 ho
    rcases h with ⟨s', n, h1, h2, h3⟩ | ⟨ok, h1, -⟩
    · rw [hc] at h1; cases h1
      rw [hb, hr0] at h2
      cases h2 with
      | eof e hr =>
        rw [hk] at e; cases e
        refine ⟨m - 1, by omega, .inl ⟨_, _, rfl, by simpa [hb, hr0] using hr, ?_⟩⟩
        simp only []; omega
      | write e => rw [hk] at e; cases e
      | exit e => rw [hk] at e; cases e
    · rw [hc] at h1; cases h1
  | childWrite hc hk hb =>
    rename_i s a n
    rcases h with ⟨s', n', h1, h2, h3⟩ | ⟨ok, h1, -⟩
    · rw [hc] at h1; cases h1
      generalize hinp : st.inBuf ++ st.rest = inp at h2
      cases h2 with
      | read e => rw [hk] at e; cases e
      | eof e => rw [hk] at e; cases e
      | write e hr =>
        rw [hk] at e; cases e
        subst hinp
        refine ⟨m - 1, by omega, .inl ⟨_, _, rfl, hr, ?_⟩⟩
        simp only [List.length_append, List.length_cons, List.length_nil]; omega
      | exit e => rw [hk] at e; cases e
    · rw [hc] at h1; cases h1
  | childExit hc hk =>
    rename_i s ok
    rcases h with ⟨s', n', h1, h2, h3⟩ | ⟨ok', h1, -⟩
    · rw [hc] at h1; cases h1
      have := pos h2
      refine ⟨m - 1, by omega, .inr ⟨ok, rfl, ?_⟩⟩
      simp only []; omega
    · rw [hc] at h1; cases h1

theorem bound_run {prog : Prog σ α} {cap : Nat} {s0 : σ} {request : List α} {k : Nat} (hh : Halts prog s0 request k) {n : Nat}
    {st : State σ α} (h : Run prog cap (State.init s0 request) n st) :
    ∃ m, n + m = 2 * k + request.length + 3 ∧ Bound prog st m := by
  induction h with
  | refl => exact ⟨_, Nat.zero_add _, .inl ⟨s0, k, rfl, by simpa [State.init] using hh, by simp [State.init, rank]⟩⟩
  | step hr hs ih =>
    obtain ⟨m, h1, h2⟩ := ih
    obtain ⟨m', rfl, h3⟩ := bound_step (inv_run hr) h2 hs
    exact ⟨m', by omega, h3⟩

end Verif.ExtPlugin
