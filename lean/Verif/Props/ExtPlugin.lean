import Verif.Lemmas.ExtPlugin
/-!
# C87: calling an external generator returns what the plugin answers

`C87_answer`: whatever is returned is the output of the plugin on the whole request, and the plugin succeeded.
`C87_terminates`: a call never takes more steps than the plugin and the request allow, so that it can fail to return only by
being stuck; `C87_deadlock`: it is stuck exactly if both processes are writing into full pipes.
`C87_result_partial`: with a plugin that reads its whole input before it writes more than a pipe can hold or exits, every call
returns exactly the answer of the plugin, or fails if the plugin fails.
`C87_deadlock_violated`: for every capacity there is a request for which a plugin that answers while it reads never returns.
`C87_exit_violated`: a plugin that answers without reading the request may be reported as failed.
`C87_files_partial`, `C87_chunks_violated`, `C87_insertion_violated`: the files of the response are the generated files, unless
the response uses continuations or insertion points.
-/
namespace Verif.ExtPlugin

variable {σ α : Type}

/-- An answer is the whole output of the plugin on the whole request, and the plugin exited successfully. -/
theorem C87_answer {prog : Prog σ α} {cap : Nat} {s0 : σ} {request bytes : List α} {n : Nat} {st : State σ α}
    (h : Run prog cap (State.init s0 request) n st) (ha : st.phase = .answered bytes) : Runs prog s0 request bytes true := by
  obtain ⟨h1, h2, h3⟩ := (inv_run h).answered bytes ha
  have := (inv_run h).exited true h3
  rw [h2, List.append_nil, ← h1] at this
  exact this

/-- If the plugin exits after `k` actions, no call takes more than `2 * k + length of the request + 3` steps, whatever the
order of the steps. -/
theorem C87_terminates {prog : Prog σ α} {cap : Nat} {s0 : σ} {request : List α} {k : Nat} (hh : Halts prog s0 request k)
    {n : Nat} {st : State σ α} (h : Run prog cap (State.init s0 request) n st) : n ≤ 2 * k + request.length + 3 := by
  obtain ⟨m, h1, -⟩ := bound_run hh h
  omega

/-- A call that has not returned cannot continue exactly if both processes are writing and both pipes are full. -/
theorem C87_deadlock {prog : Prog σ α} {cap : Nat} (hcap : 0 < cap) {s0 : σ} {request : List α} {n : Nat} {st : State σ α}
    (h : Run prog cap (State.init s0 request) n st) (hd : st.done = false) :
    (∀ st', ¬ Step prog cap st st') ↔
      st.phase = .writing ∧ st.rest ≠ [] ∧ cap ≤ st.inBuf.length ∧ cap ≤ st.outBuf.length ∧
        ∃ s a m, st.child = .running s ∧ prog s = .write a m := by
  constructor
  · intro hn
    obtain ⟨h1, h2, h3, h4⟩ := stuck hcap (inv_run h) hn hd
    exact ⟨h1, fun hr => hn _ (.close h1 hr), h2, h3, h4⟩
  · rintro ⟨h1, h2, h3, h4, s, a, m, h5, h6⟩ st' hs
    cases hs with
    | write hp hr hc hb => omega
    | broken hp hr hc => rw [h5] at hc; cases hc
    | close hp hr => exact h2 hr
    | read hp hb => rw [h1] at hp; cases hp
    | eof hp hb hc => rw [h1] at hp; cases hp
    | wait hp hc => rw [h1] at hp; cases hp
    | childRead hc hk hb => rw [h5] at hc; cases hc; rw [h6] at hk; cases hk
    | childEof hc hk hb => rw [h5] at hc; cases hc; rw [h6] at hk; cases hk
    | childWrite hc hk hb => omega
    | childExit hc hk => rw [h5] at hc; cases hc; rw [h6] at hk; cases hk

/-- With a plugin that, as long as its input has not ended, does not exit and writes at most `n0` bytes, `n0` being at most the
capacity of a pipe, every call comes to an end: it is never stuck, and what it returns is the output of the plugin if the plugin
succeeds, and an error if it fails.

Partial: for other plugins see `C87_deadlock_violated` and `C87_exit_violated`. -/
theorem C87_result_partial {prog : Prog σ α} {cap : Nat} (hcap : 0 < cap) {Q : σ → Nat → Prop} (hq : Patient prog Q) {s0 : σ}
    {n0 : Nat} (h0 : Q s0 n0) (hn0 : n0 ≤ cap) {request out : List α} {ok : Bool} (hr : Runs prog s0 request out ok)
    {n : Nat} {st : State σ α} (h : Run prog cap (State.init s0 request) n st) (hm : ∀ st', ¬ Step prog cap st st') :
    st.phase = if ok then .answered out else .failed := by
  have hdone : st.done = true := by
    cases hd : st.done with
    | true => rfl
    | false =>
      obtain ⟨h1, -, h3, s, a, m, h4, h5⟩ := stuck hcap (inv_run h) hm hd
      obtain ⟨-, s', n', h6, h7, h8⟩ := room_run hq h0 hn0 h ((inv_run h).closed.1 h1)
      rw [h4] at h6; cases h6
      obtain ⟨h9, -⟩ := hq.write _ _ _ _ h7 h5
      omega
  cases hp : st.phase with
  | writing => simp [State.done, hp] at hdone
  | reading => simp [State.done, hp] at hdone
  | waiting => simp [State.done, hp] at hdone
  | answered b =>
    obtain ⟨rfl, rfl⟩ := runs_unique (C87_answer h hp) hr
    rfl
  | failed =>
    have : Runs prog s0 request out ok → ok = false := by
      intro _
      -- the last step of the phases was `wait`, because `broken` is impossible
      have key : ∀ {n st}, Run prog cap (State.init s0 request) n st → st.phase = .failed → st.child = .exited false ∧ st.outBuf = [] := by
        intro n st hrun
        induction hrun with
        | refl => intro h; simp [State.init] at h
        | step hr' hs ih =>
          intro hf
          cases hs with
          | write hp => simp only [] at hf; rw [hp] at hf; cases hf
          | broken hp hr hc =>
            obtain ⟨-, s, m, h1, -⟩ := room_run hq h0 hn0 hr' ((inv_run hr').closed.1 hp)
            rw [hc] at h1; cases h1
          | close => simp at hf
          | read hp => simp only [] at hf; rw [hp] at hf; cases hf
          | eof => simp at hf
          | wait hp hc =>
            rename_i ok
            cases ok with
            | true => simp at hf
            | false => exact ⟨hc, ((inv_run hr').waiting hp).2⟩
          | childRead hc => rw [(ih hf).1] at hc; cases hc
          | childEof hc => rw [(ih hf).1] at hc; cases hc
          | childWrite hc => rw [(ih hf).1] at hc; cases hc
          | childExit hc => rw [(ih hf).1] at hc; cases hc
      have h1 := (inv_run h).exited false (key h hp).1
      exact (runs_unique hr h1).2
    rw [this hr]
    rfl

/-- A response whose files all have a name and no insertion point: these are the files that are generated.

Partial: see `C87_chunks_violated` and `C87_insertion_violated`. -/
theorem C87_files_partial (files : List RespFile) (h : ∀ f ∈ files, f.name ≠ [] ∧ f.insertion = none) :
    addFiles files = assemble files := by
  have key : ∀ (files : List RespFile) (acc : List (Str × Str)), (∀ f ∈ files, f.name ≠ [] ∧ f.insertion = none) →
      files.foldl accept acc = acc ++ addFiles files := by
    intro files
    induction files with
    | nil => intro acc _; simp [addFiles]
    | cons f fs ih =>
      intro acc h
      obtain ⟨h1, h2⟩ := h f (by simp)
      rw [List.foldl_cons, ih _ fun g hg => h g (by simp [hg])]
      simp [accept, h1, h2, addFiles]
  rw [assemble, key files [] h, List.nil_append]

/-! ## Violations -/

/-- A plugin that writes every byte as soon as it has read it. -/
def echo : Prog (Bool × Option Nat) Nat
  | (true, _) => .exit true
  | (false, some a) => .write a (false, none)
  | (false, none) => .read fun
    | some a => (false, some a)
    | none => (true, none)

theorem echo_runs (request : List Nat) : Runs echo (false, none) request request true := by
  induction request with
  | nil => exact .eof (k := fun | some a => (false, some a) | none => (true, none)) rfl (.exit rfl)
  | cons a t ih => exact .read (k := fun | some a => (false, some a) | none => (true, none)) rfl (.write rfl ih)

/-- The plugin answers the first bytes until its output is full. -/
theorem echo_pump {cap : Nat} (hcap : 0 < cap) (k : Nat) (hk : k ≤ cap) (t : List Nat) :
    ∃ n, Run echo cap (State.init (false, none) (List.replicate k 0 ++ t)) n
      ⟨.writing, t, [], true, .running (false, none), List.replicate k 0, []⟩ := by
  induction k generalizing t with
  | zero => exact ⟨0, .refl⟩
  | succ k ih =>
    obtain ⟨n, h⟩ := ih (by omega) (0 :: t)
    rw [show List.replicate (k + 1) 0 ++ t = List.replicate k 0 ++ 0 :: t by
      rw [List.replicate_succ', List.append_assoc]; rfl]
    have h1 := Run.step h (.write rfl rfl rfl hcap)
    have h2 := Run.step h1 (.childRead (k := fun | some a => (false, some a) | none => (true, none)) rfl rfl rfl)
    have h3 := Run.step h2 (.childWrite rfl rfl (by simp; omega))
    refine ⟨n + 1 + 1 + 1, ?_⟩
    rw [List.replicate_succ']
    exact h3

/-- Meanwhile the server fills the other pipe. -/
theorem echo_fill {cap : Nat} {st0 : State (Bool × Option Nat) Nat} (k : Nat) (hk : k ≤ cap) (t : List Nat)
    (s : Bool × Option Nat) (out : List Nat)
    {n : Nat} (h : Run echo cap st0 n ⟨.writing, List.replicate k 0 ++ t, [], true, .running s, out, []⟩) :
    ∃ n, Run echo cap st0 n ⟨.writing, t, List.replicate k 0, true, .running s, out, []⟩ := by
  induction k generalizing t with
  | zero => exact ⟨n, h⟩
  | succ k ih =>
    rw [List.replicate_succ', List.append_assoc] at h
    obtain ⟨n', h'⟩ := ih (by omega) _ h
    have h1 := Run.step h' (.write rfl rfl rfl (by simp; omega))
    rw [List.replicate_succ']
    exact ⟨_, h1⟩

/-- generator.go:70-78 writes the whole request before it reads anything: for every capacity of the pipes there is a request,
no longer than two pipes and two bytes, with which a plugin that answers while it reads, and would exit successfully, comes to
a state in which neither process can continue, and the call has not returned. -/
theorem C87_deadlock_violated (cap : Nat) (hcap : 0 < cap) :
    ∃ (request : List Nat) (n : Nat) (st : State (Bool × Option Nat) Nat),
      request.length = 2 * cap + 2 ∧ Runs echo (false, none) request request true ∧
      Run echo cap (State.init (false, none) request) n st ∧ st.done = false ∧ ∀ st', ¬ Step echo cap st st' := by
  obtain ⟨n1, h1⟩ := echo_pump hcap cap (Nat.le_refl _) (0 :: (List.replicate cap 0 ++ [0]))
  have h2 := Run.step h1 (.write rfl rfl rfl hcap)
  have h3 := Run.step h2 (.childRead (k := fun | some a => (false, some a) | none => (true, none)) rfl rfl rfl)
  obtain ⟨n4, h4⟩ := echo_fill cap (Nat.le_refl _) [0] (false, some 0) (List.replicate cap 0) h3
  refine ⟨_, n4, _, ?_, echo_runs _, h4, rfl, ?_⟩
  · simp; omega
  · exact (C87_deadlock hcap h4 rfl).2 ⟨rfl, by simp, by simp, by simp, _, _, _, rfl, rfl⟩

/-- A plugin that needs no input: it writes one byte and exits. -/
def constant : Prog Nat Nat
  | 0 => .write 7 1
  | _ => .exit true

/-- generator.go:70: if the plugin answers without reading the request and exits before the request is written, the call fails
although the plugin succeeded; in another order of the same steps the answer is returned (if the request fits into the pipe). -/
theorem C87_exit_violated (cap : Nat) (hcap : 0 < cap) (a : Nat) :
    Runs constant 0 [a] [7] true ∧
    (∃ n st, Run constant cap (State.init 0 [a]) n st ∧ st.phase = .failed) ∧
    (∃ n st, Run constant cap (State.init 0 [a]) n st ∧ st.phase = .answered [7]) := by
  refine ⟨.write rfl (.exit rfl), ?_, ?_⟩
  · have h0 : Run constant cap (State.init 0 [a]) 0 _ := .refl
    have h1 := Run.step h0 (.childWrite rfl rfl hcap)
    have h2 := Run.step h1 (.childExit rfl rfl)
    exact ⟨_, _, Run.step h2 (.broken rfl rfl rfl), rfl⟩
  · have h0 : Run constant cap (State.init 0 [a]) 0 _ := .refl
    have h1 := Run.step h0 (.write rfl rfl rfl hcap)
    have h2 := Run.step h1 (.childWrite rfl rfl hcap)
    have h3 := Run.step h2 (.childExit rfl rfl)
    have h4 := Run.step h3 (.close rfl rfl)
    have h5 := Run.step h4 (.read rfl rfl)
    have h6 := Run.step h5 (.eof rfl rfl rfl)
    exact ⟨_, _, Run.step h6 (.wait rfl rfl), rfl⟩

/-- generator.go:104-106 skips a file without name; by the protocol its content continues the file before. -/
theorem C87_chunks_violated :
    assemble [⟨['a'], none, ['x']⟩, ⟨[], none, ['y']⟩] = [(['a'], ['x', 'y'])] ∧
    addFiles [⟨['a'], none, ['x']⟩, ⟨[], none, ['y']⟩] = [(['a'], ['x'])] := by decide

/-- generator.go:107 makes a new file of an insertion into an existing file. -/
theorem C87_insertion_violated :
    assemble [⟨['a'], some ['p'], ['x']⟩] = [] ∧ addFiles [⟨['a'], some ['p'], ['x']⟩] = [(['a'], ['x'])] := by decide

/-! ## Examples -/

/-- A plugin that reads its whole input, counting the bytes, and then writes the count. -/
def count : Prog (Nat × Nat) Nat
  | (0, n) => .read fun
    | some _ => (0, n + 1)
    | none => (1, n)
  | (1, n) => .write n (2, n)
  | _ => .exit true

/-- `C87_result_partial`: the plugin that counts is patient and answers the length of every request. -/
example (request : List Nat) (n : Nat) (st : State (Nat × Nat) Nat)
    (h : Run count 1 (State.init (0, 0) request) n st) (hm : ∀ st', ¬ Step count 1 st st') :
    st.phase = .answered [request.length] := by
  have hq : Patient count fun s n => s.1 = 0 ∧ n = 0 := by
    refine ⟨?_, ?_, ?_⟩
    · rintro ⟨i, c⟩ n k a ⟨hi, hn⟩ hk
      simp only [] at hi
      subst hi
      simp only [count, Act.read.injEq] at hk
      subst hk
      exact ⟨rfl, hn⟩
    · rintro ⟨i, c⟩ n a m ⟨hi, -⟩ hk
      simp only [] at hi
      subst hi
      simp [count] at hk
    · rintro ⟨i, c⟩ n ok ⟨hi, -⟩ hk
      simp only [] at hi
      subst hi
      simp [count] at hk
  have hr : ∀ (request : List Nat) (c : Nat), Runs count (0, c) request [c + request.length] true := by
    intro request
    induction request with
    | nil => exact fun c => .eof (k := fun | some _ => (0, c + 1) | none => (1, c)) rfl (.write rfl (.exit rfl))
    | cons a t ih =>
      intro c
      refine .read (k := fun | some _ => (0, c + 1) | none => (1, c)) rfl ?_
      have := ih (c + 1)
      rw [show c + 1 + t.length = c + (a :: t).length by simp; omega] at this
      exact this
  have h' := C87_result_partial (by omega) hq ⟨rfl, rfl⟩ (Nat.zero_le 1) (hr request 0) h hm
  simpa using h'

/-- `C87_answer`, `C87_terminates`: the run of `C87_exit_violated` that answers. -/
example : ∃ n st, Run constant 5 (State.init 0 [3]) n st ∧ st.phase = .answered [7] ∧ n ≤ 2 * 2 + 1 + 3 := by
  obtain ⟨n, st, h, hp⟩ := (C87_exit_violated 5 (by omega) 3).2.2
  have hh : Halts constant 0 [3] 2 := .write rfl (.exit rfl)
  exact ⟨n, st, h, hp, C87_terminates hh h⟩

/-- `C87_files_partial`: two files. -/
example : addFiles [⟨['a'], none, ['x']⟩, ⟨['b'], none, ['y']⟩] = assemble [⟨['a'], none, ['x']⟩, ⟨['b'], none, ['y']⟩] :=
  C87_files_partial _ (by simp)

end Verif.ExtPlugin
