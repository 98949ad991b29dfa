import Verif.Lemmas.RWLock
/-!
# C28: readers and writers of the compiled results
-/
namespace Verif.RWLock

/-- Specification: every goroutine has done all its operations. -/
def Finished (s : State) : Prop := ∀ t ∈ s.threads, t.prog = []

/-- Specification: no goroutine can do a step. -/
def Stuck (s : State) : Prop := ∀ i, step s i = none

/-- Specification: a request that takes the lock in separate sections; `false` is a read section and
`true` a write section. -/
def sections : List Bool → List Act
  | [] => []
  | false :: l => .rlock :: .runlock :: sections l
  | true :: l => .lock :: .unlock :: sections l

/-- Specification: balanced, arbitrarily nested read sections. -/
inductive Balanced : List Act → Prop
  | nil : Balanced []
  | nest {p q} : Balanced p → Balanced q → Balanced (.rlock :: (p ++ .runlock :: q))

theorem sections_wf (l : List Bool) : Wf false true 0 (sections l) := by
  induction l with
  | nil => exact .nil
  | cons b l ih =>
    cases b with
    | false => exact .rlock (.inr rfl) (.runlock ih)
    | true => exact .lock rfl ih

theorem balanced_wf_append {p : List Act} (h : Balanced p) :
    ∀ {d q}, Wf true false d q → Wf true false d (p ++ q) := by
  induction h with
  | nil => exact fun h => h
  | nest _ _ ih1 ih2 =>
    intro d q hq
    rw [List.cons_append, List.append_assoc, List.cons_append]
    exact .rlock (.inl rfl) (ih1 (.runlock (ih2 hq)))

theorem balanced_wf {p : List Act} (h : Balanced p) : Wf true false 0 p := by
  have := balanced_wf_append h (Wf.nil (nest := true) (wr := false))
  rwa [List.append_nil] at this

theorem step_of {s : State} {i : Nat} {t : Thread} (h : s.threads[i]? = some t) :
    step s i = stepAct s i t := by
  unfold step
  rw [h]

/-- Deadlock freedom unless nested readers meet writers. -/
theorem progress {nest wr : Bool} (hnw : nest = false ∨ wr = false) {s : State} (h : Inv nest wr s)
    (hst : Stuck s) : Finished s := by
  -- a goroutine that is not waiting does not start with `runlock`
  have hrun : ∀ (i : Nat) (t : Thread) (p : List Act), s.threads[i]? = some t → t.prog ≠ .runlock :: p := by
    intro i t p ht hp
    have := hst i
    rw [step_of ht] at this
    unfold stepAct at this
    rw [hp] at this
    simp only at this
    split at this <;> cases this
  cases hw : s.writer with
  | active i =>
    obtain ⟨t, ht⟩ : ∃ t, s.threads[i]? = some t := ⟨_, List.getElem?_eq_getElem (h.owner i (.inr hw))⟩
    have := hst i
    rw [step_of ht] at this
    rcases h.shape i t ht with ⟨_, _, p, hp, _⟩ | ⟨h1, _⟩ | ⟨h1, _⟩ | ⟨h1, _⟩
    · unfold stepAct at this
      rw [hp] at this
      simp [hw] at this
    · exact absurd hw h1
    · exact absurd hw h1
    · rw [hw] at h1; cases h1
  | pending i =>
    obtain ⟨t, ht⟩ : ∃ t, s.threads[i]? = some t := ⟨_, List.getElem?_eq_getElem (h.owner i (.inl hw))⟩
    have hsti := hst i
    rw [step_of ht] at hsti
    rcases h.shape i t ht with ⟨h1, _⟩ | ⟨_, h1, _⟩ | ⟨_, h1, _⟩ | ⟨_, _, p, hp, hwr, _⟩
    · rw [hw] at h1; cases h1
    · exact absurd hw h1
    · exact absurd hw h1
    · -- then nesting is impossible, hence no read lock is held
      have hnest : nest = false := by
        rcases hnw with h | h
        · exact h
        · rw [h] at hwr; cases hwr
      have hzero : total s.threads = 0 := by
        unfold total
        rw [List.sum_eq_zero_iff_forall_eq_nat]
        intro x hx
        obtain ⟨u, hu, rfl⟩ := List.mem_map.1 hx
        obtain ⟨j, hj⟩ := List.mem_iff_getElem?.1 hu
        have hwf : ∀ d, Wf nest wr d u.prog → held u.prog = 0 := by
          intro d hd
          have hd' := hd.held
          generalize hq : u.prog = q at hd hd'
          cases hd with
          | nil => exact hd'
          | rlock hn _ =>
            rcases hn with hn | hn
            · rw [hnest] at hn; cases hn
            · rw [hd', hn]
          | @runlock d p _ => exact absurd hq (hrun j u p hj)
          | lock _ _ => exact hd'
        rcases h.shape j u hj with ⟨h1, _⟩ | ⟨_, _, _, d, h2⟩ | ⟨_, _, _, _, d, _, _, h2⟩ | ⟨_, _, p, hp, hr, h2⟩
        · rw [hw] at h1; cases h1
        · exact hwf d h2
        · exact hwf d h2
        · rw [hp]; exact (Wf.lock (nest := nest) hr h2).held
      unfold stepAct at hsti
      rw [hp] at hsti
      simp [hw, h.readers, hzero] at hsti
  | none =>
    intro t hmem
    obtain ⟨i, ht⟩ := List.mem_iff_getElem?.1 hmem
    have hsti := hst i
    rw [step_of ht] at hsti
    rcases h.shape i t ht with ⟨h1, _⟩ | ⟨_, _, hwt, d, hd⟩ | ⟨_, _, h1, _⟩ | ⟨h1, _⟩
    · rw [hw] at h1; cases h1
    · unfold stepAct at hsti
      generalize hq : t.prog = q at hd hsti
      cases hd with
      | nil => rfl
      | rlock _ _ => simp [hwt, hw] at hsti
      | @runlock d p _ => exact absurd hq (hrun i t p ht)
      | lock _ _ => simp [hw] at hsti
    · exact absurd hw h1
    · rw [hw] at h1; cases h1

/-- The steps a state can still do at most. -/
def weight (ts : List Thread) : Nat := (ts.map (fun t => 3 * t.prog.length + if t.waiting then 0 else 1)).sum

theorem weight_set {ts : List Thread} {i : Nat} {t u : Thread} (h : ts[i]? = some t)
    (hlt : (3 * u.prog.length + if u.waiting then 0 else 1) < (3 * t.prog.length + if t.waiting then 0 else 1)) :
    weight (ts.set i u) < weight ts := by
  unfold weight
  induction ts generalizing i with
  | nil => simp at h
  | cons a ts ih =>
    cases i with
    | zero =>
      simp only [List.getElem?_cons_zero, Option.some.injEq] at h
      subst h
      simp only [List.set_cons_zero, List.map_cons, List.sum_cons]
      omega
    | succ i =>
      simp only [List.getElem?_cons_succ] at h
      have := ih h
      simp only [List.set_cons_succ, List.map_cons, List.sum_cons]
      omega

theorem weight_grant (ts : List Thread) (h : ∀ t ∈ ts, t.waiting = true → t.prog ≠ []) :
    weight (ts.map grant) ≤ weight ts := by
  unfold weight
  induction ts with
  | nil => exact Nat.le_refl _
  | cons t ts ih =>
    have ih := ih (fun u hu => h u (List.mem_cons_of_mem _ hu))
    simp only [List.map_cons, List.sum_cons]
    have ht := h t List.mem_cons_self
    have : 3 * (grant t).prog.length + (if (grant t).waiting then 0 else 1)
        ≤ 3 * t.prog.length + (if t.waiting then 0 else 1) := by
      unfold grant
      cases hw : t.waiting with
      | false => simp [hw]
      | true =>
        have := List.length_pos_iff.2 (ht hw)
        simp
        omega
    omega

theorem step_decreases {nest wr : Bool} {s s' : State} {i : Nat} (h : Inv nest wr s)
    (hs : step s i = some s') : weight s'.threads < weight s.threads := by
  have hwi : ∀ t ∈ s.threads, t.waiting = true → t.prog ≠ [] := by
    intro t ht hw hp
    obtain ⟨j, hj⟩ := List.mem_iff_getElem?.1 ht
    rcases h.shape j t hj with ⟨_, h1, _⟩ | ⟨_, _, h1, _⟩ | ⟨_, _, _, _, _, _, h1, _⟩ | ⟨_, _, _, h1, _⟩
    · rw [h1] at hw; cases hw
    · rw [h1] at hw; cases hw
    · rw [hp] at h1; cases h1
    · rw [hp] at h1; cases h1
  unfold step at hs
  cases ht : s.threads[i]? with
  | none => rw [ht] at hs; cases hs
  | some t =>
    rw [ht] at hs
    simp only at hs
    obtain ⟨prog, wt⟩ := t
    have hset : ∀ (u : Thread), (u.waiting = true → u.prog ≠ []) →
        ∀ v ∈ s.threads.set i u, v.waiting = true → v.prog ≠ [] := by
      intro u hu v hv
      rcases List.mem_or_eq_of_mem_set hv with h | rfl
      · exact hwi v h
      · exact hu
    have hpop : ∀ a p, prog = a :: p → weight (s.threads.set i ⟨p, false⟩) < weight s.threads := by
      intro a p hp
      refine weight_set ht ?_
      rw [hp]
      simp only [List.length_cons]
      cases wt <;> simp <;> omega
    unfold stepAct at hs
    match prog, hpop with
    | [], _ => cases hs
    | .rlock :: p, hpop =>
      simp only at hs
      split at hs
      · cases hs
      · rename_i hnw
        have hnw : wt = false := by cases wt <;> simp_all
        subst hnw
        split at hs
        · cases hs
          exact hpop _ _ rfl
        · cases hs
          exact weight_set ht (by simp)
    | .runlock :: p, hpop =>
      simp only at hs
      split at hs <;> (cases hs; exact hpop _ _ rfl)
    | .lock :: p, hpop =>
      simp only at hs
      split at hs
      · cases hs
        rename_i hw
        refine weight_set ht ?_
        rcases h.shape i _ ht with ⟨h1, _⟩ | ⟨_, _, h1, _⟩ | ⟨_, _, h1, _⟩ | ⟨h1, _⟩
        · rw [hw] at h1; cases h1
        · simp only at h1
          subst h1
          simp
        · exact absurd hw h1
        · rw [hw] at h1; cases h1
      · split at hs
        · cases hs
          exact hpop _ _ rfl
        · cases hs
      · cases hs
    | .unlock :: p, hpop =>
      simp only at hs
      split at hs
      · cases hs
        exact Nat.lt_of_le_of_lt (weight_grant _ (hset _ (by simp))) (hpop _ _ rfl)
      · cases hs
        exact hpop _ _ rfl

theorem run_length {nest wr : Bool} {s s' : State} {is : List Nat} (h : Inv nest wr s)
    (hs : run s is = some s') : is.length + weight s'.threads ≤ weight s.threads := by
  induction is generalizing s with
  | nil => cases hs; simp
  | cons i is ih =>
    unfold run at hs
    cases ht : step s i with
    | none => rw [ht] at hs; cases hs
    | some t =>
      rw [ht] at hs
      have h1 := step_decreases h ht
      have h2 := ih (h.step ht) hs
      simp only [List.length_cons]
      omega

/-- Specification: a bound for the number of steps of the given goroutines. -/
def bound (progs : List (List Act)) : Nat := (progs.map (fun p => 3 * p.length + 1)).sum

theorem weight_init (progs : List (List Act)) : weight (init progs).threads = bound progs := by
  unfold weight bound init
  simp only [List.map_map]
  congr 1

/-- **C28** (partial): any number of requests and updates that take the lock in separate sections,
in every schedule: nothing is ever stuck before all are done, the number of steps is bounded (so all
of them do finish), and no unlock fails. Missing: requests that take the read lock again while they
hold it, for which the property fails (`C28_nested_violated`). -/
theorem C28_sections_partial (reqs : List (List Bool)) (sched : List Nat) (s : State)
    (hs : run (init (reqs.map sections)) sched = some s) :
    (Stuck s → Finished s) ∧ sched.length ≤ bound (reqs.map sections) ∧ s.fatal = false := by
  have hi : Inv false true (init (reqs.map sections)) := by
    refine Inv.init ?_
    intro p hp
    obtain ⟨l, _, rfl⟩ := List.mem_map.1 hp
    exact sections_wf l
  have h := hi.run hs
  refine ⟨progress (.inl rfl) h, ?_, h.noFatal⟩
  have := run_length hi hs
  rw [weight_init] at this
  omega

/-- **C28** (partial): without updates, requests with arbitrarily nested read sections never get
stuck. -/
theorem C28_read_only_partial (progs : List (List Act)) (hb : ∀ p ∈ progs, Balanced p)
    (sched : List Nat) (s : State) (hs : run (init progs) sched = some s) :
    (Stuck s → Finished s) ∧ sched.length ≤ bound progs ∧ s.fatal = false := by
  have hi : Inv true false (init progs) := Inv.init (fun p hp => balanced_wf (hb p hp))
  have h := hi.run hs
  refine ⟨progress (.inr rfl) h, ?_, h.noFatal⟩
  have := run_length hi hs
  rw [weight_init] at this
  omega

/-- **C28** (part): writers exclude readers and other writers in every schedule of well-formed
requests, nested or not. -/
theorem C28_exclusion (nest wr : Bool) (progs : List (List Act)) (hp : ∀ p ∈ progs, Wf nest wr 0 p)
    (sched : List Nat) (s : State) (hs : run (init progs) sched = some s) (i : Nat)
    (hw : s.writer = .active i) :
    s.readers = 0 ∧ ∀ t ∈ s.threads, held t.prog = 0 := by
  have h := (Inv.init hp).run hs
  refine ⟨h.excl i hw, fun t ht => ?_⟩
  obtain ⟨j, hj⟩ := List.mem_iff_getElem?.1 ht
  have := h.held_le hj
  rw [h.excl i hw] at this
  omega

/-- The requests of the server that consist of separate sections. -/
theorem flat_requests :
    trace .update = sections [true] ∧ trace .lookup = sections [false] ∧
    trace .typeAtLocation = sections [false, false] ∧
    trace .references = sections [false, false, false, false] := ⟨rfl, rfl, rfl, rfl⟩

example : run (init ([[true], [false], [false, false], [false, false, false, false]].map sections))
    [1, 0, 2, 1, 0, 0, 2] ≠ none := by decide

/-- A read section in a read section and a pending writer block each other. -/
theorem nested_stuck (p q : List Act) :
    ∃ s, run (init [.rlock :: .rlock :: p, .lock :: q]) [0, 1, 0] = some s ∧ Stuck s ∧ ¬ Finished s := by
  refine ⟨⟨[⟨.rlock :: p, true⟩, ⟨.lock :: q, true⟩], 1, .pending 1, false⟩, rfl, ?_, ?_⟩
  · intro i
    match i with
    | 0 => rfl
    | 1 => rfl
    | i + 2 => rfl
  · intro h
    have := h _ List.mem_cons_self
    cases this

/-- The code violates C28: each of these requests together with one document update can block for
ever, since it takes the read lock again while it holds it. -/
theorem C28_nested_violated (r : Request)
    (hr : r ∈ [.semanticTokens, .documentLinks, .documentSymbols, .inlayHints, .codeLens,
      .prepareRename, .rename, .generatedDefinition] ∨ ∃ n, r = .workspaceSymbols (n + 1)) :
    ∃ sched s, run (init [trace r, trace .update]) sched = some s ∧ Stuck s ∧ ¬ Finished s := by
  have key : ∀ p, trace r = .rlock :: .rlock :: p →
      ∃ sched s, run (init [trace r, trace .update]) sched = some s ∧ Stuck s ∧ ¬ Finished s := by
    intro p hp
    rw [hp]
    obtain ⟨s, h⟩ := nested_stuck p [.unlock]
    exact ⟨[0, 1, 0], s, h⟩
  rcases hr with hr | ⟨n, rfl⟩
  · simp only [List.mem_cons, List.not_mem_nil, or_false] at hr
    rcases hr with rfl | rfl | rfl | rfl | rfl | rfl | rfl | rfl <;> exact key _ rfl
  · refine key (.runlock :: ((List.replicate n once).flatten ++ [.runlock])) ?_
    simp [trace, List.replicate_succ, once]

end Verif.RWLock
