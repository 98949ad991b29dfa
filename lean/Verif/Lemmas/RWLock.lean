import Verif.Model.RWLock
/-!
# Invariants of the read-write lock
-/
namespace Verif.RWLock

/-- Well-formed programs holding `d` read locks at the start. `nest`: read locks may be nested;
`wr`: write sections (with no read lock held) may occur. -/
inductive Wf (nest wr : Bool) : Nat → List Act → Prop
  | nil : Wf nest wr 0 []
  | rlock {d p} (h : nest = true ∨ d = 0) : Wf nest wr (d + 1) p → Wf nest wr d (.rlock :: p)
  | runlock {d p} : Wf nest wr d p → Wf nest wr (d + 1) (.runlock :: p)
  | lock {p} (h : wr = true) : Wf nest wr 0 p → Wf nest wr 0 (.lock :: .unlock :: p)

/-- The number of read locks held by a goroutine, from what it still has to release. -/
def held (p : List Act) : Nat := p.count .runlock - p.count .rlock

theorem Wf.count {nest wr : Bool} {d : Nat} {p : List Act} (h : Wf nest wr d p) :
    p.count .runlock = d + p.count .rlock := by
  induction h with
  | nil => rfl
  | rlock _ _ ih => simp only [List.count_cons]; simp; omega
  | runlock _ ih => simp only [List.count_cons]; simp; omega
  | lock _ _ ih => simp only [List.count_cons]; simp; omega

theorem Wf.held {nest wr : Bool} {d : Nat} {p : List Act} (h : Wf nest wr d p) : held p = d := by
  unfold RWLock.held
  have := h.count
  omega

/-- The sum of the read locks held. -/
def total (ts : List Thread) : Nat := (ts.map (fun t => held t.prog)).sum

theorem total_set {ts : List Thread} {i : Nat} {t u : Thread} (h : ts[i]? = some t) :
    total (ts.set i u) + held t.prog = total ts + held u.prog := by
  unfold total
  induction ts generalizing i with
  | nil => simp at h
  | cons a ts ih =>
    cases i with
    | zero =>
      simp only [List.getElem?_cons_zero, Option.some.injEq] at h
      subst h
      simp only [List.set_cons_zero, List.map_cons, List.sum_cons]
      omega
    | succ i =>
      simp only [List.getElem?_cons_succ] at h
      have := ih h
      simp only [List.set_cons_succ, List.map_cons, List.sum_cons]
      omega

/-- The shape of goroutine `i` in a state with the given writer. -/
def Shape (nest wr : Bool) (w : Writer) (i : Nat) (t : Thread) : Prop :=
  (w = .active i ∧ t.waiting = false ∧ ∃ p, t.prog = .unlock :: p ∧ Wf nest wr 0 p) ∨
  (w ≠ .active i ∧ w ≠ .pending i ∧ t.waiting = false ∧ ∃ d, Wf nest wr d t.prog) ∨
  (w ≠ .active i ∧ w ≠ .pending i ∧ w ≠ .none ∧ t.waiting = true ∧
    ∃ d p, t.prog = .rlock :: p ∧ Wf nest wr d t.prog) ∨
  (w = .pending i ∧ t.waiting = true ∧ ∃ p, t.prog = .lock :: .unlock :: p ∧ wr = true ∧ Wf nest wr 0 p)

/-- The invariant. -/
structure Inv (nest wr : Bool) (s : State) : Prop where
  readers : s.readers = total s.threads
  shape : ∀ i t, s.threads[i]? = some t → Shape nest wr s.writer i t
  owner : ∀ i, s.writer = .pending i ∨ s.writer = .active i → i < s.threads.length
  excl : ∀ i, s.writer = .active i → s.readers = 0
  noFatal : s.fatal = false

theorem Inv.init {nest wr : Bool} {progs : List (List Act)} (h : ∀ p ∈ progs, Wf nest wr 0 p) :
    Inv nest wr (init progs) where
  readers := by
    unfold total RWLock.init
    simp only [List.map_map]
    symm
    rw [List.sum_eq_zero_iff_forall_eq_nat]
    intro x hx
    obtain ⟨p, hp, rfl⟩ := List.mem_map.1 hx
    exact (h p hp).held
  shape i t ht := by
    simp only [RWLock.init, List.getElem?_map] at ht
    cases hp : progs[i]? with
    | none => rw [hp] at ht; cases ht
    | some p =>
      rw [hp] at ht
      simp only [Option.map_some, Option.some.injEq] at ht
      subst ht
      refine .inr (.inl ⟨by simp [RWLock.init], by simp [RWLock.init], rfl, 0, h p (List.mem_of_getElem? hp)⟩)
  owner i hi := by simp [RWLock.init] at hi
  excl i hi := by simp [RWLock.init] at hi
  noFatal := rfl

theorem held_of_shape_active {nest wr : Bool} {t : Thread} {p : List Act}
    (h : t.prog = .unlock :: p) (hw : Wf nest wr 0 p) : held t.prog = 0 := by
  have := hw.held
  rw [h]
  unfold held at this ⊢
  simp only [List.count_cons]
  simpa using this

theorem Inv.held_le {nest wr : Bool} {s : State} (h : Inv nest wr s) {i : Nat} {t : Thread}
    (ht : s.threads[i]? = some t) : held t.prog ≤ s.readers := by
  have := total_set (u := ⟨[], false⟩) ht
  have h0 : held ([] : List Act) = 0 := rfl
  rw [h0, ← h.readers] at this
  omega

/-- Granting the lock to all waiting readers. -/
theorem total_grant {nest wr : Bool} {ts : List Thread}
    (h : ∀ t ∈ ts, t.waiting = true → ∃ d p, t.prog = .rlock :: p ∧ Wf nest wr d t.prog) :
    total (ts.map grant) = total ts + (ts.filter (·.waiting)).length := by
  unfold total
  induction ts with
  | nil => rfl
  | cons t ts ih =>
    have ih := ih (fun u hu => h u (List.mem_cons_of_mem _ hu))
    simp only [List.map_cons, List.sum_cons]
    rw [ih]
    cases hw : t.waiting with
    | false =>
      have : grant t = t := by simp [grant, hw]
      rw [this, List.filter_cons_of_neg (by simp [hw])]
      omega
    | true =>
      obtain ⟨d, p, hp, hwf⟩ := h t List.mem_cons_self hw
      have hg : (grant t).prog = p := by simp [grant, hw, hp]
      rw [hg, hp] at *
      rw [List.filter_cons_of_pos (by simp [hw]), List.length_cons]
      have h1 := hwf.held
      have h2 : held p = d + 1 := by
        cases hwf with
        | rlock _ h => exact h.held
      omega

theorem getElem?_set_cases {ts : List Thread} {i j : Nat} {u t : Thread} (h : (ts.set i u)[j]? = some t) :
    (i = j ∧ t = u) ∨ (i ≠ j ∧ ts[j]? = some t) := by
  by_cases hij : i = j
  · subst hij
    rw [List.getElem?_set_self'] at h
    cases hj : ts[i]? with
    | none => rw [hj] at h; cases h
    | some x => rw [hj] at h; exact .inl ⟨rfl, (Option.some.inj h).symm⟩
  · rw [List.getElem?_set_ne hij] at h
    exact .inr ⟨hij, h⟩

theorem filter_set {ts : List Thread} {i : Nat} {t u : Thread} (ht : ts[i]? = some t)
    (hw : t.waiting = false) (hu : u.waiting = false) :
    ((ts.set i u).filter (·.waiting)).length = (ts.filter (·.waiting)).length := by
  induction ts generalizing i with
  | nil => rfl
  | cons a ts ih =>
    cases i with
    | zero =>
      simp only [List.getElem?_cons_zero, Option.some.injEq] at ht
      subst ht
      simp [hw, hu]
    | succ i =>
      simp only [List.getElem?_cons_succ] at ht
      have := ih ht
      simp only [List.set_cons_succ, List.filter_cons]
      split <;> simp [this]

theorem Inv.step {nest wr : Bool} {s s' : State} (h : Inv nest wr s) {i : Nat} (hs : step s i = some s') :
    Inv nest wr s' := by
  unfold RWLock.step at hs
  cases ht : s.threads[i]? with
  | none => rw [ht] at hs; cases hs
  | some t =>
  rw [ht] at hs
  simp only at hs
  have hsh := h.shape i t ht
  have hlt : i < s.threads.length := by
    rw [List.getElem?_eq_some_iff] at ht
    exact ht.1
  have hle := h.held_le ht
  have htot := fun u => total_set (u := u) ht
  rcases hsh with ⟨hw, hwt, p, hp, hwf⟩ | ⟨hw1, hw2, hwt, d, hwf⟩ | ⟨hw1, hw2, hw3, hwt, d, p, hp, hwf⟩ | ⟨hw, hwt, p, hp, hwr, hwf⟩
  · -- the active writer unlocks
    unfold stepAct at hs
    rw [hp] at hs
    simp only [hw, if_true] at hs
    have hs := Option.some.inj hs
    subst hs
    have hheld : held t.prog = 0 := held_of_shape_active hp hwf
    have hp0 : held p = 0 := hwf.held
    have hset := htot ⟨p, false⟩
    have hwaiting : ∀ u ∈ s.threads.set i ⟨p, false⟩, u.waiting = true →
        ∃ d q, u.prog = .rlock :: q ∧ Wf nest wr d u.prog := by
      intro u hu huw
      obtain ⟨j, hj⟩ := List.mem_iff_getElem?.1 hu
      rcases getElem?_set_cases hj with ⟨_, rfl⟩ | ⟨hij, hj⟩
      · cases huw
      · rcases h.shape j u hj with ⟨_, h2, _⟩ | ⟨_, _, h2, _⟩ | ⟨_, _, _, _, h2⟩ | ⟨h2, _⟩
        · rw [h2] at huw; cases huw
        · rw [h2] at huw; cases huw
        · exact h2
        · rw [hw] at h2; cases h2
    have hfil : ((s.threads.set i ⟨p, false⟩).filter (·.waiting)).length
        = (s.threads.filter (·.waiting)).length := by
      exact filter_set ht hwt rfl
    refine ⟨?_, ?_, ?_, ?_, h.noFatal⟩
    · simp only
      rw [total_grant (nest := nest) (wr := wr) hwaiting, hfil, h.readers]
      simp only at hset
      omega
    · intro j u hj
      simp only [List.getElem?_map] at hj
      cases hk : (s.threads.set i ⟨p, false⟩)[j]? with
      | none => rw [hk] at hj; cases hj
      | some v =>
        rw [hk] at hj
        simp only [Option.map_some, Option.some.injEq] at hj
        subst hj
        refine .inr (.inl ⟨by simp, by simp, ?_⟩)
        rcases getElem?_set_cases hk with ⟨rfl, rfl⟩ | ⟨hij, hk⟩
        · exact ⟨by simp [grant], 0, by simpa [grant] using hwf⟩
        · rcases h.shape j v hk with ⟨h1, _⟩ | ⟨_, _, h2, h3⟩ | ⟨_, _, _, h1, d, q, hq, h2⟩ | ⟨h2, _⟩
          · rw [hw] at h1
            injection h1 with h1
            exact absurd h1 hij
          · have : grant v = v := by simp [grant, h2]
            rw [this]
            exact ⟨h2, h3⟩
          · have hg : grant v = ⟨q, false⟩ := by simp [grant, h1, hq]
            rw [hg]
            refine ⟨rfl, d + 1, ?_⟩
            rw [hq] at h2
            cases h2 with
            | rlock _ h => exact h
          · rw [hw] at h2; cases h2
    · intro j hj; simp at hj
    · intro j hj; simp at hj
  · -- a goroutine that is not waiting and does not own the writer side
    unfold stepAct at hs
    generalize heq : t.prog = prog at hwf hs
    cases hwf with
    | nil => cases hs
    | @rlock _ p hn hq =>
      simp only [hwt, Bool.false_eq_true, if_false] at hs
      have hheld : held t.prog = d := by rw [heq]; exact (Wf.rlock hn hq).held
      cases hwr : s.writer with
      | none =>
        rw [hwr] at hs
        have hs := Option.some.inj hs
        subst hs
        have hset := htot ⟨p, false⟩
        have := hq.held
        refine ⟨?_, ?_, ?_, ?_, h.noFatal⟩
        · simp only at hset ⊢
          have := h.readers
          omega
        · intro j u hj
          rcases getElem?_set_cases hj with ⟨rfl, rfl⟩ | ⟨hij, hj⟩
          · exact .inr (.inl ⟨by simp, by simp, rfl, _, hq⟩)
          · have := h.shape j u hj
            rw [hwr] at this
            simpa [hwr] using this
        · intro j hj; simp at hj
        · intro j hj; simp at hj
      | pending k =>
        rw [hwr] at hs
        have hs := Option.some.inj hs
        subst hs
        rw [← hwr]
        have hset := htot ⟨.rlock :: p, true⟩
        rw [heq] at hset
        refine ⟨?_, ?_, ?_, ?_, h.noFatal⟩
        · simp only at hset ⊢
          have := h.readers
          omega
        · intro j u hj
          rcases getElem?_set_cases hj with ⟨rfl, rfl⟩ | ⟨hij, hj⟩
          · exact .inr (.inr (.inl ⟨hw1, hw2, by simp [hwr], rfl, d, p, rfl, .rlock hn hq⟩))
          · exact h.shape j u hj
        · intro j hj; simpa using h.owner j hj
        · intro j hj; exact h.excl j hj
      | active k =>
        rw [hwr] at hs
        have hs := Option.some.inj hs
        subst hs
        rw [← hwr]
        have hset := htot ⟨.rlock :: p, true⟩
        rw [heq] at hset
        refine ⟨?_, ?_, ?_, ?_, h.noFatal⟩
        · simp only at hset ⊢
          have := h.readers
          omega
        · intro j u hj
          rcases getElem?_set_cases hj with ⟨rfl, rfl⟩ | ⟨hij, hj⟩
          · exact .inr (.inr (.inl ⟨hw1, hw2, by simp [hwr], rfl, d, p, rfl, .rlock hn hq⟩))
          · exact h.shape j u hj
        · intro j hj; simpa using h.owner j hj
        · intro j hj; exact h.excl j hj
    | @runlock d p hq =>
      have hheld : held t.prog = d + 1 := by rw [heq]; exact (Wf.runlock hq).held
      have hpos : s.readers ≠ 0 := by omega
      simp only [hpos, if_false] at hs
      have hs := Option.some.inj hs
      subst hs
      have hset := htot ⟨p, false⟩
      have := hq.held
      refine ⟨?_, ?_, ?_, ?_, h.noFatal⟩
      · simp only at hset ⊢
        have := h.readers
        omega
      · intro j u hj
        rcases getElem?_set_cases hj with ⟨rfl, rfl⟩ | ⟨hij, hj⟩
        · exact .inr (.inl ⟨hw1, hw2, rfl, _, hq⟩)
        · exact h.shape j u hj
      · intro j hj; simpa using h.owner j hj
      · intro j hj; exact absurd (h.excl j hj) hpos
    | @lock p hwr hq =>
      have hheld : held t.prog = 0 := by rw [heq]; exact (Wf.lock (nest := nest) hwr hq).held
      simp only at hs
      cases hsw : s.writer with
      | none =>
        rw [hsw] at hs
        have hs := Option.some.inj hs
        subst hs
        have hset := htot ⟨.lock :: .unlock :: p, true⟩
        rw [heq] at hset
        refine ⟨?_, ?_, ?_, ?_, h.noFatal⟩
        · simp only at hset ⊢
          have := h.readers
          omega
        · intro j u hj
          rcases getElem?_set_cases hj with ⟨rfl, rfl⟩ | ⟨hij, hj⟩
          · exact .inr (.inr (.inr ⟨rfl, rfl, p, rfl, hwr, hq⟩))
          · have := h.shape j u hj
            rw [hsw] at this
            rcases this with ⟨h1, _⟩ | ⟨_, _, h2, h3⟩ | ⟨_, _, h1, _⟩ | ⟨h1, _⟩
            · cases h1
            · refine .inr (.inl ⟨by simp, ?_, h2, h3⟩)
              intro h; injection h with h; exact hij h
            · exact absurd rfl h1
            · cases h1
        · intro j hj
          simp only [Writer.pending.injEq, reduceCtorEq, or_false] at hj
          subst hj
          simpa using hlt
        · intro j hj; cases hj
      | pending k =>
        rw [hsw] at hs
        simp only at hs
        split at hs
        · rename_i hk
          exact absurd (hk.1 ▸ hsw) hw2
        · cases hs
      | active k => rw [hsw] at hs; cases hs
  · -- a waiting reader
    unfold stepAct at hs
    rw [hp] at hs
    simp [hwt] at hs
  · -- the pending writer
    unfold stepAct at hs
    rw [hp] at hs
    simp only [hw, true_and] at hs
    split at hs
    · rename_i h0
      have hs := Option.some.inj hs
      subst hs
      have hset := htot ⟨.unlock :: p, false⟩
      have hheld : held t.prog = 0 := by rw [hp]; exact (Wf.lock (nest := nest) hwr hwf).held
      have hu : held (Act.unlock :: p) = 0 :=
        held_of_shape_active (t := ⟨.unlock :: p, false⟩) rfl hwf
      refine ⟨?_, ?_, ?_, ?_, h.noFatal⟩
      · simp only at hset ⊢
        have := h.readers
        omega
      · intro j u hj
        rcases getElem?_set_cases hj with ⟨rfl, rfl⟩ | ⟨hij, hj⟩
        · exact .inl ⟨rfl, rfl, p, rfl, hwf⟩
        · have hne : Writer.active i ≠ .active j := by
            intro h; injection h with h; exact hij h
          rcases h.shape j u hj with ⟨h1, _⟩ | ⟨_, _, h2, h3⟩ | ⟨_, _, _, h2, h3⟩ | ⟨h1, _⟩
          · rw [hw] at h1; cases h1
          · exact .inr (.inl ⟨hne, by simp, h2, h3⟩)
          · exact .inr (.inr (.inl ⟨hne, by simp, by simp, h2, h3⟩))
          · rw [hw] at h1; injection h1 with h1; exact absurd h1 hij
      · intro j hj
        simp only [Writer.active.injEq, reduceCtorEq, false_or] at hj
        subst hj
        simpa using hlt
      · intro j _; exact h0
    · cases hs

theorem Inv.run {nest wr : Bool} {s s' : State} (h : Inv nest wr s) {is : List Nat}
    (hs : run s is = some s') : Inv nest wr s' := by
  induction is generalizing s with
  | nil => cases hs; exact h
  | cons i is ih =>
    unfold RWLock.run at hs
    cases ht : RWLock.step s i with
    | none => rw [ht] at hs; cases hs
    | some t => rw [ht] at hs; exact ih (h.step ht) hs

end Verif.RWLock
