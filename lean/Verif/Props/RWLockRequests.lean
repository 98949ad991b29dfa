import Verif.Props.RWLock
/-!
# C28 for the requests of the server
-/
namespace Verif.RWLock

theorem Balanced.append {p q : List Act} (hp : Balanced p) (hq : Balanced q) : Balanced (p ++ q) := by
  induction hp with
  | nil => exact hq
  | nest h1 _ _ ih2 =>
    rw [List.cons_append, List.append_assoc, List.cons_append]
    exact .nest h1 ih2

theorem Balanced.wrap {p : List Act} (hp : Balanced p) : Balanced ([.rlock] ++ p ++ [.runlock]) := .nest hp .nil

theorem balanced_once : Balanced once := Balanced.nest .nil .nil

theorem balanced_replicate (n : Nat) : Balanced (List.replicate n once).flatten := by
  induction n with
  | zero => exact .nil
  | succ n ih => rw [List.replicate_succ, List.flatten_cons]; exact balanced_once.append ih

/-- **C28** (part): every read request releases each read lock that it takes, in the right order. -/
theorem C28_balanced (r : Request) (h : r ≠ .update) : Balanced (trace r) := by
  have o := balanced_once
  have o2 := o.append o
  have o3 := o2.append o
  have o4 := o3.append o
  have o5 := o4.append o
  cases r with
  | update => exact absurd rfl h
  | lookup => exact o
  | typeAtLocation => exact o2
  | references => exact o4
  | semanticTokens => exact o2.wrap
  | documentLinks => exact o.wrap
  | documentSymbols => exact o.wrap
  | inlayHints => exact (o.append o.wrap).wrap
  | codeLens => exact o.wrap
  | prepareRename => exact o4.wrap
  | rename => exact o5.wrap
  | generatedDefinition => exact o2.wrap
  | workspaceSymbols n => exact (balanced_replicate n).wrap

/-- **C28** (partial): any number of read requests of the server, in every schedule and without updates: nothing gets
stuck, all finish after a bounded number of steps and no unlock fails. -/
theorem C28_server_reads_partial (reqs : List Request) (h : ∀ r ∈ reqs, r ≠ .update) (sched : List Nat) (s : State)
    (hs : run (init (reqs.map trace)) sched = some s) :
    (Stuck s → Finished s) ∧ sched.length ≤ bound (reqs.map trace) ∧ s.fatal = false := by
  refine C28_read_only_partial _ ?_ sched s hs
  intro p hp
  obtain ⟨r, hr, rfl⟩ := List.mem_map.1 hp
  exact C28_balanced r (h r hr)

/-- **C28** (partial): any number of updates together with requests that are not nested. -/
theorem C28_server_updates_partial (reqs : List Request)
    (h : ∀ r ∈ reqs, r = .update ∨ r = .lookup ∨ r = .typeAtLocation ∨ r = .references) (sched : List Nat) (s : State)
    (hs : run (init (reqs.map trace)) sched = some s) :
    (Stuck s → Finished s) ∧ sched.length ≤ bound (reqs.map trace) ∧ s.fatal = false := by
  have key : ∃ l : List (List Bool), reqs.map trace = l.map sections := by
    clear hs
    induction reqs with
    | nil => exact ⟨[], rfl⟩
    | cons r reqs ih =>
      obtain ⟨l, hl⟩ := ih (fun x hx => h x (List.mem_cons_of_mem _ hx))
      obtain ⟨b, hb⟩ : ∃ b, trace r = sections b := by
        rcases h r List.mem_cons_self with rfl | rfl | rfl | rfl
        · exact ⟨_, flat_requests.1⟩
        · exact ⟨_, flat_requests.2.1⟩
        · exact ⟨_, flat_requests.2.2.1⟩
        · exact ⟨_, flat_requests.2.2.2⟩
      exact ⟨b :: l, by rw [List.map_cons, List.map_cons, hl, hb]⟩
  obtain ⟨l, hl⟩ := key
  rw [hl] at hs ⊢
  exact C28_sections_partial l sched s hs

theorem balanced_wf_any {p : List Act} (h : Balanced p) (wr : Bool) :
    ∀ {d q}, Wf true wr d q → Wf true wr d (p ++ q) := by
  induction h with
  | nil => exact fun h => h
  | nest _ _ ih1 ih2 =>
    intro d q hq
    rw [List.cons_append, List.append_assoc, List.cons_append]
    exact .rlock (.inl rfl) (ih1 (.runlock (ih2 hq)))

theorem trace_wf (r : Request) : Wf true true 0 (trace r) := by
  by_cases h : r = .update
  · subst h; exact .lock rfl .nil
  · have := balanced_wf_any (C28_balanced r h) true (Wf.nil (nest := true) (wr := true))
    rwa [List.append_nil] at this

/-- **C28** (part): whatever requests and updates run, in every schedule: no unlock fails, writers exclude readers, and when
all requests are done the lock is free. -/
theorem C28_released (reqs : List Request) (sched : List Nat) (s : State)
    (hs : run (init (reqs.map trace)) sched = some s) :
    s.fatal = false ∧ (∀ i, s.writer = .active i → s.readers = 0) ∧
    (Finished s → s.readers = 0 ∧ s.writer = .none) := by
  have h : Inv true true s := by
    refine (Inv.init ?_).run hs
    intro p hp
    obtain ⟨r, _, rfl⟩ := List.mem_map.1 hp
    exact trace_wf r
  refine ⟨h.noFatal, h.excl, fun hf => ⟨?_, ?_⟩⟩
  · rw [h.readers]
    unfold total
    rw [List.sum_eq_zero_iff_forall_eq_nat]
    intro x hx
    obtain ⟨u, hu, rfl⟩ := List.mem_map.1 hx
    rw [hf u hu]
    rfl
  · cases hw : s.writer with
    | none => rfl
    | pending i =>
      obtain ⟨t, ht⟩ : ∃ t, s.threads[i]? = some t := ⟨_, List.getElem?_eq_getElem (h.owner i (.inl hw))⟩
      have hp := hf t (List.mem_of_getElem? ht)
      rcases h.shape i t ht with ⟨h1, _⟩ | ⟨_, h1, _⟩ | ⟨_, h1, _⟩ | ⟨_, _, p, hp', _⟩
      · rw [hw] at h1; cases h1
      · exact absurd hw h1
      · exact absurd hw h1
      · rw [hp] at hp'; cases hp'
    | active i =>
      obtain ⟨t, ht⟩ : ∃ t, s.threads[i]? = some t := ⟨_, List.getElem?_eq_getElem (h.owner i (.inr hw))⟩
      have hp := hf t (List.mem_of_getElem? ht)
      rcases h.shape i t ht with ⟨_, _, p, hp', _⟩ | ⟨h1, _⟩ | ⟨h1, _⟩ | ⟨h1, _⟩
      · rw [hp] at hp'; cases hp'
      · exact absurd hw h1
      · exact absurd hw h1
      · rw [hw] at h1; cases h1

/-- **C28** (part): the unlock failures that are excluded above: a goroutine that releases a lock nobody holds ends the
process. -/
theorem C28_unlock_fatal (s : State) (i : Nat) (t : Thread) (ht : s.threads[i]? = some t) (p : List Act) :
    (t.prog = .runlock :: p → s.readers = 0 → ∃ s', step s i = some s' ∧ s'.fatal = true) ∧
    (t.prog = .unlock :: p → s.writer ≠ .active i → ∃ s', step s i = some s' ∧ s'.fatal = true) := by
  rw [step_of ht]
  unfold stepAct
  refine ⟨fun hp h => ?_, fun hp h => ?_⟩
  · rw [hp]; simp [h]
  · rw [hp]; simp [h]

example : run (init ([.semanticTokens, .rename, .workspaceSymbols 3].map trace)) [0, 1, 0, 2, 2, 1] ≠ none := by decide
example : run (init ([.update, .references].map trace)) [1, 0, 1, 0] ≠ none := by decide

end Verif.RWLock
