import Verif.Lemmas.Races

/-!
# C103: the shared maps of the server are not accessed concurrently
-/
namespace Verif.Races

theorem holds_of_accessing {log : List Event} {s : State} (h : Inv log s) {v : Var} {i : Nat} {a : Act}
    (ha : accessing s i a) {k : Kind} (hk : IsKind log i k) (hc : ¬ Careless v k) :
    (a = .write v → s.wr (guard v) = some i) ∧
    (a = .read v → i ∈ s.rd (guard v) ∨ s.wr (guard v) = some i) := by
  obtain ⟨t, ht, _, hh⟩ := ha
  have o := h.threads i t ht
  have hkk : t.kind = k := by
    have : (s.threads.map Thread.kind)[i]? = some k := by rw [h.kinds]; exact hk
    simpa [ht] using this
  obtain ⟨r, hr⟩ : ∃ r, t.prog = a :: r := by
    cases hp : t.prog with
    | nil => simp [hp] at hh
    | cons b r => simp [hp] at hh; exact ⟨r, by rw [hh]⟩
  haveI : Fact (∀ v', some v = some v' → guard v' = guard v) := ⟨fun v' e => by injection e with e; rw [e]⟩
  have hsafe : Safe (guard v) (some v) 0 0 (t.done ++ a :: r) := by
    rw [← hr, o.split, hkk]
    exact safe_program k (fun v' e => by injection e with e; rw [← e]; exact hc)
  obtain ⟨h1, _, _⟩ := safe_at _ _ _ _ _ hsafe
  have h2 := o.rd (guard v)
  have h3 := o.wr (guard v)
  constructor
  · rintro rfl
    have := h1.1 rfl
    by_contra hne
    rw [if_neg hne] at h3
    omega
  · rintro rfl
    rcases h1.1 rfl with h4 | h4
    · left
      rw [← List.count_pos_iff]
      omega
    · right
      by_contra hne
      rw [if_neg hne] at h3
      omega

theorem isKind_of_accessing {log : List Event} {s : State} (h : Inv log s) {i : Nat} {a : Act}
    (ha : accessing s i a) : ∃ k, IsKind log i k := by
  obtain ⟨t, ht, _, _⟩ := ha
  refine ⟨t.kind, ?_⟩
  have : (s.threads.map Thread.kind)[i]? = some t.kind := by simp [ht]
  rw [h.kinds] at this
  exact this

/-- **C103** (partial: the requests that access the data without the mutex are left out): if two
requests access the same map at the same time, and one of them changes it, then one of the two is a
workspace/symbol, shutdown or exit request (for the map of the caches), a completion request (for the
results), or a command that generates code (for the paths). -/
theorem C103_guarded_partial {log : List Event} {s : State} (h : Run log s) (v : Var) (i j : Nat)
    (hr : Race s v i j) : ∃ k, (IsKind log i k ∨ IsKind log j k) ∧ Careless v k := by
  have hI := inv_of_run h
  obtain ⟨hne, hi, hj⟩ := hr
  obtain ⟨ki, hki⟩ := isKind_of_accessing hI hi
  have hkj : ∃ k, IsKind log j k := by
    rcases hj with hj | hj <;> exact isKind_of_accessing hI hj
  obtain ⟨kj, hkj⟩ := hkj
  by_contra hno
  have ci : ¬ Careless v ki := fun hc => hno ⟨ki, .inl hki, hc⟩
  have cj : ¬ Careless v kj := fun hc => hno ⟨kj, .inr hkj, hc⟩
  have hw := (holds_of_accessing hI hi hki ci).1 rfl
  have hrd := hI.excl _ _ hw
  rcases hj with hj | hj
  · rcases (holds_of_accessing hI hj hkj cj).2 rfl with h1 | h1
    · rw [hrd] at h1; cases h1
    · rw [hw] at h1; injection h1 with e; exact hne e
  · have h1 := (holds_of_accessing hI hj hkj cj).1 rfl
    rw [hw] at h1; injection h1 with e; exact hne e

theorem overlap {log : List Event} {s : State} (hI : Inv log s) {i j : Nat} {a b : Act} (hij : i < j)
    (hi : accessing s i a) (hj : accessing s j b) :
    ∃ m k, i ≤ m ∧ m < j ∧ IsKind log m k ∧ k.streaming = true := by
  obtain ⟨ti, hti, hbi, _⟩ := hi
  obtain ⟨tj, htj, hbj, _⟩ := hj
  obtain ⟨qi, hqi, hsi, hri⟩ := ((hI.threads i ti hti).busy hbi).2
  obtain ⟨qj, hqj, hsj, hrj⟩ := ((hI.threads j tj htj).busy hbj).2
  obtain ⟨l, hl, hkl⟩ := hI.async
  have hA := Async.inv_of_run hl
  by_contra hno
  have hopen := hA.opened j ((hA.started j qj hqj).mp hsj)
  obtain ⟨d, rfl⟩ : ∃ d, j = i + d + 1 := ⟨j - i - 1, by omega⟩
  have hjlen := (List.getElem?_eq_some_iff.mp htj).1
  have := Async.chain hA i d hopen (fun m h1 h2 => by
    have hm : m < s.threads.length := by omega
    have hk : IsKind log m (s.threads[m].kind) := by
      have : (s.threads.map Thread.kind)[m]? = some s.threads[m].kind := by simp [hm]
      rw [hI.kinds] at this
      exact this
    have hst : (s.threads[m].kind).streaming = false := by
      by_contra hst
      exact hno ⟨m, _, h1, by omega, hk, by simpa using hst⟩
    rw [hkl, List.getElem?_map]
    unfold IsKind at hk
    rw [show (arrivals log)[m]? = _ from hk]
    simp [hst])
  have hrep := (hA.replied i qi hqi).mpr this
  rw [hri] at hrep
  cases hrep

theorem isCommand_of {k : Kind} (h : k.streaming = true) : k.IsCommand := by
  cases k <;> first | (cases h; done) | constructor

/-- **C103**: between two requests that access data at the same time a command (or the first of them
is one) has arrived: as long as the client sends no commands, no two requests access any data at the
same time, whether they take the mutexes or not. -/
theorem C103_commands {log : List Event} {s : State} (h : Run log s) (v : Var) (i j : Nat)
    (hr : Race s v i j) :
    ∃ m k, min i j ≤ m ∧ m < max i j ∧ IsKind log m k ∧ k.IsCommand := by
  have hI := inv_of_run h
  obtain ⟨hne, hi, hj⟩ := hr
  have hj' : ∃ b, accessing s j b := by
    rcases hj with hj | hj <;> exact ⟨_, hj⟩
  obtain ⟨b, hj'⟩ := hj'
  rcases Nat.lt_or_gt_of_ne hne with hlt | hlt
  · obtain ⟨m, k, h1, h2, h3, h4⟩ := overlap hI hlt hi hj'
    exact ⟨m, k, by omega, by omega, h3, isCommand_of h4⟩
  · obtain ⟨m, k, h1, h2, h3, h4⟩ := overlap hI hlt hj' hi
    exact ⟨m, k, by omega, by omega, h3, isCommand_of h4⟩

/-- **C103**: no request releases a mutex that it does not hold. -/
theorem C103_unlocks (k : Kind) (p q : List Act) (l : Lock) :
    (program k = p ++ .runlock l :: q → p.count (.runlock l) < p.count (.rlock l)) ∧
    (program k = p ++ .unlock l :: q → p.count (.unlock l) < p.count (.lock l)) := by
  haveI : Fact (∀ v', (none : Option Var) = some v' → guard v' = l) := ⟨fun _ e => by cases e⟩
  have hs : Safe l none 0 0 (program k) := safe_program k (fun _ e => by cases e)
  constructor
  · intro e
    rw [e] at hs
    have := (safe_at _ _ _ _ _ hs).1.1 rfl
    omega
  · intro e
    rw [e] at hs
    have := (safe_at _ _ _ _ _ hs).1.1 rfl
    omega

/-! ### The races that are left -/

namespace Demo

/-- The steps that are needed for the executions below, as a function. -/
def sim (s : State) : Event → Option State
  | .arrive k =>
    let a := { s.async with reqs := s.async.reqs ++ [⟨k.streaming, false, false⟩] }
    some { s with async := if k.streaming then Async.close a (s.async.reqs.length + 1) else a,
                  threads := s.threads ++ [{ kind := k, prog := program k }] }
  | .start i =>
    match s.async.reqs[i]? with
    | none => none
    | some q => if q.started = false ∧ i ∈ s.async.closed then
        some { s with async := { s.async with reqs := s.async.reqs.set i { q with started := true } } }
      else none
  | .act i =>
    match s.async.reqs[i]?, s.threads[i]? with
    | some q, some t => if q.started = true ∧ q.replied = false then exec s i t else none
    | _, _ => none
  | _ => none

theorem sim_step {s t : State} {e : Event} (h : sim s e = some t) : Step s e t := by
  cases e with
  | arrive k =>
    simp only [sim, Option.some.injEq] at h
    subst h
    apply Step.arrive
    cases hk : k.streaming with
    | true => simpa using Async.Step.arriveStreaming s.async
    | false => simpa using Async.Step.arrive s.async
  | start i =>
    simp only [sim] at h
    split at h
    · cases h
    · rename_i q hq
      split at h
      · rename_i hc
        injection h with h
        subst h
        exact .start s i _ (.start s.async i q hq hc.1 hc.2)
      · cases h
  | act i =>
    simp only [sim] at h
    split at h
    · rename_i q t hq ht
      split at h
      · rename_i hc
        exact .act s i q t _ hq hc.1 hc.2 ht h
      · cases h
    · cases h
  | reply i => simp [sim] at h
  | skip i => simp [sim] at h

def simAll (s : State) : List Event → Option State
  | [] => some s
  | e :: es => (sim s e).bind (fun t => simAll t es)

theorem simAll_run : ∀ (es : List Event) {log : List Event} {s t : State}, Run log s → simAll s es = some t →
    Run (log ++ es) t := by
  intro es
  induction es with
  | nil => intro log s t hr h; simp only [simAll, Option.some.injEq] at h; subst h; simpa using hr
  | cons e es ih =>
    intro log s t hr h
    simp only [simAll, Option.bind_eq_some_iff] at h
    obtain ⟨u, hu, h⟩ := h
    have := ih (hr.step (sim_step hu)) h
    simpa using this

def acc (s : State) (i : Nat) : Option Act :=
  match s.threads[i]? with
  | some t => if t.busy then t.prog.head? else none
  | none => none

theorem accessing_of_acc {s : State} {i : Nat} {a : Act} (h : acc s i = some a) : accessing s i a := by
  unfold acc at h
  split at h
  · rename_i t ht
    split at h
    · rename_i hb; exact ⟨t, ht, hb, h⟩
    · cases h
  · cases h

/-- From a computed execution to a race. -/
theorem race_of_sim {es : List Event} {v : Var} {i j : Nat} (hne : i ≠ j)
    (h : (simAll {} es).map (fun s => (acc s i, acc s j)) = some (some (.write v), some (.read v))) :
    ∃ s, Run es s ∧ Race s v i j := by
  cases hs : simAll {} es with
  | none => rw [hs] at h; simp at h
  | some s =>
    rw [hs] at h
    simp only [Option.map_some, Option.some.injEq, Prod.mk.injEq] at h
    refine ⟨s, ?_, hne, accessing_of_acc h.1, .inl (accessing_of_acc h.2)⟩
    simpa using simAll_run es .init hs

/-- Requests do overlap: a notification changes the paths of a cache while a command reads the map of
the caches. -/
example : (simAll {} [.arrive (.cmdAst [] 0), .arrive (.didModify [] 0 0 [1]), .start 0, .start 1,
    .act 0, .act 0, .act 1, .act 1, .act 1, .act 1, .act 1, .act 1]).map (fun s => (acc s 0, acc s 1)) =
    some (some (.read .caches), some (.write (.paths 0))) := by decide +kernel

/-- A writer waits for the readers: the command cannot take the lock. -/
example : (simAll {} [.arrive (.cmdRefresh 1), .arrive (.didChangeConfiguration 1), .start 0, .start 1,
    .act 1, .act 0]).isNone = true := by decide +kernel

example : program (.cmdRefresh 1) = [.lock .caches, .read .caches] ++ .unlock .caches :: [] := by decide +kernel

end Demo

open Demo in
/-- **C103** does not hold for workspace/symbol: `Symbol` goes through the map of the caches without
the mutex while the command "protols/reindexWorkspaces" deletes from it. -/
theorem C103_symbol_violated : ∃ log s, Run log s ∧ Race s .caches 0 1 ∧
    IsKind log 0 (.cmdReindex 1 [(0, 1, [])]) ∧ IsKind log 1 (.symbol [(0, 3)]) := by
  obtain ⟨s, h1, h2⟩ := race_of_sim (es := [.arrive (.cmdReindex 1 [(0, 1, [])]), .arrive (.symbol [(0, 3)]),
    .start 0, .start 1, .act 0, .act 0, .act 0, .act 0, .act 1]) (v := .caches) (i := 0) (j := 1) (by decide)
    (by decide +kernel)
  exact ⟨_, s, h1, h2, rfl, rfl⟩

open Demo in
/-- **C103** does not hold for shutdown: the caches are deleted without the mutex while the command
"protols/refreshModules" goes through them. -/
theorem C103_shutdown_violated : ∃ log s, Run log s ∧ Race s .caches 1 0 ∧
    IsKind log 0 (.cmdRefresh 1) ∧ IsKind log 1 (.shutdown 1) := by
  obtain ⟨s, h1, h2⟩ := race_of_sim (es := [.arrive (.cmdRefresh 1), .arrive (.shutdown 1),
    .start 0, .start 1, .act 0, .act 0, .act 1, .act 1, .act 1, .act 1]) (v := .caches) (i := 1) (j := 0)
    (by decide) (by decide +kernel)
  exact ⟨_, s, h1, h2, rfl, rfl⟩

open Demo in
/-- **C103** does not hold for code generation: "protols/generateWorkspace" goes through the map from
URIs to paths with the mutex of the results only, while a notification about a document changes it. -/
theorem C103_generate_violated : ∃ log s, Run log s ∧ Race s (.paths 0) 1 0 ∧
    IsKind log 0 (.cmdGenerateWorkspace 0 2) ∧ IsKind log 1 (.didModify [] 0 1 [1]) := by
  obtain ⟨s, h1, h2⟩ := race_of_sim (es := [.arrive (.cmdGenerateWorkspace 0 2), .arrive (.didModify [] 0 1 [1]),
    .start 0, .start 1, .act 0, .act 0, .act 0, .act 0, .act 0, .act 0,
    .act 1, .act 1, .act 1, .act 1, .act 1, .act 1, .act 1, .act 1, .act 1, .act 1])
    (v := .paths 0) (i := 1) (j := 0) (by decide) (by decide +kernel)
  exact ⟨_, s, h1, h2, rfl, rfl⟩

open Demo in
/-- **C103** does not hold for completion: the names of packages are collected from the results
without the mutex. The notification that changes them arrives first, but a command in between lets the
completion request start (see `C26_overtaking_violated`). -/
theorem C103_completion_violated : ∃ log s, Run log s ∧ Race s (.results 0) 0 2 ∧
    IsKind log 0 (.didModify [] 0 0 [0]) ∧ IsKind log 1 (.cmdRefresh 0) ∧ IsKind log 2 (.completion [] 0 0) := by
  obtain ⟨s, h1, h2⟩ := race_of_sim (es := [.arrive (.didModify [] 0 0 [0]), .arrive (.cmdRefresh 0),
    .arrive (.completion [] 0 0), .start 0, .start 2,
    .act 0, .act 0, .act 0, .act 0, .act 0, .act 0, .act 0, .act 0, .act 0, .act 0, .act 0, .act 0,
    .act 2, .act 2, .act 2, .act 2, .act 2])
    (v := .results 0) (i := 0) (j := 2) (by decide) (by decide +kernel)
  exact ⟨_, s, h1, h2, rfl, rfl, rfl⟩

end Verif.Races
