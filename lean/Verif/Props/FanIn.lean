import Verif.Model.FanIn

/-!
# C25: the parallel reference search reports each reference once
-/
namespace Verif.FanIn

variable {R K : Type}

/-- Everything that passed the duplicate check. -/
def passed (s : State R K) : List R := s.received ++ s.buffer ++ s.prods.filterMap Prod.sending

structure Inv (key : R → K) (files : List (List R)) (s : State R K) : Prop where
  nodup : ((passed s).map key).Nodup
  seen : ∀ k, k ∈ s.seen ↔ k ∈ (passed s).map key
  sound : ∀ r ∈ passed s, ∃ rs ∈ files, r ∈ rs
  todoSound : ∀ p ∈ s.prods, ∀ r ∈ p.todo, ∃ rs ∈ files, r ∈ rs
  complete : ∀ rs ∈ files, ∀ r ∈ rs, key r ∈ s.seen ∨ ∃ p ∈ s.prods, r ∈ p.todo
  done : ∀ p ∈ s.prods, p.done = true → p.todo = [] ∧ p.sending = none
  closed : s.closed = true → ∀ p ∈ s.prods, p.done = true
  count : s.prods.length = files.length
  ended : s.ended = true → s.closed = true ∧ s.buffer = []
  panicked : s.panicked = false

theorem inv_init (key : R → K) (files : List (List R)) : Inv key files (init files) := by
  have hs : (List.map (fun rs => (⟨rs, none, false⟩ : Prod R)) files).filterMap Prod.sending = [] := by
    simp
  have hp : passed (init files : State R K) = [] := by simp only [passed, init, hs]; rfl
  constructor
  · rw [hp]; simp
  · rw [hp]; simp [init]
  · rw [hp]; simp
  · intro p hp r hr
    obtain ⟨rs, hrs, rfl⟩ := List.mem_map.mp hp
    exact ⟨rs, hrs, hr⟩
  · intro rs hrs r hr
    exact .inr ⟨_, List.mem_map.mpr ⟨rs, hrs, rfl⟩, hr⟩
  · intro p hp hd
    obtain ⟨rs, hrs, rfl⟩ := List.mem_map.mp hp
    simp at hd
  · simp [init]
  · simp [init]
  · simp [init]
  · rfl

theorem inv_step {key : R → K} {cap : Nat} {files : List (List R)} {s t : State R K}
    (hi : Inv key files s) (h : Step key cap s t) : Inv key files t := by
  obtain ⟨i1, i2, i3, i4, i5, i6, i7, i8, i9, i10⟩ := hi
  cases h with
  | skip a r rs b hp h =>
    have e : passed { s with prods := a ++ ⟨rs, none, false⟩ :: b } = passed s := by
      simp [passed, hp]
    refine ⟨by rw [e]; exact i1, by intro k; rw [e]; exact i2 k, by rw [e]; exact i3, ?_, ?_, ?_, ?_, ?_, i9, i10⟩
    · intro p hp' x hx
      simp only [List.mem_append, List.mem_cons] at hp'
      rcases hp' with hp' | rfl | hp'
      · exact i4 p (by rw [hp]; simp [hp']) x hx
      · exact i4 ⟨r :: rs, none, false⟩ (by rw [hp]; simp) x (by simp at hx ⊢; exact .inr hx)
      · exact i4 p (by rw [hp]; simp [hp']) x hx
    · intro l hl x hx
      rcases i5 l hl x hx with h1 | ⟨p, hp', hx'⟩
      · exact .inl h1
      · rw [hp] at hp'
        simp only [List.mem_append, List.mem_cons] at hp'
        rcases hp' with hp' | rfl | hp'
        · exact .inr ⟨p, by simp [hp'], hx'⟩
        · rcases List.mem_cons.mp hx' with rfl | hx'
          · exact .inl h
          · exact .inr ⟨_, List.mem_append_right _ (List.mem_cons_self), hx'⟩
        · exact .inr ⟨p, by simp [hp'], hx'⟩
    · intro p hp' hd
      simp only [List.mem_append, List.mem_cons] at hp'
      rcases hp' with hp' | rfl | hp'
      · exact i6 p (by rw [hp]; simp [hp']) hd
      · simp at hd
      · exact i6 p (by rw [hp]; simp [hp']) hd
    · intro hc
      exact absurd (i7 hc ⟨r :: rs, none, false⟩ (by rw [hp]; simp)) (by simp)
    · simpa [hp] using i8
  | store a r rs b hp h =>
    have hpe : ∀ x, x ∈ passed { s with prods := a ++ ⟨rs, some r, false⟩ :: b, seen := key r :: s.seen } ↔
        x = r ∨ x ∈ passed s := by
      intro x
      simp [passed, hp]
      grind
    have hperm : (passed { s with prods := a ++ ⟨rs, some r, false⟩ :: b, seen := key r :: s.seen }).Perm
        (r :: passed s) := by
      simp only [passed, hp, List.filterMap_append, List.filterMap_cons]
      rw [← List.append_assoc]
      refine List.perm_middle.trans ?_
      simp
    refine ⟨?_, ?_, ?_, ?_, ?_, ?_, ?_, ?_, i9, i10⟩
    · rw [(hperm.map key).nodup_iff, List.map_cons, List.nodup_cons]
      exact ⟨fun hk => h ((i2 _).mpr hk), i1⟩
    · intro k
      rw [(hperm.map key).mem_iff]
      simp only [List.mem_cons, List.map_cons, i2 k]
    · intro x hx
      rcases (hpe x).mp hx with rfl | hx
      · exact i4 ⟨x :: rs, none, false⟩ (by rw [hp]; simp) x (by simp)
      · exact i3 x hx
    · intro p hp' x hx
      simp only [List.mem_append, List.mem_cons] at hp'
      rcases hp' with hp' | rfl | hp'
      · exact i4 p (by rw [hp]; simp [hp']) x hx
      · exact i4 ⟨r :: rs, none, false⟩ (by rw [hp]; simp) x (by simp at hx ⊢; exact .inr hx)
      · exact i4 p (by rw [hp]; simp [hp']) x hx
    · intro l hl x hx
      rcases i5 l hl x hx with h1 | ⟨p, hp', hx'⟩
      · exact .inl (List.mem_cons_of_mem _ h1)
      · rw [hp] at hp'
        simp only [List.mem_append, List.mem_cons] at hp'
        rcases hp' with hp' | rfl | hp'
        · exact .inr ⟨p, by simp [hp'], hx'⟩
        · rcases List.mem_cons.mp hx' with rfl | hx'
          · exact .inl (List.mem_cons_self)
          · exact .inr ⟨_, List.mem_append_right _ (List.mem_cons_self), hx'⟩
        · exact .inr ⟨p, by simp [hp'], hx'⟩
    · intro p hp' hd
      simp only [List.mem_append, List.mem_cons] at hp'
      rcases hp' with hp' | rfl | hp'
      · exact i6 p (by rw [hp]; simp [hp']) hd
      · simp at hd
      · exact i6 p (by rw [hp]; simp [hp']) hd
    · intro hc
      exact absurd (i7 hc ⟨r :: rs, none, false⟩ (by rw [hp]; simp)) (by simp)
    · simpa [hp] using i8
  | send a r rs b hp h hc0 =>
    have hperm : (passed { s with prods := a ++ ⟨rs, none, false⟩ :: b, buffer := s.buffer ++ [r] }).Perm
        (passed s) := by
      simp only [passed, hp, List.filterMap_append, List.filterMap_cons]
      rw [List.append_assoc, List.append_assoc, List.append_assoc]
      refine List.Perm.append_left _ (List.Perm.append_left _ ?_)
      rw [List.singleton_append]
      exact List.perm_middle.symm
    refine ⟨?_, ?_, ?_, ?_, ?_, ?_, ?_, ?_, ?_, i10⟩
    · rw [(hperm.map key).nodup_iff]; exact i1
    · intro k; rw [(hperm.map key).mem_iff]; exact i2 k
    · intro x hx; exact i3 x (hperm.mem_iff.mp hx)
    · intro p hp' x hx
      simp only [List.mem_append, List.mem_cons] at hp'
      rcases hp' with hp' | rfl | hp'
      · exact i4 p (by rw [hp]; simp [hp']) x hx
      · exact i4 ⟨rs, some r, false⟩ (by rw [hp]; simp) x hx
      · exact i4 p (by rw [hp]; simp [hp']) x hx
    · intro l hl x hx
      rcases i5 l hl x hx with h1 | ⟨p, hp', hx'⟩
      · exact .inl h1
      · rw [hp] at hp'
        simp only [List.mem_append, List.mem_cons] at hp'
        rcases hp' with hp' | rfl | hp'
        · exact .inr ⟨p, by simp [hp'], hx'⟩
        · exact .inr ⟨_, List.mem_append_right _ (List.mem_cons_self), hx'⟩
        · exact .inr ⟨p, by simp [hp'], hx'⟩
    · intro p hp' hd
      simp only [List.mem_append, List.mem_cons] at hp'
      rcases hp' with hp' | rfl | hp'
      · exact i6 p (by rw [hp]; simp [hp']) hd
      · simp at hd
      · exact i6 p (by rw [hp]; simp [hp']) hd
    · intro hc
      exact absurd (i7 hc ⟨rs, some r, false⟩ (by rw [hp]; simp)) (by simp)
    · simpa [hp] using i8
    · intro he; rw [hc0] at i9; exact absurd (i9 he).1 (by simp)
  | sendClosed a r rs b hp hc =>
    exact absurd (i7 hc ⟨rs, some r, false⟩ (by rw [hp]; simp)) (by simp)
  | done a b hp =>
    have e : passed { s with prods := a ++ ⟨[], none, true⟩ :: b } = passed s := by
      simp [passed, hp]
    refine ⟨by rw [e]; exact i1, by intro k; rw [e]; exact i2 k, by rw [e]; exact i3, ?_, ?_, ?_, ?_, ?_, i9, i10⟩
    · intro p hp' x hx
      simp only [List.mem_append, List.mem_cons] at hp'
      rcases hp' with hp' | rfl | hp'
      · exact i4 p (by rw [hp]; simp [hp']) x hx
      · simp at hx
      · exact i4 p (by rw [hp]; simp [hp']) x hx
    · intro l hl x hx
      rcases i5 l hl x hx with h1 | ⟨p, hp', hx'⟩
      · exact .inl h1
      · rw [hp] at hp'
        simp only [List.mem_append, List.mem_cons] at hp'
        rcases hp' with hp' | rfl | hp'
        · exact .inr ⟨p, by simp [hp'], hx'⟩
        · simp at hx'
        · exact .inr ⟨p, by simp [hp'], hx'⟩
    · intro p hp' hd
      simp only [List.mem_append, List.mem_cons] at hp'
      rcases hp' with hp' | rfl | hp'
      · exact i6 p (by rw [hp]; simp [hp']) hd
      · simp
      · exact i6 p (by rw [hp]; simp [hp']) hd
    · intro hc
      exact absurd (i7 hc ⟨[], none, false⟩ (by rw [hp]; simp)) (by simp)
    · simpa [hp] using i8
  | close h hc => exact ⟨i1, i2, i3, i4, i5, i6, fun _ => h, i8, fun he => ⟨rfl, (i9 he).2⟩, i10⟩
  | recv r rest h he =>
    have e : passed { s with buffer := rest, received := s.received ++ [r] } = passed s := by
      simp [passed, h]
    exact ⟨by rw [e]; exact i1, by intro k; rw [e]; exact i2 k, by rw [e]; exact i3, i4, i5, i6, i7, i8,
      fun h' => absurd h' (by simp [he]), i10⟩
  | finish h hc he => exact ⟨i1, i2, i3, i4, i5, i6, i7, i8, fun _ => ⟨hc, h⟩, i10⟩

theorem inv_steps {key : R → K} {cap n : Nat} {files : List (List R)} {t : State R K}
    (h : Steps key cap n (init files) t) : Inv key files t := by
  generalize hs : (init files : State R K) = s at h
  induction h with
  | refl => subst hs; exact inv_init key files
  | step _ h ih => exact inv_step (ih hs) h

/-- **C25** (every scheduling, any number of files and references): when the consumer's loop
has ended, it has received every reference found in any file exactly once (references with
the same textual form count as the same), and nothing else. -/
theorem C25_exactly_once {key : R → K} {cap n : Nat} {files : List (List R)} {t : State R K}
    (h : Steps key cap n (init files) t) (he : t.ended = true) :
    (t.received.map key).Nodup ∧
    (∀ r ∈ t.received, ∃ rs ∈ files, r ∈ rs) ∧
    (∀ rs ∈ files, ∀ r ∈ rs, key r ∈ t.received.map key) := by
  have hi := inv_steps h
  obtain ⟨hc, hb⟩ := hi.ended he
  have hd := hi.closed hc
  have hsend : t.prods.filterMap Prod.sending = [] := by
    rw [List.filterMap_eq_nil_iff]
    intro p hp
    exact (hi.done p hp (hd p hp)).2
  have e : passed t = t.received := by simp [passed, hb, hsend]
  refine ⟨e ▸ hi.nodup, e ▸ hi.sound, ?_⟩
  intro rs hrs r hr
  rcases hi.complete rs hrs r hr with h1 | ⟨p, hp, hx⟩
  · rw [← e]; exact (hi.seen _).mp h1
  · rw [(hi.done p hp (hd p hp)).1] at hx; simp at hx

/-- **C25**: at every moment, no reference was delivered twice. -/
theorem C25_never_twice {key : R → K} {cap n : Nat} {files : List (List R)} {t : State R K}
    (h : Steps key cap n (init files) t) : (t.received.map key).Nodup := by
  have := (inv_steps h).nodup
  simp only [passed, List.map_append, List.append_assoc] at this
  exact (List.nodup_append.mp this).1

/-- **C25**: the stream ends only after all files were searched. -/
theorem C25_ends_last {key : R → K} {cap n : Nat} {files : List (List R)} {t : State R K}
    (h : Steps key cap n (init files) t) (he : t.ended = true) :
    ∀ p ∈ t.prods, p.done = true ∧ p.todo = [] := by
  have hi := inv_steps h
  have hd := hi.closed (hi.ended he).1
  exact fun p hp => ⟨hd p hp, (hi.done p hp (hd p hp)).1⟩

/-- **C25**: no value is ever sent on the closed channel: once it is closed, nothing is left to
send. -/
theorem C25_no_panic {key : R → K} {cap n : Nat} {files : List (List R)} {t : State R K}
    (h : Steps key cap n (init files) t) :
    t.panicked = false ∧ (t.closed = true → ∀ p ∈ t.prods, p.sending = none ∧ p.todo = []) := by
  have hi := inv_steps h
  refine ⟨hi.panicked, fun hc p hp => ?_⟩
  have := hi.done p hp (hi.closed hc p hp)
  exact ⟨this.2, this.1⟩

/-- Upper bound of the number of steps left. -/
def weight (p : Prod R) : Nat :=
  4 * p.todo.length + (if p.sending.isSome then 3 else 0) + (if p.done then 0 else 1)

def measure (s : State R K) : Nat :=
  (s.prods.map weight).sum + 2 * s.buffer.length + (if s.closed then 0 else 1) + (if s.ended then 0 else 1)

theorem measure_step {key : R → K} {cap : Nat} {s t : State R K} (h : Step key cap s t) :
    measure t < measure s := by
  cases h with
  | skip a r rs b hp h => simp [measure, hp, weight]
  | store a r rs b hp h => simp [measure, hp, weight]; omega
  | send a r rs b hp h hc => simp [measure, hp, weight]; omega
  | sendClosed a r rs b hp hc => simp [measure, hp, weight]
  | done a b hp => simp [measure, hp, weight]
  | close h hc => simp [measure, hc]
  | recv r rest h he => simp [measure, h]
  | finish h hc he => simp [measure, he]

theorem steps_bound {key : R → K} {cap n : Nat} {s t : State R K} (h : Steps key cap n s t) :
    n + measure t ≤ measure s := by
  induction h with
  | refl => omega
  | step _ h ih => have := measure_step h; omega

theorem progress [DecidableEq K] {key : R → K} {cap : Nat} {files : List (List R)} {s : State R K}
    (hcap : files.length ≤ cap) (hi : Inv key files s) (he : s.ended = false) :
    ∃ t, Step key cap s t := by
  cases hb : s.buffer with
  | cons r rest => exact ⟨_, Step.recv s r rest hb he⟩
  | nil =>
    by_cases hd : ∀ p ∈ s.prods, p.done = true
    · cases hc : s.closed with
      | true => exact ⟨_, Step.finish s hb hc he⟩
      | false => exact ⟨_, Step.close s hd hc⟩
    · have hd : ∃ p ∈ s.prods, p.done = false := by
        apply Classical.byContradiction
        intro hcon
        apply hd
        intro p hp
        cases hp' : p.done with
        | true => rfl
        | false => exact absurd ⟨p, hp, hp'⟩ hcon
      obtain ⟨⟨todo, snd, dn⟩, hp, rfl⟩ := hd
      obtain ⟨a, b, hab⟩ := List.append_of_mem hp
      have hcap' : 0 < cap := by
        have := hi.count
        have : 0 < s.prods.length := by rw [hab, List.length_append, List.length_cons]; omega
        omega
      cases snd with
      | some r =>
        cases hc : s.closed with
        | true => exact ⟨_, Step.sendClosed s a r todo b hab hc⟩
        | false => exact ⟨_, Step.send s a r todo b hab (by simpa [hb] using hcap') hc⟩
      | none =>
        cases todo with
        | nil => exact ⟨_, Step.done s a b hab⟩
        | cons r rs =>
          by_cases hk : key r ∈ s.seen
          · exact ⟨_, Step.skip s a r rs b hab hk⟩
          · exact ⟨_, Step.store s a r rs b hab hk⟩

/-- **C25**, termination: every execution is finite (its length is bounded by the input), and
an execution that cannot be continued has ended the consumer's loop. The channel has at
least one place per goroutine. -/
theorem C25_terminates [DecidableEq K] {key : R → K} {cap n : Nat} {files : List (List R)}
    {t : State R K} (hcap : files.length ≤ cap) (h : Steps key cap n (init files) t) :
    n ≤ measure (init files : State R K) ∧ ((∀ u, ¬ Step key cap t u) → t.ended = true) := by
  refine ⟨by have := steps_bound h; omega, ?_⟩
  intro hstuck
  cases he : t.ended with
  | true => rfl
  | false =>
    obtain ⟨u, hu⟩ := progress hcap (inv_steps h) he
    exact absurd hu (hstuck u)

/-- Two files with the references 1, 2 and 2: 2 is reported once. -/
example : ∃ n t, Steps (fun x : Nat => x) 2 n (init [[1, 2], [2]]) t ∧ t.received = [2, 1] ∧
    t.ended = true := by
  have s0 := Steps.refl (key := fun x : Nat => x) (cap := 2) (init [[1, 2], [2]] : State Nat Nat)
  have s1 := s0.step (Step.store _ [⟨[1, 2], none, false⟩] 2 [] [] rfl (by decide))
  have s2 := s1.step (Step.send _ [⟨[1, 2], none, false⟩] 2 [] [] rfl (by decide) rfl)
  have s3 := s2.step (Step.store _ [] 1 [2] [⟨[], none, false⟩] rfl (by decide))
  have s4 := s3.step (Step.send _ [] 1 [2] [⟨[], none, false⟩] rfl (by decide) rfl)
  have s5 := s4.step (Step.skip _ [] 2 [] [⟨[], none, false⟩] rfl (by decide))
  have s6 := s5.step (Step.done _ [] [⟨[], none, false⟩] rfl)
  have s7 := s6.step (Step.done _ [⟨[], none, true⟩] [] rfl)
  have s8 := s7.step (Step.recv _ 2 [1] rfl rfl)
  have s9 := s8.step (Step.close _ (by simp) rfl)
  have s10 := s9.step (Step.recv _ 1 [] rfl rfl)
  have s11 := s10.step (Step.finish _ rfl rfl rfl)
  exact ⟨_, _, s11, rfl, rfl⟩

end Verif.FanIn
