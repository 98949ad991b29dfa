import Verif.Spec.FmtCmd
import Mathlib.Data.List.Nodup
/-! Invariants of the `fmt` command. -/
namespace Verif.FmtCmd

variable {α E : Type} {zero : α} {fmt : List α → Result α E} {args : List Nat} {fs : Nat → Option (List α)} {write : Bool}

/-- The file and the backup of a goroutine, by phase; `f0` is the file at the start. -/
def Ok (fmt : List α → Result α E) (f0 : Option (List α)) : Phase α E → Option (List α) → Option (List α) → Prop
  | .start, f, b => f = f0 ∧ b = none
  | .stated n, f, b => ∃ c, f0 = some c ∧ n = c.length ∧ f = f0 ∧ b = none
  | .read n o, f, b => f0 = some o ∧ n = o.length ∧ f = f0 ∧ b = none
  | .waitBackup n o new, f, b => f0 = some o ∧ n = o.length ∧ fmt o = .ok new ∧ f = f0 ∧ b = none
  | .backup n o new, f, b => f0 = some o ∧ n = o.length ∧ fmt o = .ok new ∧ f = f0 ∧ b = none
  | .waitWrite n o new, f, b => f0 = some o ∧ n = o.length ∧ fmt o = .ok new ∧ f = f0 ∧ b = some o
  | .opening n o new, f, b => f0 = some o ∧ n = o.length ∧ fmt o = .ok new ∧ f = f0 ∧ b = some o
  | .writing n o new m, f, b => f0 = some o ∧ n = o.length ∧ fmt o = .ok new ∧ m ≤ new.length ∧ f = some (new.take m ++ o.drop m) ∧ b = some o
  | .removing o new, f, b => f0 = some o ∧ fmt o = .ok new ∧ f = some new ∧ b = some o
  | .done r, f, b => f = f0.map (formatted fmt) ∧ b = none ∧ r = match f0 with
    | none => some .missing
    | some c => match fmt c with
      | .error e => some (.format e)
      | _ => none

theorem put_same {β : Type} (f : Nat → β) (k : Nat) (v : β) : put f k v k = v := by simp [put]

theorem put_ne {β : Type} (f : Nat → β) {k j : Nat} (v : β) (h : j ≠ k) : put f k v j = f j := by simp [put, h]

theorem setByte_own {o new : List α} {n : Nat} {b : α} (h : new[n]? = some b) :
    setByte zero (new.take n ++ o.drop n) n b = new.take (n + 1) ++ o.drop (n + 1) := by
  obtain ⟨hn, rfl⟩ := List.getElem?_eq_some_iff.1 h
  have e1 : (new.take n).length = n := by rw [List.length_take]; omega
  unfold setByte
  have e2 : n - (new.take n ++ o.drop n).length = 0 := by rw [List.length_append, e1]; omega
  rw [e2, List.take_left' e1, ← List.drop_drop, List.drop_left' e1, List.drop_drop]
  conv => rhs; rw [← List.take_append_getElem hn]
  simp only [List.replicate_zero, List.nil_append, List.append_assoc, List.singleton_append]

theorem truncate_own {o new : List α} : truncate zero (new.take new.length ++ o.drop new.length) new.length = new := by
  unfold truncate
  rw [List.take_length, List.take_left' rfl]
  simp

/-- What a step changes. -/
theorem step_frame {k i : Nat} {s s' : St α E} (h : stepTask zero fmt k i s = some s') :
    (∀ j, j ≠ k → s'.tasks j = s.tasks j) ∧ (∀ j, j ≠ k → s'.backups j = s.backups j) ∧ (∀ j, j ≠ i → s'.files j = s.files j) ∧
      s'.stdout = s.stdout := by
  unfold stepTask at h
  cases hp : s.tasks k with
  | start =>
    simp only [hp, Option.some.injEq] at h; subst h
    cases s.files i <;> simp +contextual [finish, put]
  | stated n =>
    simp only [hp, Option.some.injEq] at h; subst h
    cases s.files i <;> simp +contextual [finish, put]
  | read n o =>
    simp only [hp, Option.some.injEq] at h; subst h
    cases fmt o <;> simp +contextual [finish, put]
  | waitBackup n o new =>
    simp only [hp, acquire] at h
    split at h
    · cases h; simp +contextual [put]
    · cases h
  | backup n o new =>
    simp only [hp, Option.some.injEq] at h; subst h
    simp +contextual [release, put]
  | waitWrite n o new =>
    simp only [hp, acquire] at h
    split at h
    · cases h; simp +contextual [put]
    · cases h
  | opening n o new =>
    simp only [hp, Option.some.injEq] at h; subst h
    cases s.files i <;> simp +contextual [release, finish, put]
  | writing n o new m =>
    simp only [hp, Option.some.injEq] at h; subst h
    cases new[m]? with
    | some b => simp +contextual [put]
    | none =>
      simp only
      split <;> simp +contextual [put]
  | removing o new =>
    simp only [hp, Option.some.injEq] at h; subst h
    simp +contextual [release, finish, put]
  | done r => simp [hp] at h

/-- A step keeps the invariant of the goroutine. -/
theorem step_ok {k i : Nat} {s s' : St α E} {f0 : Option (List α)} (h : stepTask zero fmt k i s = some s')
    (hi : Ok fmt f0 (s.tasks k) (s.files i) (s.backups k)) : Ok fmt f0 (s'.tasks k) (s'.files i) (s'.backups k) := by
  unfold stepTask at h
  cases hp : s.tasks k with
  | start =>
    simp only [hp, Option.some.injEq] at h; subst h
    rw [hp] at hi
    obtain ⟨h1, h2⟩ := hi
    cases hf : s.files i with
    | none => simp only [finish, put_same]; rw [hf] at h1; subst h1; exact ⟨hf, h2, rfl⟩
    | some c => simp only [put_same]; rw [hf] at h1; subst h1; exact ⟨c, rfl, rfl, hf, h2⟩
  | stated n =>
    simp only [hp, Option.some.injEq] at h; subst h
    rw [hp] at hi
    obtain ⟨c, rfl, rfl, h3, h4⟩ := hi
    simp only [h3, put_same]
    exact ⟨rfl, rfl, rfl, h4⟩
  | read n o =>
    simp only [hp, Option.some.injEq] at h; subst h
    rw [hp] at hi
    obtain ⟨rfl, rfl, h3, h4⟩ := hi
    cases hf : fmt o with
    | ok new => simp only [put_same]; exact ⟨rfl, rfl, hf, h3, h4⟩
    | error e =>
      simp only [finish, put_same]
      refine ⟨?_, h4, ?_⟩
      · rw [h3, Option.map_some, formatted, hf]
      · simp only [hf]
    | panic => simp only [hp]; exact ⟨rfl, rfl, h3, h4⟩
  | waitBackup n o new =>
    simp only [hp, acquire] at h
    split at h
    · cases h
      rw [hp] at hi
      simp only [put_same]; exact hi
    · cases h
  | backup n o new =>
    simp only [hp, Option.some.injEq] at h; subst h
    rw [hp] at hi
    obtain ⟨h1, h2, h3, h4, h5⟩ := hi
    simp only [release, put_same]; exact ⟨h1, h2, h3, h4, rfl⟩
  | waitWrite n o new =>
    simp only [hp, acquire] at h
    split at h
    · cases h
      rw [hp] at hi
      simp only [put_same]; exact hi
    · cases h
  | opening n o new =>
    simp only [hp, Option.some.injEq] at h; subst h
    rw [hp] at hi
    obtain ⟨rfl, h2, h3, h4, h5⟩ := hi
    simp only [h4, put_same]
    exact ⟨rfl, h2, h3, Nat.zero_le _, by simp, h5⟩
  | writing n o new m =>
    simp only [hp, Option.some.injEq] at h; subst h
    rw [hp] at hi
    obtain ⟨rfl, rfl, h3, h4, h5, h6⟩ := hi
    cases hb : new[m]? with
    | some b =>
      simp only [put_same]
      obtain ⟨hm, _⟩ := List.getElem?_eq_some_iff.1 hb
      exact ⟨rfl, rfl, h3, hm, by rw [h5, Option.map_some, setByte_own hb], h6⟩
    | none =>
      have hm : m = new.length := by have := List.getElem?_eq_none_iff.1 hb; omega
      subst hm
      simp only [put_same]
      refine ⟨rfl, h3, ?_, h6⟩
      split
      · rw [put_same, h5, Option.map_some, truncate_own]
      · rename_i hs
        rw [h5, List.drop_eq_nil_of_le (by omega)]; simp
  | removing o new =>
    simp only [hp, Option.some.injEq] at h; subst h
    rw [hp] at hi
    obtain ⟨rfl, h2, h3, h4⟩ := hi
    simp only [release, finish, put_same]
    refine ⟨?_, rfl, ?_⟩
    · rw [h3, Option.map_some, formatted, h2]
    · simp only [h2]
  | done r => simp [hp] at h

/-- The goroutine holds `fdSem`. -/
def Holds : Phase α E → Prop
  | .backup .. => True
  | .opening .. => True
  | .writing .. => True
  | .removing .. => True
  | _ => False

/-- What is in `fdSem`, and the error of the group. -/
structure Group (args : List Nat) (s : St α E) : Prop where
  nodup : s.sem.Nodup
  holds : ∀ k ∈ s.sem, Holds (s.tasks k)
  none : s.err = none → ∀ k r, s.tasks k = .done r → r = none
  some : ∀ e, s.err = some e → ∃ k, k < args.length ∧ s.tasks k = .done (some e)

theorem group_finish {k : Nat} {r : Option (Err E)} {s : St α E} (hk : k < args.length) (hd : ∀ r, s.tasks k ≠ .done r) (h : Group args s)
    (hn : k ∉ s.sem) : Group args (finish k r s) := by
  refine ⟨h.nodup, ?_, ?_, ?_⟩
  · intro j hj
    have : j ≠ k := fun e => hn (e ▸ hj)
    simp only [finish, put_ne _ _ this]; exact h.holds j hj
  · intro he j r' hj
    simp only [finish, Option.or_eq_none_iff] at he hj
    by_cases e : j = k
    · subst e; rw [put_same] at hj; cases hj; exact he.2
    · rw [put_ne _ _ e] at hj; exact h.none he.1 j r' hj
  · intro e he
    simp only [finish] at he ⊢
    cases hs : s.err with
    | some e' =>
      rw [hs] at he
      obtain rfl : e' = e := by simpa using he
      obtain ⟨j, h1, h2⟩ := h.some _ hs
      have : j ≠ k := by rintro rfl; exact hd _ h2
      exact ⟨j, h1, by rw [put_ne _ _ this]; exact h2⟩
    | none =>
      rw [hs] at he
      obtain rfl : r = some e := by simpa using he
      exact ⟨k, hk, put_same _ _ _⟩

theorem group_goto {k : Nat} {p : Phase α E} {s s' : St α E} (hd : ∀ r, s.tasks k ≠ .done r) (hp : ∀ r, p ≠ .done r) (h : Group args s)
    (ht : s'.tasks = put s.tasks k p) (he : s'.err = s.err) (hn : s'.sem.Nodup) (hs : ∀ j ∈ s'.sem, j ≠ k → j ∈ s.sem)
    (hk : k ∈ s'.sem → Holds p) : Group args s' := by
  refine ⟨hn, ?_, ?_, ?_⟩
  · intro j hj
    rw [ht]
    by_cases e : j = k
    · subst e; rw [put_same]; exact hk hj
    · rw [put_ne _ _ e]; exact h.holds j (hs j hj e)
  · intro h0 j r hj
    rw [ht] at hj
    by_cases e : j = k
    · subst e; rw [put_same] at hj; exact absurd hj (hp r)
    · rw [put_ne _ _ e] at hj; exact h.none (he ▸ h0) j r hj
  · intro e h0
    obtain ⟨j, h1, h2⟩ := h.some e (he ▸ h0)
    have : j ≠ k := by rintro rfl; exact hd _ h2
    exact ⟨j, h1, by rw [ht, put_ne _ _ this]; exact h2⟩

theorem step_group {k i : Nat} {s s' : St α E} (hk : k < args.length) (h : stepTask zero fmt k i s = some s') (hg : Group args s) :
    Group args s' := by
  have free : ¬ Holds (s.tasks k) → k ∉ s.sem := fun h1 h2 => h1 (hg.holds k h2)
  unfold stepTask at h
  cases hp : s.tasks k with
  | start =>
    have hf := free (by rw [hp]; exact id)
    simp only [hp, Option.some.injEq] at h; subst h
    cases s.files i with
    | none => exact group_finish hk (by rw [hp]; simp) hg hf
    | some c => exact group_goto (by rw [hp]; simp) (by simp) hg rfl rfl hg.nodup (fun j hj _ => hj) (fun hj => absurd hj hf)
  | stated n =>
    have hf := free (by rw [hp]; exact id)
    simp only [hp, Option.some.injEq] at h; subst h
    cases s.files i with
    | none => exact group_finish hk (by rw [hp]; simp) hg hf
    | some c => exact group_goto (by rw [hp]; simp) (by simp) hg rfl rfl hg.nodup (fun j hj _ => hj) (fun hj => absurd hj hf)
  | read n o =>
    have hf := free (by rw [hp]; exact id)
    simp only [hp, Option.some.injEq] at h; subst h
    cases fmt o with
    | ok new => exact group_goto (by rw [hp]; simp) (by simp) hg rfl rfl hg.nodup (fun j hj _ => hj) (fun hj => absurd hj hf)
    | error e => exact group_finish hk (by rw [hp]; simp) hg hf
    | panic => exact ⟨hg.nodup, hg.holds, hg.none, hg.some⟩
  | waitBackup n o new =>
    have hf := free (by rw [hp]; exact id)
    simp only [hp, acquire] at h
    split at h
    · cases h
      exact group_goto (by rw [hp]; simp) (p := .backup n o new) (by simp) hg rfl rfl (List.nodup_cons.2 ⟨hf, hg.nodup⟩)
        (fun j hj e => (List.mem_cons.1 hj).resolve_left e) (fun _ => trivial)
    · cases h
  | backup n o new =>
    simp only [hp, Option.some.injEq] at h; subst h
    exact group_goto (by rw [hp]; simp) (p := .waitWrite n o new) (by simp) hg rfl rfl (hg.nodup.erase k) (fun j hj _ => List.mem_of_mem_erase hj)
      (fun hj => absurd hj hg.nodup.not_mem_erase)
  | waitWrite n o new =>
    have hf := free (by rw [hp]; exact id)
    simp only [hp, acquire] at h
    split at h
    · cases h
      exact group_goto (by rw [hp]; simp) (p := .opening n o new) (by simp) hg rfl rfl (List.nodup_cons.2 ⟨hf, hg.nodup⟩)
        (fun j hj e => (List.mem_cons.1 hj).resolve_left e) (fun _ => trivial)
    · cases h
  | opening n o new =>
    simp only [hp, Option.some.injEq] at h; subst h
    cases s.files i with
    | none =>
      have h1 : Group args { s with sem := s.sem.erase k, backups := put s.backups k none } :=
        ⟨hg.nodup.erase k, fun j hj => hg.holds j (List.mem_of_mem_erase hj), hg.none, hg.some⟩
      exact group_finish (r := some .missing) hk (by rw [show _ = s.tasks from rfl, hp]; simp) h1 hg.nodup.not_mem_erase
    | some c => exact group_goto (by rw [hp]; simp) (p := .writing n o new 0) (by simp) hg rfl rfl hg.nodup (fun j hj _ => hj) (fun _ => trivial)
  | writing n o new m =>
    simp only [hp, Option.some.injEq] at h; subst h
    cases new[m]? with
    | some b => exact group_goto (by rw [hp]; simp) (p := .writing n o new (m + 1)) (by simp) hg rfl rfl hg.nodup (fun j hj _ => hj) (fun _ => trivial)
    | none => exact group_goto (by rw [hp]; simp) (p := .removing o new) (by simp) hg rfl rfl hg.nodup (fun j hj _ => hj) (fun _ => trivial)
  | removing o new =>
    simp only [hp, Option.some.injEq] at h; subst h
    have h1 : Group args { s with sem := s.sem.erase k, backups := put s.backups k none } :=
      ⟨hg.nodup.erase k, fun j hj => hg.holds j (List.mem_of_mem_erase hj), hg.none, hg.some⟩
    exact group_finish (r := none) hk (by rw [show _ = s.tasks from rfl, hp]; simp) h1 hg.nodup.not_mem_erase
  | done r => simp [hp] at h

theorem step_cases {k : Nat} {s s' : St α E} (h : step zero fmt args k s = some s') :
    s.dead = false ∧ ∃ i, args[k]? = some i ∧ k < args.length ∧ stepTask zero fmt k i s = some s' := by
  unfold step at h
  split at h
  · cases h
  · rename_i hd
    cases ha : args[k]? with
    | none => rw [ha] at h; cases h
    | some i => rw [ha] at h; exact ⟨Bool.eq_false_iff.2 hd, i, rfl, (List.getElem?_eq_some_iff.1 ha).1, h⟩

theorem group_reach {s : St α E} (h : Reach zero fmt args (init write fs) s) : Group args s := by
  induction h with
  | refl => exact ⟨List.nodup_nil, (by intro k hk; cases hk), (by intro _ k r hr; cases hr), (by intro e he; cases he)⟩
  | step k _ hs ih => obtain ⟨_, i, _, hk, h⟩ := step_cases hs; exact step_group hk h ih

/-- The invariant of all goroutines, if no two arguments denote the same file. -/
structure Inv (fmt : List α → Result α E) (args : List Nat) (fs : Nat → Option (List α)) (s : St α E) : Prop where
  each : ∀ k i, args[k]? = some i → Ok fmt (fs i) (s.tasks k) (s.files i) (s.backups k)
  other : ∀ i, i ∉ args → s.files i = fs i
  stdout : s.stdout = []

theorem inv_reach (hn : args.Nodup) {s : St α E} (h : Reach zero fmt args (init write fs) s) : Inv fmt args fs s := by
  induction h with
  | refl => exact ⟨fun k i _ => ⟨rfl, rfl⟩, fun i _ => rfl, rfl⟩
  | @step s s' k _ hs ih =>
    obtain ⟨_, i, ha, hk, h⟩ := step_cases hs
    obtain ⟨h1, h2, h3, h4⟩ := step_frame h
    refine ⟨?_, ?_, h4.trans ih.stdout⟩
    · intro j x hj
      by_cases e : j = k
      · subst e
        obtain rfl := Option.some.inj (ha.symm.trans hj)
        exact step_ok h (ih.each j i hj)
      · have hx : x ≠ i := by
          rintro rfl
          obtain ⟨hj1, hj2⟩ := List.getElem?_eq_some_iff.1 hj
          obtain ⟨hk1, hk2⟩ := List.getElem?_eq_some_iff.1 ha
          exact e ((List.nodup_iff_injective_get.1 hn (a₁ := ⟨j, hj1⟩) (a₂ := ⟨k, hk1⟩) (by simpa using hj2.trans hk2.symm)) |> congrArg Fin.val)
        rw [h1 j e, h2 j e, h3 x hx]
        exact ih.each j x hj
    · intro x hx
      have : x ≠ i := by rintro rfl; exact hx (List.mem_of_getElem? ha)
      rw [h3 x this]; exact ih.other x hx

end Verif.FmtCmd
