import Verif.Model.Overwrite
/-!
# C31: in-place overwriting
-/
namespace Verif.Overwrite

variable {α : Type}

/-- Specification: the original is in the file or in the backup, or the file has the new content. -/
def Safe (orig new : List α) (s : FS α) : Prop :=
  s.file = orig ∨ s.backup = some orig ∨ s.file = new

theorem count_le (data : List α) (f : Bool) (n : Nat) : count data f n ≤ data.length := by
  unfold count
  split
  · exact Nat.min_le_right _ _
  · exact Nat.le_refl _

theorem writeOver_full (c data : List α) : writeOver c data data.length = data ++ c.drop data.length := by
  unfold writeOver
  rw [Nat.min_self, List.take_length]

theorem writeOver_zero (c data : List α) : writeOver c data 0 = c := by
  simp [writeOver]

theorem remove_file (os : Os) (s : FS α) : (remove os s).file = s.file := by
  unfold remove
  split <;> rfl

/-- What holds for the restore part. -/
theorem restore_spec (os : Os) (orig new : List α) (n : Nat) (hn : n ≤ new.length) :
    (∀ s ∈ (restore os orig n (writeOver orig new n)).1, Safe orig new s) ∧
    (restore os orig n (writeOver orig new n)).2 = false ∧
    ∃ l s, (restore os orig n (writeOver orig new n)).1 = l ++ [s] ∧ (s.backup = none → s.file = orig) := by
  have hws : ∀ (c : List α) (k : Nat), ∀ s ∈ (writing c orig k).map (fun x => (⟨x, some orig⟩ : FS α)),
      Safe orig new s := by
    intro c k s hs
    obtain ⟨x, _, rfl⟩ := List.mem_map.1 hs
    exact .inr (.inl rfl)
  have hlast : ∀ (c : List α) (k : Nat), ∃ l s,
      (writing c orig k).map (fun x => (⟨x, some orig⟩ : FS α)) = l ++ [s] ∧ (s.backup = none → s.file = orig) := by
    intro c k
    unfold writing
    rw [List.range_succ, List.map_append, List.map_append]
    exact ⟨_, _, rfl, (by intro h; cases h)⟩
  unfold restore
  simp only
  split
  · exact ⟨hws _ _, rfl, hlast _ _⟩
  · rename_i hrf
    have hcount : count orig os.restoreFails os.restored = orig.length := by
      unfold count
      rw [if_neg hrf]
    rw [hcount]
    split
    · rename_i hlt
      have hc : (writeOver (writeOver orig new n) orig orig.length).take orig.length = orig := by
        rw [writeOver_full, List.take_left']
        rfl
      rw [hc]
      split
      · exact ⟨hws _ _, rfl, hlast _ _⟩
      · split
        · refine ⟨?_, rfl, _, _, rfl, (by intro h; cases h)⟩
          intro s hs
          rcases List.mem_append.1 hs with hs | hs
          · exact hws _ _ s hs
          · rw [List.mem_singleton] at hs
            subst hs
            exact .inl rfl
        · refine ⟨?_, rfl, (writing (writeOver orig new n) orig orig.length).map (fun x => (⟨x, some orig⟩ : FS α)) ++
              [⟨orig, some orig⟩], remove os ⟨orig, some orig⟩, ?_, fun _ => remove_file os _⟩
          · intro s hs
            rcases List.mem_append.1 hs with hs | hs
            · exact hws _ _ s hs
            · simp only [List.mem_cons, List.not_mem_nil, or_false] at hs
              rcases hs with rfl | rfl
              · exact .inl rfl
              · exact .inl (remove_file os _)
          · rw [List.append_assoc]; rfl
    · rename_i hge
      have hc : writeOver (writeOver orig new n) orig orig.length = orig := by
        rw [writeOver_full]
        have : (writeOver orig new n).drop orig.length = [] := by
          apply List.drop_eq_nil_of_le
          unfold writeOver
          rw [List.length_append, List.length_take, List.length_drop]
          omega
        rw [this, List.append_nil]
      rw [hc]
      split
      · exact ⟨hws _ _, rfl, hlast _ _⟩
      · refine ⟨?_, rfl, _, _, rfl, fun _ => remove_file os _⟩
        intro s hs
        rcases List.mem_append.1 hs with hs | hs
        · exact hws _ _ s hs
        · rw [List.mem_singleton] at hs
          subst hs
          exact .inl (remove_file os _)

/-- What holds for the last state: if success is reported, the file has the new content, and the
backup is gone unless removing it failed; if failure is reported without a backup left, the file has
its original content. -/
def Final (os : Os) (orig new : List α) (t : Trace α) : Prop :=
  ∃ l s, t.1 = l ++ [s] ∧
    (t.2 = true → s.file = new ∧ (os.removeFails = false → s.backup = none)) ∧
    (t.2 = false → s.backup = none → s.file = orig)

theorem Final.after {os : Os} {orig new : List α} {t : Trace α} (h : Final os orig new t)
    (pre : List (FS α)) : Final os orig new (t.after pre) := by
  obtain ⟨l, s, h1, h2, h3⟩ := h
  refine ⟨pre ++ l, s, ?_, h2, h3⟩
  unfold Trace.after
  rw [h1, List.append_assoc]

theorem rewrite_spec (os : Os) (orig new : List α) :
    (∀ s ∈ (rewrite os orig new orig.length ⟨orig, some orig⟩).1, Safe orig new s) ∧
    Final os orig new (rewrite os orig new orig.length ⟨orig, some orig⟩) := by
  have hbase : Safe orig new (remove os ⟨orig, some orig⟩) := .inl (remove_file os _)
  have hfin : ∀ l : List (FS α), Final os orig new (l ++ [remove os ⟨orig, some orig⟩], false) :=
    fun l => ⟨l, _, rfl, (by intro h; cases h), fun _ _ => remove_file os _⟩
  have hws : ∀ k : Nat, ∀ s ∈ (writing orig new k).map (fun x => (⟨x, some orig⟩ : FS α)),
      Safe orig new s := by
    intro k s hs
    obtain ⟨x, _, rfl⟩ := List.mem_map.1 hs
    exact .inr (.inl rfl)
  unfold rewrite
  simp only
  split
  · refine ⟨?_, hfin []⟩
    intro s hs
    rw [List.mem_singleton] at hs
    exact hs ▸ hbase
  · -- a failure after `n` bytes
    have hfail : ∀ n, n ≤ new.length → ∀ t : Trace α,
        t = (if n = 0 then ((writing orig new n).map (fun x => (⟨x, some orig⟩ : FS α)) ++
              [remove os ⟨orig, some orig⟩], false)
             else (restore os orig n (writeOver orig new n)).after
              ((writing orig new n).map (fun x => (⟨x, some orig⟩ : FS α)))) →
        (∀ s ∈ t.1, Safe orig new s) ∧ Final os orig new t := by
      intro n hn t ht
      split at ht
      · subst ht
        refine ⟨?_, hfin _⟩
        intro s hs
        rcases List.mem_append.1 hs with hs | hs
        · exact hws _ s hs
        · rw [List.mem_singleton] at hs
          exact hs ▸ hbase
      · subst ht
        obtain ⟨h1, h2, l, s, h3, h4⟩ := restore_spec os orig new n hn
        refine ⟨?_, Final.after ⟨l, s, h3, ?_, ?_⟩ _⟩
        · intro s hs
          rcases List.mem_append.1 hs with hs | hs
          · exact hws _ s hs
          · exact h1 s hs
        · intro h; rw [h2] at h; cases h
        · intro _; exact h4
    split
    · exact hfail _ (count_le _ _ _) _ rfl
    · rename_i hwf
      have hcount : count new os.writeFails os.written = new.length := by
        unfold count
        rw [if_neg hwf]
      rw [hcount]
      split
      · rename_i hlt
        split
        · exact hfail _ (Nat.le_refl _) _ rfl
        · have hc : (writeOver orig new new.length).take new.length = new := by
            rw [writeOver_full, List.take_left']
            rfl
          rw [hc]
          split
          · refine ⟨?_, _, _, rfl, (by intro h; cases h), (by intro _ h; cases h)⟩
            intro s hs
            rcases List.mem_append.1 hs with hs | hs
            · exact hws _ s hs
            · rw [List.mem_singleton] at hs
              subst hs
              exact .inr (.inr rfl)
          · refine ⟨?_, (writing orig new new.length).map (fun x => (⟨x, some orig⟩ : FS α)) ++
                [⟨new, some orig⟩], remove os ⟨new, some orig⟩, ?_, fun _ => ⟨remove_file os _, ?_⟩,
                (by intro h; cases h)⟩
            · intro s hs
              rcases List.mem_append.1 hs with hs | hs
              · exact hws _ s hs
              · simp only [List.mem_cons, List.not_mem_nil, or_false] at hs
                rcases hs with rfl | rfl
                · exact .inr (.inr rfl)
                · exact .inr (.inr (remove_file os _))
            · simp
            · intro h
              simp [remove, h]
      · rename_i hge
        have hc : writeOver orig new new.length = new := by
          rw [writeOver_full, List.drop_eq_nil_of_le (by omega), List.append_nil]
        split
        · refine ⟨hws _, ?_⟩
          unfold writing
          rw [List.range_succ, List.map_append, List.map_append]
          exact ⟨_, _, rfl, (by intro h; cases h), (by intro _ h; cases h)⟩
        · rw [hc]
          refine ⟨?_, _, _, rfl, fun _ => ⟨remove_file os _, fun h => by simp [remove, h]⟩, (by intro h; cases h)⟩
          intro s hs
          rcases List.mem_append.1 hs with hs | hs
          · exact hws _ s hs
          · rw [List.mem_singleton] at hs
            subst hs
            exact .inr (.inr (remove_file os _))

/-- **C31** (crash safety): whatever fails and whenever the process dies, the original is still in
the file or in the backup, or the file has the complete new content. -/
theorem C31_crash_safe (os : Os) (orig new : List α) :
    ∀ s ∈ (overwrite os orig new orig.length orig).1, Safe orig new s := by
  have hpre : ∀ k : Nat, ∀ s ∈ (⟨orig, none⟩ : FS α) ::
      (List.range (k + 1)).map (fun j => (⟨orig, some (orig.take j)⟩ : FS α)), Safe orig new s := by
    intro k s hs
    rcases List.mem_cons.1 hs with rfl | hs
    · exact .inl rfl
    · obtain ⟨j, _, rfl⟩ := List.mem_map.1 hs
      exact .inl rfl
  unfold overwrite
  simp only
  split
  · intro s hs
    rw [List.mem_singleton] at hs
    subst hs
    exact .inl rfl
  · split
    · exact hpre _
    · intro s hs
      rcases List.mem_append.1 hs with hs | hs
      · exact hpre _ s hs
      · exact (rewrite_spec os orig new).1 s hs

theorem overwrite_final (os : Os) (orig new : List α) :
    Final os orig new (overwrite os orig new orig.length orig) := by
  unfold overwrite
  simp only
  split
  · exact ⟨[], _, rfl, (by intro h; cases h), fun _ _ => rfl⟩
  · split
    · rw [List.range_succ, List.map_append]
      exact ⟨_ :: _, _, rfl, (by intro h; cases h), fun _ _ => rfl⟩
    · exact (rewrite_spec os orig new).2.after _

/-- **C31** (success): when success is reported the file has exactly the new content, and no backup
is left provided that removing it did not fail. (Partial: the code ignores a failure to remove the
backup, see `C31_leftover_violated`.) -/
theorem C31_success_partial (os : Os) (orig new : List α)
    (h : (overwrite os orig new orig.length orig).2 = true) :
    ∃ s, (overwrite os orig new orig.length orig).1.getLast? = some s ∧ s.file = new ∧
      (os.removeFails = false → s.backup = none) := by
  obtain ⟨l, s, h1, h2, _⟩ := overwrite_final os orig new
  exact ⟨s, by rw [h1]; simp, h2 h⟩

/-- **C31** (failure): when failure is reported and no backup is left, the file has exactly its
original content. -/
theorem C31_failure (os : Os) (orig new : List α)
    (h : (overwrite os orig new orig.length orig).2 = false) :
    ∃ s, (overwrite os orig new orig.length orig).1.getLast? = some s ∧
      (s.backup = none → s.file = orig) := by
  obtain ⟨l, s, h1, _, h3⟩ := overwrite_final os orig new
  exact ⟨s, by rw [h1]; simp, h3 h⟩

/-- **C31** (liveness of the model): if nothing fails, success is reported, so the theorems above
are not vacuous. -/
theorem C31_no_failure_succeeds (orig new : List α) :
    (overwrite {} orig new orig.length orig).2 = true := by
  unfold overwrite rewrite Trace.after
  simp only [Bool.false_eq_true, if_false, Bool.or_self]
  split <;> rfl

/-- The code violates the letter of C31: if the backup cannot be removed, success is reported
although it is left behind. -/
theorem C31_leftover_violated :
    (overwrite { removeFails := true } [1] [2, 3] 1 [1]).2 = true ∧
    (overwrite { removeFails := true } [1] [2, 3] 1 [1]).1.getLast? = some ⟨[2, 3], some [1]⟩ := by
  decide

example : (overwrite { written := 2, writeFails := true, restoreCloseFails := false } [1, 2, 3] [7, 8, 9, 10] 3 [1, 2, 3]).1.getLast?
    = some ⟨[1, 2, 3], none⟩ := by decide

example : (overwrite { truncFails := true } [1, 2, 3] [7] 3 [1, 2, 3]).2 = false := by decide

end Verif.Overwrite
