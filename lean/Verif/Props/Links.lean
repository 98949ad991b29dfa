import Verif.Model.Links
/-!
# Properties of the dependency paths: C57
-/
namespace Verif.Links

theorem findIndex_none {d : Str} {l : List Str} : findIndex d l = none ↔ d ∉ l := by
  induction l with
  | nil => simp [findIndex]
  | cons x xs ih =>
    unfold findIndex
    by_cases h : x = d
    · simp [h]
    · rw [if_neg h, Option.map_eq_none_iff, ih]
      simp [Ne.symm h]

theorem findIndex_some {d : Str} : ∀ {l : List Str} {i : Nat}, findIndex d l = some i →
    ∃ a b, l = a ++ d :: b ∧ a.length = i ∧ d ∉ a := by
  intro l
  induction l with
  | nil => intro i h; cases h
  | cons x xs ih =>
    intro i h
    unfold findIndex at h
    by_cases hx : x = d
    · rw [if_pos hx] at h
      cases h
      exact ⟨[], xs, by simp [hx], rfl, by simp⟩
    · rw [if_neg hx, Option.map_eq_some_iff] at h
      obtain ⟨j, hj, rfl⟩ := h
      obtain ⟨a, b, rfl, h2, h3⟩ := ih hj
      exact ⟨x :: a, b, rfl, by simp [h2], by simp [Ne.symm hx, h3]⟩

theorem removeAt_eq (a b : List Str) (d : Str) :
    removeAt (a ++ d :: b) a.length = (a ++ b, a ++ b ++ [(d :: b).getLast (by simp)]) := by
  unfold removeAt
  simp only
  have h1 : (a ++ d :: b).take a.length = a := List.take_left
  have h2 : (a ++ d :: b).drop (a.length + 1) = b := by
    rw [show a ++ d :: b = (a ++ [d]) ++ b by simp, show a.length + 1 = (a ++ [d]).length by simp, List.drop_left]
  have h3 : (a ++ d :: b).drop ((a ++ d :: b).length - 1) = [(d :: b).getLast (by simp)] := by
    have e : a ++ d :: b = (a ++ (d :: b).dropLast) ++ [(d :: b).getLast (by simp)] := by
      rw [List.append_assoc, List.dropLast_concat_getLast]
    have hl : (a ++ d :: b).length - 1 = (a ++ (d :: b).dropLast).length := by simp
    rw [hl]
    conv => lhs; rw [e]
    rw [List.drop_left]
  rw [h1, h2, h3]

/-- The cases of a request. -/
theorem dependencyPaths_cases (d : Str) (imports deps : List Str) :
    (dependencyPaths d imports deps = (deps, deps) ∧ (d ∈ imports ∨ d ∉ deps)) ∨
    (d ∉ imports ∧ ∃ a b, deps = a ++ d :: b ∧ d ∉ a ∧
      dependencyPaths d imports deps = (a ++ b, a ++ b ++ [(d :: b).getLast (by simp)])) := by
  unfold dependencyPaths
  by_cases h : d ∈ imports
  · rw [if_pos h]; exact .inl ⟨rfl, .inl h⟩
  · rw [if_neg h]
    cases hf : findIndex d deps with
    | none => exact .inl ⟨rfl, .inr (findIndex_none.1 hf)⟩
    | some i =>
      obtain ⟨a, b, rfl, rfl, h3⟩ := findIndex_some hf
      exact .inr ⟨h, a, b, rfl, h3, removeAt_eq a b d⟩

/-- C57 (partial): a request leaves the list of dependencies of a file unchanged exactly when the file imports
descriptor.proto itself, does not depend on it, or has it as its last dependency. Missing: a dependency on
descriptor.proto without an import at another place of the list, see `C57_violated`. -/
theorem C57_partial (d : Str) (imports deps : List Str) (hn : deps.Nodup) :
    (request d imports deps).2 = deps ↔ d ∈ imports ∨ d ∉ deps ∨ deps.getLast? = some d := by
  unfold request
  simp only
  rcases dependencyPaths_cases d imports deps with ⟨h, hc⟩ | ⟨hi, a, b, rfl, ha, h⟩
  · rw [h]
    simp only [true_iff]
    rcases hc with hc | hc
    · exact .inl hc
    · exact .inr (.inl hc)
  · rw [h]
    simp only
    constructor
    · intro he
      right; right
      rw [List.append_assoc] at he
      have he := List.append_cancel_left he
      cases b with
      | nil => simp
      | cons x xs =>
        exfalso
        have : x = d := (List.cons.inj he).1
        subst this
        rw [List.nodup_append] at hn
        simp at hn
    · rintro (hc | hc | hc)
      · exact absurd hc hi
      · simp at hc
      · cases b with
        | nil => simp
        | cons x xs =>
          exfalso
          rw [List.getLast?_append, List.getLast?_cons_cons] at hc
          have hm : d ∈ x :: xs := by
            cases hl : (x :: xs).getLast? with
            | none => simp at hl
            | some y =>
              rw [hl] at hc
              simp at hc
              subst hc
              exact List.mem_of_getLast? hl
          rw [List.nodup_append] at hn
          have := hn.2.1
          rw [List.nodup_cons] at this
          exact this.1 hm

/-- C57: as long as a request finds a path for each import, every later request gives the same answer. -/
theorem C57_answers (d : Str) (imports deps ans : List Str) (hn : deps.Nodup) (h : (request d imports deps).1 = some ans) (n : Nat) :
    (request d imports (requests d imports n deps)).1 = some ans := by
  rcases dependencyPaths_cases d imports deps with ⟨h1, hc⟩ | ⟨hi, a, b, rfl, ha, h1⟩
  · have hr : request d imports deps = (pathsFor imports.length deps, deps) := by unfold request; rw [h1]
    have : ∀ k, requests d imports k deps = deps := by
      intro k
      induction k with
      | zero => rfl
      | succ k ih => unfold requests; rw [hr]; exact ih
    rw [this]
    exact h
  · have hr : request d imports (a ++ d :: b) = (pathsFor imports.length (a ++ b), a ++ b ++ [(d :: b).getLast (by simp)]) := by
      unfold request; rw [h1]
    rw [hr] at h
    simp only at h
    -- the list after the first request, and after all later ones
    have hstep : ∀ l : List Str, l = a ++ d :: b ∨ l = a ++ b ++ [(d :: b).getLast (by simp)] →
        (request d imports l).1 = some ans ∧
          ((request d imports l).2 = a ++ d :: b ∨ (request d imports l).2 = a ++ b ++ [(d :: b).getLast (by simp)]) := by
      rintro l (rfl | rfl)
      · rw [hr]; exact ⟨h, .inr rfl⟩
      · cases b with
        | nil =>
          have e : a ++ [] ++ [[d].getLast (by simp)] = a ++ d :: [] := by simp
          rw [e, hr]
          exact ⟨h, .inl (by simp)⟩
        | cons x xs =>
          have hd : d ∉ a ++ (x :: xs) ++ [(d :: x :: xs).getLast (by simp)] := by
            rw [List.nodup_append] at hn
            have h2 := hn.2.1
            rw [List.nodup_cons] at h2
            have h3 : (d :: x :: xs).getLast (by simp) ∈ x :: xs := by
              rw [List.getLast_cons (by simp)]; exact List.getLast_mem _
            intro hm
            rcases List.mem_append.1 hm with hm | hm
            · rcases List.mem_append.1 hm with hm | hm
              · exact ha hm
              · exact h2.1 hm
            · rw [List.mem_singleton] at hm
              rw [← hm] at h3
              exact h2.1 h3
          rcases dependencyPaths_cases d imports (a ++ (x :: xs) ++ [(d :: x :: xs).getLast (by simp)]) with ⟨h5, _⟩ | ⟨_, a', b', e, _, _⟩
          · refine ⟨?_, .inr ?_⟩
            · unfold request
              rw [h5]
              simp only
              unfold pathsFor at h ⊢
              split at h
              · rename_i hle
                rw [if_pos (by rw [List.length_append]; omega), List.take_append_of_le_length hle]
                exact h
              · cases h
            · unfold request; rw [h5]
          · exact absurd (by rw [e]; simp) hd
    have : ∀ k l, (l = a ++ d :: b ∨ l = a ++ b ++ [(d :: b).getLast (by simp)]) →
        (request d imports (requests d imports k l)).1 = some ans := by
      intro k
      induction k with
      | zero => intro l hl; exact (hstep l hl).1
      | succ k ih => intro l hl; unfold requests; exact ih _ (hstep l hl).2
    exact this n _ (.inl rfl)

private def dp : Str := ['d']
/-- C57 fails: a file that depends on descriptor.proto without importing it, followed by other dependencies,
loses it from the list and has its last dependency twice. -/
theorem C57_violated : ∃ (d : Str) (imports deps : List Str), deps.Nodup ∧ (request d imports deps).2 ≠ deps ∧
    ¬ (request d imports deps).2.Nodup ∧ d ∉ (request d imports deps).2 :=
  ⟨dp, [['a'], ['b']], [dp, ['a'], ['b']], by decide, by decide, by decide, by decide⟩

example : request dp [['a'], ['b']] [dp, ['a'], ['b']] = (some [['a'], ['b']], [['a'], ['b'], ['b']]) := by decide
example : request dp [['a'], ['b']] [['a'], ['b'], dp] = (some [['a'], ['b']], [['a'], ['b'], dp]) := by decide
/-- An import without a dependency: the first request panics. -/
example : (request dp [['a'], ['b'], ['c']] [dp, ['a'], ['b']]).1 = none := by decide

end Verif.Links
