import Verif.Model.SourceInfo
/-!
# Properties of the source info map: C36
-/
namespace Verif.SourceInfo

/-- A path of int32 numbers. -/
def Valid (path : List Int) : Prop := ∀ s ∈ path, -2147483648 ≤ s ∧ s < 2147483648

theorem bytes_inj {s t : Int} (hs : -2147483648 ≤ s ∧ s < 2147483648) (ht : -2147483648 ≤ t ∧ t < 2147483648)
    (h0 : byteAt s 0 = byteAt t 0) (h1 : byteAt s 1 = byteAt t 1) (h2 : byteAt s 2 = byteAt t 2)
    (h3 : byteAt s 3 = byteAt t 3) : s = t := by
  unfold byteAt at h0 h1 h2 h3
  simp only [Int.reducePow] at h0 h1 h2 h3
  omega

/-- **C36** (part): different paths have different keys. -/
theorem C36_key_inj (p q : List Int) (hp : Valid p) (hq : Valid q) (h : asMapKey p = asMapKey q) : p = q := by
  induction p generalizing q with
  | nil =>
    match q with
    | [] => rfl
    | t :: q => simp [asMapKey] at h
  | cons s p ih =>
    match q with
    | [] => simp [asMapKey] at h
    | t :: q =>
      simp only [asMapKey, List.flatMap_cons, List.cons_append, List.nil_append, List.cons.injEq] at h
      obtain ⟨h0, h1, h2, h3, h⟩ := h
      rw [bytes_inj (hp s List.mem_cons_self) (hq t List.mem_cons_self) h0 h1 h2 h3,
        ih q (fun x hx => hp x (List.mem_cons_of_mem _ hx)) (fun x hx => hq x (List.mem_cons_of_mem _ hx)) h]

variable {Loc : Type}

/-- Specification: the locations of a path after some calls, depending on the calls for that path only. -/
def expected (path : List Int) : List (Op Loc) → List Loc → List Loc
  | [], locs => locs
  | .add p l :: ops, locs => expected path ops (if p = path then locs ++ [l] else locs)
  | .put p l :: ops, locs => expected path ops (if p = path ∧ locs = [] then [l] else locs)

/-- The path of a call. -/
def Op.path : Op Loc → List Int
  | .add p _ => p
  | .put p _ => p

/-- Entries of the map are never empty. -/
def Filled (m : InfoMap Loc) : Prop := ∀ k, Assoc.get m k ≠ some []

theorem getAll_add (m : InfoMap Loc) (p q : List Int) (l : Loc) (hp : Valid p) (hq : Valid q) :
    getAll (add m p l) q = if p = q then getAll m q ++ [l] else getAll m q := by
  unfold getAll add
  split
  · rename_i h; subst h; rw [Assoc.get_set_self]; rfl
  · rename_i h
    rw [Assoc.get_set_ne]
    exact fun hk => h (C36_key_inj p q hp hq hk.symm)

theorem getAll_put (m : InfoMap Loc) (hm : Filled m) (p q : List Int) (l : Loc) (hp : Valid p) (hq : Valid q) :
    getAll (putIfAbsent m p l).1 q = if p = q ∧ getAll m q = [] then [l] else getAll m q := by
  unfold putIfAbsent
  cases hg : Assoc.get m (asMapKey p) with
  | some v =>
    simp only
    rw [if_neg]
    rintro ⟨rfl, he⟩
    unfold getAll at he
    rw [hg] at he
    exact hm _ (hg.trans (by rw [show v = [] from he]))
  | none =>
    simp only
    by_cases h : p = q
    · subst h
      have : getAll m p = [] := by unfold getAll; rw [hg]; rfl
      rw [if_pos ⟨rfl, this⟩]
      unfold getAll
      rw [Assoc.get_set_self]
      rfl
    · rw [if_neg (fun hh => h hh.1)]
      unfold getAll
      rw [Assoc.get_set_ne]
      exact fun hk => h (C36_key_inj p q hp hq hk.symm)

theorem filled_apply (m : InfoMap Loc) (hm : Filled m) (op : Op Loc) : Filled (apply m op) := by
  intro k
  cases op with
  | add p l =>
    simp only [apply, add]
    by_cases h : k = asMapKey p
    · subst h; rw [Assoc.get_set_self]; simp
    · rw [Assoc.get_set_ne _ _ h]; exact hm k
  | put p l =>
    simp only [apply, putIfAbsent]
    cases hg : Assoc.get m (asMapKey p) with
    | some v => exact hm k
    | none =>
      simp only
      by_cases h : k = asMapKey p
      · subst h; rw [Assoc.get_set_self]; simp
      · rw [Assoc.get_set_ne _ _ h]; exact hm k

theorem getAll_foldl (ops : List (Op Loc)) (hv : ∀ op ∈ ops, Valid op.path) (path : List Int) (hp : Valid path)
    (m : InfoMap Loc) (hm : Filled m) :
    getAll (ops.foldl apply m) path = expected path ops (getAll m path) := by
  induction ops generalizing m with
  | nil => rfl
  | cons op ops ih =>
    rw [List.foldl_cons, ih (fun o ho => hv o (List.mem_cons_of_mem _ ho)) _ (filled_apply m hm op)]
    have hop := hv op List.mem_cons_self
    cases op with
    | add p l => simp only [apply, expected]; rw [getAll_add m p path l hop hp]
    | put p l => simp only [apply, expected]; rw [getAll_put m hm p path l hop hp]

/-- **C36**: after any sequence of `Add` and `PutIfAbsent` calls, the locations of a path are those
of the calls for exactly that path, in order, where `PutIfAbsent` has an effect only for a path
without a location. -/
theorem C36_getAll (ops : List (Op Loc)) (hv : ∀ op ∈ ops, Valid op.path) (path : List Int) (hp : Valid path) :
    getAll (ops.foldl apply []) path = expected path ops [] :=
  getAll_foldl ops hv path hp [] (by intro k; simp [Assoc.get])

/-- **C36** (part): the first location added for a path wins: once there is one, `Get` always
returns it. -/
theorem C36_first_wins (ops more : List (Op Loc)) (hv : ∀ op ∈ ops ++ more, Valid op.path) (path : List Int)
    (hp : Valid path) (l : Loc) (h : get (ops.foldl apply []) path = some l) :
    get ((ops ++ more).foldl apply []) path = some l := by
  unfold get at h ⊢
  rw [List.foldl_append, getAll_foldl more (fun o ho => hv o (List.mem_append_right _ ho)) path hp]
  · generalize getAll (ops.foldl apply []) path = locs at h
    have : ∀ (ops : List (Op Loc)) (locs : List Loc), locs.head? = some l →
        (expected path ops locs).head? = some l := by
      intro ops
      induction ops with
      | nil => exact fun _ h => h
      | cons op ops ih =>
        intro locs h
        match locs, h with
        | x :: xs, h =>
          cases op with
          | add p y =>
            refine ih _ ?_
            split
            · exact h
            · exact h
          | put p y =>
            refine ih _ ?_
            rw [if_neg (by simp)]
            exact h
    exact this more locs h
  · have : ∀ (ops : List (Op Loc)) (m : InfoMap Loc), Filled m → Filled (ops.foldl apply m) := by
      intro ops
      induction ops with
      | nil => exact fun _ h => h
      | cons op ops ih => exact fun m h => ih _ (filled_apply m h op)
    exact this ops [] (by intro k; simp [Assoc.get])

/-- **C36** (part): `PutIfAbsent` reports whether it stored the location. -/
theorem C36_put_result (m : InfoMap Loc) (path : List Int) (l : Loc) :
    ((putIfAbsent m path l).2 = true ↔ Assoc.get m (asMapKey path) = none) ∧
    ((putIfAbsent m path l).2 = true → get (putIfAbsent m path l).1 path = some l) ∧
    ((putIfAbsent m path l).2 = false → (putIfAbsent m path l).1 = m) := by
  unfold putIfAbsent
  cases hg : Assoc.get m (asMapKey path) with
  | some v => simp
  | none => simp [get, getAll, Assoc.get_set_self]

example : Valid [4, -1, 2147483647] ∧ asMapKey [4, -1] = [4, 0, 0, 0, 255, 255, 255, 255] := by
  unfold Valid; decide

example : getAll ([Op.add [4, 0] 1, .add [4, 1] 2, .put [4, 0] 3, .put [5] 4, .add [4, 0] 5].foldl apply []) [4, 0]
    = [1, 5] := by decide

end Verif.SourceInfo
