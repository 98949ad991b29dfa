/-!
# Finite maps as association lists

A Go map is a list of pairs with distinct keys; the order of the list stands for the (arbitrary)
iteration order.
-/
namespace Verif.Assoc

variable {κ α : Type} [DecidableEq κ]

/-- `m[k]` with the comma-ok form. -/
def get (m : List (κ × α)) (k : κ) : Option α := (m.find? (fun e => decide (e.1 = k))).map (·.2)

/-- `delete(m, k)` -/
def del (m : List (κ × α)) (k : κ) : List (κ × α) := m.filter (fun e => decide (e.1 ≠ k))

/-- `m[k] = v` -/
def set (m : List (κ × α)) (k : κ) (v : α) : List (κ × α) := (k, v) :: del m k

/-- The keys. -/
def keys (m : List (κ × α)) : List κ := m.map (·.1)

omit [DecidableEq κ] in
theorem mem_keys_of_mem {m : List (κ × α)} {k : κ} {v : α} (h : (k, v) ∈ m) : k ∈ keys m :=
  List.mem_map.2 ⟨_, h, rfl⟩

theorem mem_del {m : List (κ × α)} {k : κ} {e : κ × α} : e ∈ del m k ↔ e ∈ m ∧ e.1 ≠ k := by
  simp [del]

theorem mem_set {m : List (κ × α)} {k : κ} {v : α} {e : κ × α} :
    e ∈ set m k v ↔ e = (k, v) ∨ (e ∈ m ∧ e.1 ≠ k) := by
  simp [set, mem_del]

theorem mem_keys_del {m : List (κ × α)} {k j : κ} : j ∈ keys (del m k) ↔ j ∈ keys m ∧ j ≠ k := by
  unfold keys
  simp only [List.mem_map, mem_del]
  constructor
  · rintro ⟨e, ⟨h1, h2⟩, rfl⟩
    exact ⟨⟨e, h1, rfl⟩, h2⟩
  · rintro ⟨⟨e, h1, rfl⟩, h2⟩
    exact ⟨e, ⟨h1, h2⟩, rfl⟩

theorem mem_keys_set {m : List (κ × α)} {k j : κ} {v : α} :
    j ∈ keys (set m k v) ↔ j = k ∨ j ∈ keys m := by
  have : keys (set m k v) = k :: keys (del m k) := rfl
  rw [this, List.mem_cons, mem_keys_del]
  by_cases h : j = k <;> simp [h]

theorem keys_del_sublist (m : List (κ × α)) (k : κ) : (keys (del m k)).Sublist (keys m) :=
  List.Sublist.map _ List.filter_sublist

theorem nodup_del {m : List (κ × α)} (h : (keys m).Nodup) (k : κ) : (keys (del m k)).Nodup :=
  h.sublist (keys_del_sublist m k)

theorem nodup_set {m : List (κ × α)} (h : (keys m).Nodup) (k : κ) (v : α) :
    (keys (set m k v)).Nodup := by
  have : keys (set m k v) = k :: keys (del m k) := rfl
  rw [this, List.nodup_cons]
  refine ⟨?_, nodup_del h k⟩
  rw [mem_keys_del]
  exact fun h => h.2 rfl

omit [DecidableEq κ] in
theorem unique {m : List (κ × α)} (h : (keys m).Nodup) {k : κ} {v w : α} (hv : (k, v) ∈ m)
    (hw : (k, w) ∈ m) : v = w := by
  induction m with
  | nil => cases hv
  | cons e m ih =>
    have he : keys (e :: m) = e.1 :: keys m := rfl
    rw [he, List.nodup_cons] at h
    rcases List.mem_cons.1 hv with h1 | h1
    · rcases List.mem_cons.1 hw with h2 | h2
      · exact (Prod.ext_iff.1 (h1.trans h2.symm)).2
      · rw [← h1] at h
        exact absurd (mem_keys_of_mem h2) h.1
    · rcases List.mem_cons.1 hw with h2 | h2
      · rw [← h2] at h
        exact absurd (mem_keys_of_mem h1) h.1
      · exact ih h.2 h1 h2

theorem get_mem {m : List (κ × α)} {k : κ} {v : α} (h : get m k = some v) : (k, v) ∈ m := by
  unfold get at h
  cases hf : m.find? (fun e => decide (e.1 = k)) with
  | none => rw [hf] at h; cases h
  | some e =>
    rw [hf] at h
    have h1 := List.mem_of_find?_eq_some hf
    have h2 := List.find?_some hf
    have h2' : e.1 = k := of_decide_eq_true h2
    have h3 : e.2 = v := Option.some.inj h
    rw [← h2', ← h3]
    exact h1

theorem get_none {m : List (κ × α)} {k : κ} : get m k = none ↔ k ∉ keys m := by
  unfold get keys
  simp only [Option.map_eq_none_iff, List.find?_eq_none, decide_eq_true_eq, List.mem_map, not_exists,
    not_and]

theorem get_of_mem {m : List (κ × α)} (hn : (keys m).Nodup) {k : κ} {v : α} (h : (k, v) ∈ m) :
    get m k = some v := by
  cases hg : get m k with
  | none => exact absurd (mem_keys_of_mem h) (get_none.1 hg)
  | some w => rw [unique hn h (get_mem hg)]

theorem get_set_self (m : List (κ × α)) (k : κ) (v : α) : get (set m k v) k = some v := by
  simp [get, set]

theorem get_set_ne (m : List (κ × α)) {k j : κ} (v : α) (h : j ≠ k) :
    get (set m k v) j = get m j := by
  unfold get set del
  rw [List.find?_cons_of_neg (by simpa using Ne.symm h), List.find?_filter]
  congr 2
  funext e
  by_cases he : e.1 = j
  · simp [he, h]
  · simp [he]

theorem get_del_self (m : List (κ × α)) (k : κ) : get (del m k) k = none := by
  rw [get_none, mem_keys_del]
  exact fun h => h.2 rfl

theorem get_del_ne (m : List (κ × α)) {k j : κ} (h : j ≠ k) : get (del m k) j = get m j := by
  unfold get del
  rw [List.find?_filter]
  congr 2
  funext e
  by_cases he : e.1 = j
  · simp [he, h]
  · simp [he]

end Verif.Assoc
