import Verif.Spec.Hover
import Verif.Lemmas.CursorPath
/-! Lemmas about hover. -/
namespace Verif.Hover

open CursorPath

theorem At.same {b : Info → Prop} {n : Node} {q : List Nat} {l l' : Nat} {i j : Info} (h : At b n q l i) (h' : At b n q l' j) : l = l' ∧ i = j := by
  induction h generalizing l' with
  | here i kids => cases h'; exact ⟨rfl, rfl⟩
  | kid i kids k steps n path len j' hb hk _ ih =>
    cases h' with
    | kid _ _ _ steps' n' _ len' _ _ hk' h' =>
      rw [hk] at hk'
      cases hk'
      obtain ⟨rfl, rfl⟩ := ih h'
      exact ⟨rfl, rfl⟩

theorem At.longer {b : Info → Prop} {n : Node} {q r : List Nat} {l l' : Nat} {i j : Info} (hp : Positive n) (h : At b n q l i)
    (h' : At b n (q ++ r) l' j) (hr : r ≠ []) : l < l' := by
  induction h generalizing l' with
  | here i kids =>
    obtain ⟨_, _, _, h1, h2⟩ := hp
    cases h' with
    | here => exact absurd rfl hr
    | kid _ _ k steps n path len _ _ hk _ =>
      have := h1 _ (List.mem_of_getElem? hk)
      simp only at this
      omega
  | kid i kids k steps n path len j' hb hk _ ih =>
    obtain ⟨_, _, _, h1, h2⟩ := hp
    cases h' with
    | kid _ _ _ steps' n' _ len' _ _ hk' h' =>
      rw [hk] at hk'
      cases hk'
      have := ih (h2 _ (List.mem_of_getElem? hk)) h'
      omega

theorem here_name {i : Info} {p : Pos} {q : List Nat} {l : Nat} {f : Found} (hs : i.sepHit = false) (h : f ∈ here i p q l) :
    eligible i p = true ∧ f = ⟨q, false, l⟩ := by
  unfold here at h
  rw [hs] at h
  simp only [Bool.false_eq_true, and_false, if_false, List.append_nil] at h
  split at h
  · rename_i he
    exact ⟨he, List.mem_singleton.1 h⟩
  · simp at h

/-- The node found lies on the way to the name and is eligible, and no eligible node on the way lies deeper. -/
theorem found_chain {root : Node} {start : Pos} {decl : List Nat} {info : Info} {k : Nat} (h : NameAt root start decl info k) :
    (∀ f, findPathIntersectingToken root start = some f → f.name = false ∧ f.path <+: decl ∧
      (∃ l i, At (fun _ => True) root f.path l i ∧ eligible i start = true) ∧
      ∀ q l i, At (fun _ => True) root q l i → eligible i start = true → q <+: f.path) ∧
    (findPathIntersectingToken root start = none → ∀ q l i, At (fun _ => True) root q l i → eligible i start = false) := by
  have hmem := mem_collect start [] 1
  have hel : ∀ q l i, At (fun _ => True) root q l i → eligible i start = true → (⟨q, false, 1 + l⟩ : Found) ∈ collect start [] 1 root := by
    intro q l i ha he
    rw [hmem]
    refine ⟨q, l, i, ha, ?_⟩
    unfold here
    rw [if_pos he]
    simp
  have hother : ∀ i : Info, i.kind = .other → eligible i start = false := by
    intro i hk
    unfold eligible
    rw [hk]
  constructor
  · intro f hf
    unfold findPathIntersectingToken at hf
    cases hc : collect start [] 1 root with
    | nil => rw [hc] at hf; cases hf
    | cons a rest =>
      rw [hc] at hf
      simp only [Option.some.injEq] at hf
      have hs : f ∈ collect start [] 1 root ∧ ∀ x ∈ collect start [] 1 root, x.len ≤ f.len := by
        obtain ⟨l1, l2, h1, h2, h3⟩ := longest_spec a (a :: rest)
        rw [hf] at h1 h2 h3
        rw [hc]
        constructor
        · have : f ∈ a :: a :: rest := by rw [h1]; simp
          simpa using this
        · intro x hx
          have : x ∈ a :: a :: rest := List.mem_cons_of_mem _ hx
          rw [h1, List.mem_append, List.mem_cons] at this
          rcases this with h4 | rfl | h4
          · exact Nat.le_of_lt (h2 x h4)
          · exact Nat.le_refl _
          · exact h3 x h4
      have hfm := hs.1
      obtain ⟨q, l, i, ha, hh⟩ := (hmem f root).1 hfm
      obtain ⟨he, rfl⟩ := here_name (h.noSep q l i ha) hh
      simp only [List.nil_append]
      have hq : q <+: decl := by
        rcases h.only q l i ha with h1 | ⟨_, h1⟩
        · exact h1
        · rw [hother i h1] at he; cases he
      refine ⟨trivial, hq, ⟨l, i, ha, he⟩, ?_⟩
      intro q' l' i' ha' he'
      have hq' : q' <+: decl := by
        rcases h.only q' l' i' ha' with h1 | ⟨_, h1⟩
        · exact h1
        · rw [hother i' h1] at he'; cases he'
      rcases List.prefix_or_prefix_of_prefix hq' hq with h1 | h1
      · exact h1
      · obtain ⟨r, rfl⟩ := h1
        by_cases hr : r = []
        · rw [hr, List.append_nil]; exact List.prefix_rfl
        · have hlt := At.longer h.positive ha ha' hr
          have := hs.2 _ (hel _ _ _ ha' he')
          simp only at this
          omega
  · intro hn q l i ha
    unfold findPathIntersectingToken at hn
    cases hc : collect start [] 1 root with
    | nil =>
      cases he : eligible i start with
      | false => rfl
      | true =>
        have := hel q l i ha he
        rw [hc] at this
        simp at this
    | cons a rest => rw [hc] at hn; cases hn

end Verif.Hover
