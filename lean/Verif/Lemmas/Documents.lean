import Verif.Spec.Documents

namespace Verif.Documents

theorem offset_le_length {t : List Char} {l k n : Nat} (h : offset t l k = some n) :
    n ≤ t.length := by
  induction t, l, k using offset.induct generalizing n with
  | case1 t => simp [offset] at h; omega
  | case2 l k hne => 
    cases l <;> cases k <;> simp_all [offset]
  | case3 t k => simp [offset] at h
  | case4 c t k hc ih =>
    simp [offset, hc] at h
    obtain ⟨m, hm, rfl⟩ := h
    have := ih hm
    simp; omega
  | case5 t l k ih =>
    simp [offset] at h
    obtain ⟨m, hm, rfl⟩ := h
    have := ih hm
    simp; omega
  | case6 c t l k hc ih =>
    simp [offset, hc] at h
    obtain ⟨m, hm, rfl⟩ := h
    have := ih hm
    simp; omega

/-- The offset of a position only depends on the text before it. -/
theorem offset_prefix {t : List Char} {l k n : Nat} (h : offset t l k = some n)
    (rest : List Char) (m : Nat) (hm : n ≤ m) :
    offset (t.take m ++ rest) l k = some n := by
  induction t, l, k using offset.induct generalizing n m with
  | case1 t => simp [offset] at h; subst h; simp [offset]
  | case2 l k hne => 
    cases l <;> cases k <;> simp_all [offset]
  | case3 t k => simp [offset] at h
  | case4 c t k hc ih =>
    simp [offset, hc] at h
    obtain ⟨x, hx, rfl⟩ := h
    obtain ⟨m', rfl⟩ : ∃ m', m = m' + 1 := ⟨m - 1, by omega⟩
    have := ih hx m' (by omega)
    simp [offset, hc, this]
  | case5 t l k ih =>
    simp [offset] at h
    obtain ⟨x, hx, rfl⟩ := h
    obtain ⟨m', rfl⟩ : ∃ m', m = m' + 1 := ⟨m - 1, by omega⟩
    have := ih hx m' (by omega)
    simp [offset, this]
  | case6 c t l k hc ih =>
    simp [offset, hc] at h
    obtain ⟨x, hx, rfl⟩ := h
    obtain ⟨m', rfl⟩ : ∃ m', m = m' + 1 := ⟨m - 1, by omega⟩
    have := ih hx m' (by omega)
    simp [offset, hc, this]

/-- Edits that all end before `c` starts may be applied after `c`. -/
theorem applyLoop_snoc (src : List Char) (es : List Edit) (c : Edit) (lastEnd : Nat)
    (hc : c.start ≤ c.stop) (hlen : c.stop ≤ src.length) (hl : lastEnd ≤ c.start)
    (hes : ∀ e ∈ es, e.start ≤ e.stop ∧ e.stop ≤ c.start) :
    applyLoop src lastEnd (es ++ [c]) =
      applyLoop (src.take c.start ++ c.new ++ src.drop c.stop) lastEnd es := by
  induction es generalizing lastEnd with
  | nil =>
    simp only [List.nil_append, applyLoop]
    rw [List.append_assoc, List.append_assoc, List.drop_append_of_le_length]
    simp; omega
  | cons e t ih =>
    simp only [List.cons_append, applyLoop]
    obtain ⟨h1, h2⟩ := hes e (by simp)
    rw [ih e.stop h2 (fun x hx => hes x (by simp [hx]))]
    congr 2
    rw [List.append_assoc, List.take_append_of_le_length (by simp; omega), List.take_take,
      Nat.min_eq_left (by omega)]

theorem applyLoop_nil (src : List Char) : applyLoop src 0 [] = src := by simp [applyLoop]

theorem sliceDelete_mid {α : Type} (pre : List α) (x : α) (post : List α) :
    sliceDelete (pre ++ x :: post) pre.length = .ok (pre ++ post) := by
  unfold sliceDelete
  rw [if_pos (by simp)]
  simp [List.drop_append]

end Verif.Documents
