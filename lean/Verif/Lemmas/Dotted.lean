import Verif.Spec.Names

/-!
# Lemmas on dotted names
-/
namespace Verif

theorem dotted_append (xs ys : List Str) (hx : xs ≠ []) (hy : ys ≠ []) :
    dotted (xs ++ ys) = dotted xs ++ '.' :: dotted ys := by
  induction xs with
  | nil => exact absurd rfl hx
  | cons x t ih =>
    cases t with
    | nil => simp [dotted, joinWith_cons _ _ _ hy, joinWith]
    | cons y t =>
      have := ih (by simp)
      simp only [dotted, List.cons_append] at this ⊢
      rw [joinWith_cons _ x _ (by simp), this, joinWith_cons _ x _ (by simp)]
      simp

theorem Wf.append {xs ys : List Str} : Wf (xs ++ ys) ↔ Wf xs ∧ Wf ys := by
  simp only [Wf, List.mem_append]
  constructor
  · intro h; exact ⟨fun p hp => h p (.inl hp), fun p hp => h p (.inr hp)⟩
  · rintro ⟨h1, h2⟩ p (hp | hp)
    · exact h1 p hp
    · exact h2 p hp

theorem dotted_eq_nil {ps : List Str} (h : Wf ps) : dotted ps = [] ↔ ps = [] := by
  constructor
  · intro e
    cases ps with
    | nil => rfl
    | cons x t =>
      have hx := (h x (by simp)).1
      cases t with
      | nil => simp [dotted, joinWith] at e; exact absurd e hx
      | cons y t => simp [dotted, joinWith] at e
  · rintro rfl; rfl

theorem dotted_inj {xs ys : List Str} (hx : Wf xs) (hy : Wf ys) (h : dotted xs = dotted ys) :
    xs = ys := by
  by_cases ex : xs = []
  · subst ex
    exact ((dotted_eq_nil hy).mp h.symm).symm
  · by_cases ey : ys = []
    · subst ey; exact (dotted_eq_nil hx).mp h
    · rw [← splitOn_join '.' xs ex (fun w hw => (hx w hw).2),
        ← splitOn_join '.' ys ey (fun w hw => (hy w hw).2)]
      exact congrArg _ h

theorem length_le_dotted {ps : List Str} (h : Wf ps) : ps.length ≤ (dotted ps).length := by
  induction ps with
  | nil => simp
  | cons x t ih =>
    have hx := List.length_pos_iff.mpr (h x (by simp)).1
    have ih' := ih (fun p hp => h p (by simp [hp]))
    cases t with
    | nil => simp [dotted, joinWith]; omega
    | cons y t => simp only [dotted, joinWith_cons _ x (y :: t) (by simp)] at ih' ⊢; simp at ih' ⊢; omega

end Verif
