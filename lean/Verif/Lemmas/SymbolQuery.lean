import Verif.Spec.SymbolQuery
import Verif.Props.Symbols
import Mathlib.Tactic.ByContra

/-!
# Lemmas about the workspace symbol request
-/
namespace Verif.SymbolQuery

open Verif.Symbols

variable {cfg : Cfg} {files : List (Option (List Nat))}

def elig (cfg : Cfg) (l : List Nat) : List Nat := l.filter (fun i => eligible (cfg.info i))

theorem elig_append (a b : List Nat) : elig cfg (a ++ b) = elig cfg a ++ elig cfg b := by simp [elig]

/-- The declarations that are still to be sent. -/
def pending (s : St) : List Nat := (s.prods.flatMap Prod.todo) ++ (s.files.filterMap id).flatten

structure Inv (cfg : Cfg) (files : List (Option (List Nat))) (s : St) : Prop where
  all : s.failed = false → (s.stored ++ s.chan ++ elig cfg (pending s)).Perm (elig cfg (files.filterMap id).flatten)
  closed : s.closed = true ↔ s.main ≠ .ranging
  ended : s.main ≠ .ranging → s.files = [] ∧ running s.prods = 0
  fin : s.failed = false → ∀ p ∈ s.prods, p.fin = true → p.todo = []
  failed : s.failed = true → s.cancelled = true
  select : s.main = .selecting → s.failed = false
  consumed : s.consumed = true → s.closed = true ∧ s.chan = []
  nil : s.main = .returned .nil → s.cancelled = true
  symbols : ∀ a, s.main = .returned a → a ≠ .nil → s.consumed = true ∧ s.failed = false ∧ a = answer cfg s.stored
  panicked : s.panicked = false

theorem running_zero {ps : List Prod} : running ps = 0 ↔ ∀ p ∈ ps, p.fin = true := by
  simp [running, List.filter_eq_nil_iff]

theorem flatMap_set {ps : List Prod} {i : Nat} {p q : Prod} (h : ps[i]? = some p) :
    ∃ a b, ps = a ++ p :: b ∧ ps.set i q = a ++ q :: b := by
  obtain ⟨hi, rfl⟩ := List.getElem?_eq_some_iff.mp h
  refine ⟨ps.take i, ps.drop (i + 1), ?_, ?_⟩
  · simp
  · rw [List.set_eq_take_append_cons_drop]
    simp [hi]

theorem answer_ne_nil (cfg : Cfg) (l : List Nat) : answer cfg l ≠ .nil := by
  unfold answer; split <;> simp

theorem inv_step {s t : St} {l : Label} (h : Inv cfg files s) (hs : step cfg s l = some t) : Inv cfg files t := by
  obtain ⟨h1, h2, h3, h4, h5, h6, h7, h8, h9, h10⟩ := h
  cases l with
  | cancel =>
    simp only [step] at hs
    split at hs
    · cases hs
    · injection hs with hs; subst hs
      exact ⟨h1, h2, h3, h4, fun _ => rfl, h6, h7, fun _ => rfl, h9, h10⟩
  | launch =>
    simp only [step] at hs
    split at hs
    · cases hs
    · rename_i fs hf
      injection hs with hs; subst hs
      refine ⟨?_, h2, ?_, h4, h5, h6, h7, h8, h9, h10⟩
      · intro hx
        have := h1 hx
        simpa [pending, hf] using this
      · intro hm; have := h3 hm; simp [hf] at this
    · rename_i ds fs hf
      split at hs
      · injection hs with hs; subst hs
        have hr : s.main = .ranging := by
          by_contra hm
          have := h3 hm
          simp [hf] at this
        refine ⟨?_, h2, ?_, ?_, h5, h6, h7, h8, h9, h10⟩
        · intro hx
          have := h1 hx
          simpa [pending, hf] using this
        · intro hm; exact absurd hr hm
        · intro hx p hp hfin
          rcases List.mem_append.mp hp with hp | hp
          · exact h4 hx p hp hfin
          · simp at hp; subst hp; cases hfin
      · cases hs
  | send i =>
    simp only [step] at hs
    split at hs
    · rename_i d ds hp
      have hrun : s.main = .ranging := by
        by_contra hm
        have := running_zero.mp (h3 hm).2 _ (List.mem_of_getElem? hp)
        simp at this
      obtain ⟨a, b, e1, e2⟩ := flatMap_set (q := ⟨ds, false⟩) hp
      split at hs
      · rename_i hel
        split at hs
        · rename_i hc
          exact absurd hrun (h2.mp hc)
        · split at hs
          · injection hs with hs; subst hs
            refine ⟨?_, h2, fun hm => absurd hrun hm, ?_, h5, h6, ?_, h8, h9, h10⟩
            · intro hx
              refine List.Perm.trans ?_ (h1 hx)
              simp only [pending, e2]
              simp only [e1, List.flatMap_append, List.flatMap_cons, elig_append]
              have : elig cfg (d :: ds) = d :: elig cfg ds := by simp [elig, hel]
              simp only [this, List.append_assoc, List.cons_append, List.nil_append]
              refine List.Perm.append_left _ (List.Perm.append_left _ ?_)
              exact List.perm_middle.symm
            · intro hx p hp' hfin
              simp only at hp'
              rw [e2] at hp'
              have h4' := h4 hx
              rw [e1] at h4'
              rcases List.mem_append.mp hp' with hp' | hp'
              · exact h4' p (List.mem_append_left _ hp') hfin
              · rcases List.mem_cons.mp hp' with rfl | hp'
                · cases hfin
                · exact h4' p (List.mem_append_right _ (List.mem_cons_of_mem _ hp')) hfin
            · intro hcon
              exact absurd hrun (h2.mp (h7 hcon).1)
          · cases hs
      · rename_i hel
        injection hs with hs; subst hs
        refine ⟨?_, h2, fun hm => absurd hrun hm, ?_, h5, h6, h7, h8, h9, h10⟩
        · intro hx
          refine List.Perm.trans ?_ (h1 hx)
          simp only [pending, e2]
          simp only [e1, List.flatMap_append, List.flatMap_cons, elig_append]
          have : elig cfg (d :: ds) = elig cfg ds := by simp [elig, hel]
          rw [this]
        · intro hx p hp' hfin
          simp only at hp'
          rw [e2] at hp'
          have h4' := h4 hx
          rw [e1] at h4'
          rcases List.mem_append.mp hp' with hp' | hp'
          · exact h4' p (List.mem_append_left _ hp') hfin
          · rcases List.mem_cons.mp hp' with rfl | hp'
            · cases hfin
            · exact h4' p (List.mem_append_right _ (List.mem_cons_of_mem _ hp')) hfin
    · cases hs
  | fail i =>
    simp only [step] at hs
    split at hs
    · rename_i ds hp
      split at hs
      · rename_i hc
        have hcan : s.cancelled = true := by
          rcases Bool.or_eq_true _ _ ▸ hc with h | h
          · exact h
          · exact h5 h
        have hrun : s.main = .ranging := by
          by_contra hm
          have := running_zero.mp (h3 hm).2 _ (List.mem_of_getElem? hp)
          simp at this
        injection hs with hs; subst hs
        refine ⟨fun hx => (by cases hx), h2, fun hm => absurd hrun hm, fun hx => (by cases hx), fun _ => hcan, ?_, h7, h8, ?_, h10⟩
        · intro hm; simp only at hm; rw [hrun] at hm; cases hm
        · intro a hm; simp only at hm; rw [hrun] at hm; cases hm
      · cases hs
    · cases hs
  | finish i =>
    simp only [step] at hs
    split at hs
    · rename_i hp
      have hrun : s.main = .ranging := by
        by_contra hm
        have := running_zero.mp (h3 hm).2 _ (List.mem_of_getElem? hp)
        simp at this
      obtain ⟨a, b, e1, e2⟩ := flatMap_set (q := ⟨[], true⟩) hp
      injection hs with hs; subst hs
      refine ⟨?_, h2, fun hm => absurd hrun hm, ?_, h5, h6, h7, h8, h9, h10⟩
      · intro hx
        have := h1 hx
        simp only [pending, e2] at this ⊢
        simp only [e1, List.flatMap_append, List.flatMap_cons] at this ⊢
        exact this
      · intro hx p hp' hfin
        simp only at hp'
        rw [e2] at hp'
        have h4' := h4 hx
        rw [e1] at h4'
        rcases List.mem_append.mp hp' with hp' | hp'
        · exact h4' p (List.mem_append_left _ hp') hfin
        · rcases List.mem_cons.mp hp' with rfl | hp'
          · rfl
          · exact h4' p (List.mem_append_right _ (List.mem_cons_of_mem _ hp')) hfin
    · cases hs
  | recv =>
    simp only [step] at hs
    split at hs
    · rename_i d c hc
      injection hs with hs; subst hs
      have hnc : s.consumed = false := by
        by_contra hx
        have := (h7 (by simpa using hx)).2
        rw [hc] at this; cases this
      refine ⟨?_, h2, h3, h4, h5, h6, ?_, h8, ?_, h10⟩
      · intro hx
        have := h1 hx
        simp only [hc] at this
        simpa [pending] using this
      · intro hx; simp only at hx; rw [hnc] at hx; cases hx
      · intro a hm hne
        have := (h9 a hm hne).1
        rw [hnc] at this; cases this
    · cases hs
  | done =>
    simp only [step] at hs
    split at hs
    · rename_i hc
      simp only [Bool.and_eq_true, List.isEmpty_iff] at hc
      injection hs with hs; subst hs
      refine ⟨h1, h2, h3, h4, h5, h6, fun _ => ⟨hc.1.1, hc.1.2⟩, h8, ?_, h10⟩
      intro a hm hne
      exact ⟨rfl, (h9 a hm hne).2⟩
    · cases hs
  | close =>
    simp only [step] at hs
    split at hs
    · rename_i hc
      obtain ⟨c1, c2, c3⟩ := hc
      injection hs with hs; subst hs
      refine ⟨h1, ?_, fun _ => ⟨c2, c3⟩, h4, h5, ?_, fun hx => ⟨rfl, (h7 hx).2⟩, ?_, ?_, h10⟩
      · simp only [true_iff]
        split <;> simp
      · intro hm
        by_contra hf
        simp only at hm
        rw [if_pos (by simpa using hf)] at hm
        cases hm
      · intro hm
        by_cases hf : s.failed = true
        · exact h5 hf
        · simp [hf] at hm
      · intro a hm hne
        by_cases hf : s.failed = true
        · simp [hf] at hm; exact absurd hm.symm hne
        · simp [hf] at hm
    · cases hs
  | select b =>
    simp only [step] at hs
    split at hs
    · rename_i hm
      split at hs
      · split at hs
        · rename_i hcon
          injection hs with hs; subst hs
          refine ⟨h1, ?_, ?_, h4, h5, fun hx => (by cases hx), h7, ?_, ?_, h10⟩
          · simp only [ne_eq, reduceCtorEq, not_false_eq_true, iff_true]
            exact h2.mpr (by rw [hm]; simp)
          · intro _; exact h3 (by rw [hm]; simp)
          · intro hx; injection hx with hx; exact absurd hx (answer_ne_nil _ _)
          · intro a hx _
            injection hx with hx
            exact ⟨hcon, h6 hm, hx.symm⟩
        · cases hs
      · split at hs
        · rename_i hcan
          injection hs with hs; subst hs
          refine ⟨h1, ?_, ?_, h4, h5, fun hx => (by cases hx), h7, fun _ => hcan, ?_, h10⟩
          · simp only [ne_eq, reduceCtorEq, not_false_eq_true, iff_true]
            exact h2.mpr (by rw [hm]; simp)
          · intro _; exact h3 (by rw [hm]; simp)
          · intro a hx hne
            injection hx with hx
            exact absurd hx.symm hne
        · cases hs
    · cases hs

theorem inv_of_reach {s : St} (h : Reach cfg files s) : Inv cfg files s := by
  induction h with
  | init =>
    refine ⟨fun _ => ?_, by simp, by simp, by simp, by simp, by simp, by simp, by simp, by simp, rfl⟩
    simp [pending]
  | step _ hs ih => exact inv_step ih hs

/-- At the end everything has been stored. -/
theorem stored_perm {s : St} (h : Inv cfg files s) (hc : s.consumed = true) (hf : s.failed = false) :
    s.stored.Perm (elig cfg (files.filterMap id).flatten) := by
  obtain ⟨c1, c2⟩ := h.consumed hc
  obtain ⟨e1, e2⟩ := h.ended (h.closed.mp c1)
  have hp : pending s = [] := by
    simp only [pending, e1, List.filterMap_nil, List.flatten_nil, List.append_nil, List.flatMap_eq_nil_iff]
    intro p hp
    exact h.fin hf p hp (running_zero.mp e2 p hp)
  have := h.all hf
  simpa [c2, hp, elig] using this

theorem declared_eq (cfg : Cfg) (files : List (Option (List Nat))) :
    declared cfg.info files = elig cfg (files.filterMap id).flatten := by
  unfold declared elig
  apply List.filter_congr
  intro i _
  unfold eligible
  cases (cfg.info i).kind <;> simp

end Verif.SymbolQuery
