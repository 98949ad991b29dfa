import Mathlib.Tactic.Common
import Verif.Props.Completion
/-!
# C17: what the distance is and how the candidates are ordered
-/
namespace Verif.Completion

/-- Specification: the signed number of steps from one dotted name to another: with the common parts `p` removed, the parts
that are left; negative if the second name is inside the first. -/
def Steps (a b : Str) (d : Int) : Prop :=
  ∃ p f t, splitOn '.' a = p ++ f ∧ splitOn '.' b = p ++ t ∧ (∀ x, f.head? = some x → t.head? ≠ some x) ∧
    d = if f = [] then -(t.length : Int) else (f.length : Int) + t.length

theorem distLoop_steps (nf nt : Nat) : ∀ (i : Nat) (fs ts : List Str), nf = i + fs.length → nt = i + ts.length →
    ∃ p f t, fs = p ++ f ∧ ts = p ++ t ∧ (∀ x, f.head? = some x → t.head? ≠ some x) ∧
      distLoop nf nt i fs ts = if f = [] then -(t.length : Int) else (f.length : Int) + t.length := by
  intro i fs
  induction fs generalizing i with
  | nil =>
    intro ts h1 h2
    refine ⟨[], [], ts, rfl, rfl, by simp, ?_⟩
    simp only [distLoop, if_pos]
    simp at h1
    omega
  | cons f fs ih =>
    intro ts h1 h2
    cases ts with
    | nil =>
      refine ⟨[], f :: fs, [], rfl, rfl, by simp, ?_⟩
      simp only [distLoop]
      rw [if_neg (by simp)]
      simp at h1 h2 ⊢
      omega
    | cons t ts =>
      simp only [List.length_cons] at h1 h2
      by_cases h : f = t
      · subst h
        obtain ⟨p, f', t', e1, e2, e3, e4⟩ := ih (i + 1) ts (by omega) (by omega)
        refine ⟨f :: p, f', t', by rw [e1]; rfl, by rw [e2]; rfl, e3, ?_⟩
        simp only [distLoop, ne_eq, not_true_eq_false, if_false]
        exact e4
      · refine ⟨[], f :: fs, t :: ts, rfl, rfl, ?_, ?_⟩
        · intro x hx hy
          cases hx; cases hy; exact h rfl
        · simp only [distLoop]
          rw [if_pos h, if_neg (by simp)]
          simp only [List.length_cons]
          omega

/-- **C17** (part): the distance is the signed number of steps between the names. -/
theorem C17_distance (a b : Str) : Steps a b (nameDistance a b) := by
  unfold nameDistance
  split
  · rename_i h
    subst h
    exact ⟨splitOn '.' a, [], [], by simp, by simp, by simp, by simp⟩
  · exact distLoop_steps _ _ 0 _ _ (by simp) (by simp)

theorem Steps.unique {a b : Str} {d e : Int} (h : Steps a b d) (h' : Steps a b e) : d = e := by
  obtain ⟨p, f, t, h1, h2, h3, rfl⟩ := h
  obtain ⟨q, g, u, k1, k2, k3, rfl⟩ := h'
  suffices h : f = g ∧ t = u by rw [h.1, h.2]
  rw [h1] at k1
  rw [h2] at k2
  clear h1 h2
  induction p generalizing q with
  | nil =>
    cases q with
    | nil => exact ⟨k1, k2⟩
    | cons x q =>
      simp only [List.nil_append, List.cons_append] at k1 k2
      exact absurd (by rw [k2]; rfl) (h3 x (by rw [k1]; rfl))
  | cons x p ih =>
    cases q with
    | nil =>
      simp only [List.nil_append, List.cons_append] at k1 k2
      exact absurd (by rw [← k2]; rfl) (k3 x (by rw [← k1]; rfl))
    | cons y q =>
      simp only [List.cons_append, List.cons.injEq] at k1 k2
      exact ih q k1.2 k2.2

/-- **C17** (part): the candidates are ordered by the distance of their package; those of the current package by the distance
of their name from the scope, if there is one; and then by name. -/
theorem C17_ordered (pkgScope scope : Str) (cands out : List Cand) (h : DistanceSort pkgScope scope cands out) :
    out.Pairwise (fun a b => ∀ da db, Steps pkgScope a.pkg da → Steps pkgScope b.pkg db →
      Closer da db ∨ (da = db ∧
        ((a.pkg = pkgScope ∧ scope ≠ [] → ∀ sa sb, Steps scope a.fullName sa → Steps scope b.fullName sb →
            Closer sa sb ∨ (sa = sb ∧ ¬ b.fullName < a.fullName)) ∧
         (¬ (a.pkg = pkgScope ∧ scope ≠ []) → ¬ b.fullName < a.fullName)))) := by
  obtain ⟨es, ⟨p1, s1⟩, rfl⟩ := h
  rw [List.pairwise_map]
  have hm : ∀ e ∈ es, e = mkEntry pkgScope scope e.cand := by
    intro e he
    obtain ⟨c, _, rfl⟩ := List.mem_map.mp (p1.mem_iff.mp he)
    rfl
  refine List.Pairwise.imp_of_mem ?_ s1
  intro a b ha hb hle da db hda hdb
  have ea := hm a ha
  have eb := hm b hb
  generalize a.cand = ca at *
  generalize b.cand = cb at *
  subst ea eb
  have hda := hda.unique (C17_distance _ _)
  have hdb := hdb.unique (C17_distance _ _)
  have hnb : ¬ Before (mkEntry pkgScope scope cb) (mkEntry pkgScope scope ca) := by
    rw [← C17_less_iff]; simp [hle]
  unfold Before mkEntry at hnb
  simp only [not_or, not_and] at hnb
  rw [← hda, ← hdb] at hnb
  rcases Closer.total da db with hc | hc | hc
  · exact .inl hc
  · right
    refine ⟨hc, ?_⟩
    have hnb := hnb.2 hc.symm
    have hpa : da = 0 ↔ ca.pkg = pkgScope := by rw [hda, C17_distance_zero]; exact eq_comm
    constructor
    · rintro ⟨hp, hs⟩ sa sb hsa hsb
      have hsa := hsa.unique (C17_distance _ _)
      have hsb := hsb.unique (C17_distance _ _)
      have h0 := hpa.2 hp
      have h0' : db = 0 := hc ▸ h0
      rw [if_pos ⟨h0', hs⟩, if_pos ⟨h0, hs⟩, ← hsa, ← hsb] at hnb
      rcases Closer.total sa sb with k | k | k
      · exact .inl k
      · exact .inr ⟨k, hnb.2 k.symm⟩
      · exact absurd k hnb.1
    · intro hns
      have h1 : ¬ (da = 0 ∧ scope ≠ []) := fun h => hns ⟨hpa.1 h.1, h.2⟩
      have h2 : ¬ (db = 0 ∧ scope ≠ []) := by rw [← hc]; exact h1
      rw [if_neg h2, if_neg h1] at hnb
      exact hnb.2 rfl
  · exact absurd hc hnb.1

example : Steps ['a', '.', 'b'] ['a'] 1 := C17_distance ['a', '.', 'b'] ['a']
example : Steps ['a'] ['a', '.', 'b', '.', 'c'] (-2) := C17_distance ['a'] ['a', '.', 'b', '.', 'c']
example : Steps ['a', '.', 'b'] ['a', '.', 'c'] 2 := C17_distance ['a', '.', 'b'] ['a', '.', 'c']

end Verif.Completion
