import Verif.Model.Semantic
import Verif.Spec.Semantic

/-! # C04: semantic tokens survive the wire encoding -/
namespace Verif.Semantic

/-- The token the server computed. -/
def Item.token (i : Item) : Token :=
  ⟨i.line.toNat, i.start.toNat, i.len.toNat, i.typ.toNat, i.mods.toNat⟩

theorem le_of_not_less {a b : Item} (h : less b a = false) :
    a.line.toNat < b.line.toNat ∨ (a.line = b.line ∧ a.start.toNat ≤ b.start.toNat) := by
  unfold less at h
  split at h
  · rename_i hne
    left
    simp only [decide_eq_false_iff_not, UInt32.lt_iff_toNat_lt] at h
    have : b.line.toNat ≠ a.line.toNat := fun he => hne (UInt32.toNat_inj.mp he)
    omega
  · rename_i heq
    right
    simp only [ne_eq, Decidable.not_not] at heq
    simp only [decide_eq_false_iff_not, UInt32.lt_iff_toNat_lt] at h
    exact ⟨heq.symm, by omega⟩

theorem decode_dataLoop (items : List Item) (j : Nat) (hj : j > 0) (last : Item)
    (hs : (last :: items).Pairwise (fun a b => less b a = false)) :
    decodeFrom last.line.toNat last.start.toNat ((dataLoop j last items).map UInt32.toNat) =
      some (items.map Item.token) := by
  induction items generalizing j last with
  | nil => rfl
  | cons i t ih =>
    have hle := le_of_not_less ((List.pairwise_cons.mp hs).1 i (by simp))
    have ih' := ih (j + 5) (by omega) i (List.pairwise_cons.mp hs).2
    have hline : (i.line - last.line).toNat = i.line.toNat - last.line.toNat :=
      UInt32.toNat_sub_of_le _ _ (by
        rw [UInt32.le_iff_toNat_le]
        rcases hle with h | h
        · omega
        · rw [h.1]; omega)
    simp only [dataLoop, List.map_cons, decodeFrom]
    rw [if_neg (by omega)]
    by_cases h0 : i.line - last.line = 0
    · have he : i.line.toNat = last.line.toNat := by
        have : (i.line - last.line).toNat = 0 := by rw [h0]; rfl
        rcases hle with h | h
        · omega
        · rw [h.1]
      have hst : (i.start - last.start).toNat = i.start.toNat - last.start.toNat :=
        UInt32.toNat_sub_of_le _ _ (by
          rw [UInt32.le_iff_toNat_le]
          rcases hle with h | h
          · omega
          · exact h.2)
      have hls : last.start.toNat ≤ i.start.toNat := by
        rcases hle with h | h
        · omega
        · exact h.2
      have e1 : last.line.toNat + (i.line - last.line).toNat = i.line.toNat := by omega
      have e2 : (i.line - last.line).toNat = 0 := by omega
      have e3 : (if j > 0 ∧ i.line - last.line = 0 then i.start - last.start else i.start) =
          i.start - last.start := if_pos ⟨hj, h0⟩
      have e4 : last.start.toNat + (i.start - last.start).toNat = i.start.toNat := by omega
      simp only [e3, e2, if_true, e4, Nat.add_zero, ← he, ih']
      rfl
    · have e2 : (i.line - last.line).toNat ≠ 0 := by
        intro h
        exact h0 (UInt32.toNat_inj.mp (by rw [h]; rfl))
      have e1 : last.line.toNat + (i.line - last.line).toNat = i.line.toNat := by omega
      have e3 : (if j > 0 ∧ i.line - last.line = 0 then i.start - last.start else i.start) =
          i.start := if_neg (fun h => h0 h.2)
      simp only [e3, e1, e2, if_false, ih']
      rfl

/-- **C04** For every list of tokens the walk over the document may have collected
(`items`, in any order) and every outcome `sorted` of the server's sort, decoding the
array sent to the editor by the LSP rule (over unbounded integers, so no relative
offset has wrapped around) gives exactly the collected tokens, ordered by line and
start. -/
theorem C04_tokens_round_trip (items sorted : List Item) (h : SortSlice less items sorted) :
    decode ((data sorted).map UInt32.toNat) = some (sorted.map Item.token) ∧
    (sorted.map Item.token).Perm (items.map Item.token) ∧
    (sorted.map Item.token).Pairwise
      (fun a b => a.line < b.line ∨ (a.line = b.line ∧ a.start ≤ b.start)) := by
  refine ⟨?_, h.perm.map _, ?_⟩
  · cases hs : sorted with
    | nil => rfl
    | cons i t =>
      have hsorted := h.sorted
      rw [hs] at hsorted
      have := decode_dataLoop t 5 (by omega) i hsorted
      simp only [decode, data, dataLoop, List.map_cons, decodeFrom]
      simp only [Nat.lt_irrefl, false_and, if_false, if_true, Nat.zero_add, gt_iff_lt,
        ite_self]
      rw [this]
      rfl
  · rw [List.pairwise_map]
    refine h.sorted.imp ?_
    intro a b hab
    rcases le_of_not_less hab with h1 | ⟨h1, h2⟩
    · exact Or.inl h1
    · exact Or.inr ⟨by simp [Item.token, h1], h2⟩

/-- Non-trivial instance: three tokens collected out of order, two on one line. -/
example : SortSlice less
    [⟨3, 4, 2, 1, 0⟩, ⟨1, 9, 5, 15, 512⟩, ⟨1, 2, 6, 17, 0⟩]
    [⟨1, 2, 6, 17, 0⟩, ⟨1, 9, 5, 15, 512⟩, ⟨3, 4, 2, 1, 0⟩] :=
  ⟨by decide, by decide⟩

example : data [⟨1, 2, 6, 17, 0⟩, ⟨1, 9, 5, 15, 512⟩, ⟨3, 4, 2, 1, 0⟩] =
    [1, 2, 6, 17, 0, 0, 7, 5, 15, 512, 2, 4, 2, 1, 0] := by decide

end Verif.Semantic
