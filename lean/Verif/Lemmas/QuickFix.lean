import Verif.Spec.QuickFix
import Verif.Lemmas.Documents
import Verif.Lemmas.FindTypes

namespace Verif.QuickFix
open Verif.Documents (Pos offset)
open Verif.TokenCells (u32)
open Verif.FindTypes (Decl)

theorem u32_small (n : Nat) (h : n < 4294967296) : u32 (n : Int) = n := by
  unfold u32; omega

theorem takeWhile_self {p : Char → Bool} {l : Str} (h : ∀ x ∈ l, p x = true) :
    l.takeWhile p = l := by
  induction l with
  | nil => rfl
  | cons x t ih =>
    rw [List.takeWhile_cons, if_pos (h x (by simp)), ih (fun y hy => h y (by simp [hy]))]

theorem posAfter_cons_nl (t : Str) :
    posAfter ('\n' :: t) = ⟨(posAfter t).line + 1, (posAfter t).char⟩ := by
  unfold posAfter
  simp only [List.count_cons_self, List.reverse_cons, Pos.mk.injEq, true_and]
  rw [List.takeWhile_append]
  split
  · rename_i h; rw [h]; simp
  · rfl

theorem posAfter_line0 (t : Str) (h : t.count '\n' = 0) : (posAfter t).char = t.length := by
  unfold posAfter
  simp only
  have : ∀ x ∈ t.reverse, (decide (x ≠ '\n')) = true := by
    intro x hx
    have : x ∈ t := by simpa using hx
    simp only [decide_eq_true_eq]
    rintro rfl
    exact List.count_eq_zero.mp h this
  rw [takeWhile_self this]
  simp

theorem posAfter_cons {x : Char} (t : Str) (hx : x ≠ '\n') (h : t.count '\n' ≠ 0) :
    posAfter (x :: t) = posAfter t := by
  unfold posAfter
  rw [List.count_cons_of_ne (by simpa using hx)]
  simp only [List.reverse_cons, Pos.mk.injEq, true_and]
  rw [List.takeWhile_append]
  split
  · rename_i hl
    exfalso
    have hm : '\n' ∈ t := by
      apply Classical.byContradiction
      intro hn; exact h (List.count_eq_zero.mpr hn)
    have : t.reverse.takeWhile (fun x => decide (x ≠ '\n')) = t.reverse :=
      (List.takeWhile_prefix _).eq_of_length hl
    have h2 : '\n' ∈ t.reverse.takeWhile (fun x => decide (x ≠ '\n')) := by
      rw [this]; simpa using hm
    have h3 := Verif.mem_takeWhile h2
    simp at h3
  · rfl

theorem offset_line0 (t rest : Str) (h : '\n' ∉ t) : offset (t ++ rest) 0 t.length = some t.length := by
  induction t with
  | nil => cases rest <;> simp [offset]
  | cons x t ih =>
    simp only [List.mem_cons, not_or] at h
    have hx : ¬ x = '\n' := fun e => h.1 e.symm
    simp only [List.cons_append, List.length_cons, offset, hx, if_false, ih h.2, Option.map_some]

/-- The position behind a beginning of the text is found at its end. -/
theorem offset_posAfter (a rest : Str) :
    offset (a ++ rest) (posAfter a).line (posAfter a).char = some a.length := by
  induction a with
  | nil => cases rest <;> simp [posAfter, offset]
  | cons x t ih =>
    by_cases hx : x = '\n'
    · subst hx
      rw [posAfter_cons_nl]
      simp only [List.cons_append, offset, if_true, ih, Option.map_some, List.length_cons]
    · by_cases hc : t.count '\n' = 0
      · have hc' : (x :: t).count '\n' = 0 := by
          rw [List.count_cons_of_ne (by simpa using hx)]; exact hc
        rw [posAfter_line0 _ hc']
        show offset _ ((x :: t).count '\n') _ = _
        rw [hc']
        exact offset_line0 (x :: t) rest (List.count_eq_zero.mp hc')
      · rw [posAfter_cons t hx hc]
        have hl : ∃ l, (posAfter t).line = l + 1 := ⟨t.count '\n' - 1, by show t.count '\n' = _; omega⟩
        obtain ⟨l, hl⟩ := hl
        rw [hl] at ih ⊢
        simp only [List.cons_append, offset, hx, if_false, ih, Option.map_some, List.length_cons]

theorem posAfter_le (a : Str) : (posAfter a).line ≤ a.length ∧ (posAfter a).char ≤ a.length := by
  refine ⟨List.count_le_length, ?_⟩
  have := (List.takeWhile_prefix (l := a.reverse) (fun x => decide (x ≠ '\n'))).length_le
  simpa [posAfter] using this

theorem toPosition_sourcePosAfter (a : Str) (h : Fits a) :
    toPosition (sourcePosAfter a) = posAfter a := by
  have := posAfter_le a
  unfold Fits at h
  unfold toPosition sourcePosAfter
  have h1 : (((posAfter a).line + 1 : Nat) : Int) - 1 = ((posAfter a).line : Nat) := by omega
  have h2 : (((posAfter a).char + 1 : Nat) : Int) - 1 = ((posAfter a).char : Nat) := by omega
  simp only [h1, h2]
  rw [u32_small _ (by omega), u32_small _ (by omega)]

/-- An insertion at the position behind `a`. -/
theorem applyEdit_insert (a b new : Str) :
    applyEdit (a ++ b) ⟨posAfter a, posAfter a, new⟩ = some (a ++ new ++ b) := by
  unfold applyEdit Documents.applyChange
  simp only [offset_posAfter a b]
  simp

/-- A deletion between two positions. -/
theorem applyEdit_delete (a l b : Str) :
    applyEdit (a ++ l ++ b) ⟨posAfter a, posAfter (a ++ l), []⟩ = some (a ++ b) := by
  unfold applyEdit Documents.applyChange
  have h1 := offset_posAfter a (l ++ b)
  rw [← List.append_assoc] at h1
  simp only [h1, offset_posAfter (a ++ l) b]
  have e1 : (a ++ l ++ b).take a.length = a := by rw [List.append_assoc]; simp
  have e2 : (a ++ l ++ b).drop (a ++ l).length = b := by simp
  rw [e1, e2]
  simp

theorem posAfter_append_nl (a : Str) : posAfter (a ++ ['\n']) = ⟨a.count '\n' + 1, 0⟩ := by
  simp [posAfter]

/-- The position behind a text that is continued within its last line. -/
theorem posAfter_append_line (a b : Str) (h : '\n' ∉ b) :
    posAfter (a ++ b) = ⟨(posAfter a).line, (posAfter a).char + b.length⟩ := by
  unfold posAfter
  have hb : b.count '\n' = 0 := List.count_eq_zero.mpr h
  have ht : b.reverse.takeWhile (fun x => decide (x ≠ '\n')) = b.reverse := by
    apply takeWhile_self
    intro x hx
    have : x ∈ b := by simpa using hx
    simp only [decide_eq_true_eq]
    rintro rfl
    exact h this
  simp only [List.count_append, hb, List.reverse_append, Pos.mk.injEq]
  refine ⟨by omega, ?_⟩
  rw [List.takeWhile_append, ht]
  simp
  omega

theorem posAfter_append_break (a b : Str) :
    posAfter (a ++ '\n' :: b) = ⟨a.count '\n' + 1 + (posAfter b).line, (posAfter b).char⟩ := by
  induction a with
  | nil => rw [List.nil_append, posAfter_cons_nl]; simp; omega
  | cons x t ih =>
    rw [List.cons_append]
    by_cases hx : x = '\n'
    · subst hx
      rw [posAfter_cons_nl, ih, List.count_cons_self]
      simp; omega
    · rw [posAfter_cons _ hx (by simp), ih, List.count_cons_of_ne (by simpa using hx)]

theorem name_of_last {n full : Str} (h : LastComponent n full) : Completion.name full = n := by
  obtain ⟨hd, rfl | ⟨a, rfl⟩⟩ := h
  · unfold Completion.name; rw [lastIndexChar_none _ _ hd]
  · unfold Completion.name; rw [lastIndexChar_append _ _ _ hd]; simp

theorem last_of_name (full : Str) : LastComponent (Completion.name full) full := by
  unfold Completion.name
  cases h : lastIndexChar '.' full with
  | none =>
    refine ⟨?_, .inl rfl⟩
    intro hm
    obtain ⟨a, b, hab⟩ := List.append_of_mem hm
    -- a dot that occurs has a last occurrence
    have : ∀ s : Str, '.' ∈ s → lastIndexChar '.' s ≠ none := by
      intro s
      induction s with
      | nil => simp
      | cons y ys ihy =>
        intro hy
        simp only [lastIndexChar]
        cases hq : lastIndexChar '.' ys with
        | some _ => simp
        | none =>
          rcases List.mem_cons.mp hy with e | hm
          · simp [← e]
          · exact absurd hq (ihy hm)
    exact this _ hm h
  | some i =>
    obtain ⟨a, b, h1, h2, h3⟩ := lastIndexChar_some _ _ _ h
    subst h1 h2
    simp only []
    have : (a ++ '.' :: b).drop (a.length + 1) = b := by
      rw [List.drop_append]; simp
    rw [this]
    exact ⟨h3, .inr ⟨a, rfl⟩⟩

theorem name_iff (n full : Str) : Completion.name full = n ↔ LastComponent n full :=
  ⟨fun h => h ▸ last_of_name full, name_of_last⟩

theorem baseName_eq (n : Str) : baseName n = Completion.name n := rfl

theorem importable_iff (cur : Str) (d : Decl) :
    importable cur d = true ↔ Importable d ∧ d.path ≠ cur := by
  unfold importable Importable
  cases d.kind with
  | message m e => cases m <;> simp
  | enum => simp
  | field => simp
  | other => simp

theorem isMatch_undotted {n : Str} (hn : '.' ∉ n) (d : Decl) :
    isMatch n d = true ↔ LastComponent n d.fullName := by
  have hb : baseName n = n := by unfold baseName; rw [lastIndexChar_none _ _ hn]
  unfold isMatch
  rw [hb]
  split
  · rename_i h
    rw [if_neg (by simpa using hn)]
    simp only [h, decide_true]
    exact ⟨fun _ => (name_iff _ _).mp h, fun _ => trivial⟩
  · rename_i h
    exact ⟨fun h => (by cases h), fun h' => absurd (name_of_last h') h⟩

theorem parent_append {a b : Str} (hb : '.' ∉ b) : Completion.parent (a ++ '.' :: b) = a := by
  unfold Completion.parent; rw [lastIndexChar_append _ _ _ hb]; simp

theorem isMatch_dotted {p n : Str} (hn : '.' ∉ n) (d : Decl) :
    isMatch (p ++ '.' :: n) d = true ↔
      LastComponent n d.fullName ∧ p <:+ Completion.parent d.fullName := by
  have hb : baseName (p ++ '.' :: n) = n := by
    rw [baseName_eq]; exact name_of_last ⟨hn, .inr ⟨p, rfl⟩⟩
  have hd : (p ++ '.' :: n).contains '.' = true := by simp
  unfold isMatch
  rw [hb, if_pos hd, parent_append hn]
  split
  · rename_i h
    rw [List.isSuffixOf_iff_suffix]
    exact ⟨fun h' => ⟨(name_iff _ _).mp h, h'⟩, fun h' => h'.2⟩
  · rename_i h
    exact ⟨fun h => (by cases h), fun h' => absurd (name_of_last h'.1) h⟩

theorem join_snoc (ps : List Str) (n : Str) (h : ps ≠ []) :
    joinWith '.' (ps ++ [n]) = joinWith '.' ps ++ '.' :: n := by
  induction ps with
  | nil => exact absurd rfl h
  | cons x t ih =>
    cases t with
    | nil => simp [joinWith]
    | cons y t =>
      rw [List.cons_append, joinWith_cons _ _ _ (by simp), ih (by simp),
        joinWith_cons _ x (y :: t) (by simp)]
      simp

end Verif.QuickFix
