import Verif.Spec.Driver
/-!
# Lemmas about the driver
-/
namespace Verif.Driver

open Documents (Res)

theorem linesOf_cons (c : Char) (t : Str) : linesOf (c :: t) =
    if c = '\n' then [] :: linesOf t else match linesOf t with
      | [] => [[c]]
      | w :: ws => (c :: w) :: ws := rfl

theorem linesOf_ne (s : Str) : linesOf s ≠ [] := splitOn_ne_nil _ _

/-- Where a line lies; the line that follows begins after the line feed. -/
theorem lineOff_line (content : Str) : ∀ (l : Nat) (line next : Str), (linesOf content)[l]? = some line →
    (linesOf content)[l + 1]? = some next →
    ∃ a, lineOff content l = some a ∧ lineOff content (l + 1) = some (a + line.length + 1) ∧
      (content.take (a + line.length)).drop a = line := by
  induction content with
  | nil => intro l line next h1 h2; simp [linesOf, splitOn] at h2
  | cons c t ih =>
    intro l line next h1 h2
    rw [linesOf_cons] at h1 h2
    by_cases hc : c = '\n'
    · rw [if_pos hc] at h1 h2
      cases l with
      | zero =>
        simp only [List.getElem?_cons_zero, Option.some.injEq] at h1
        subst h1
        exact ⟨0, rfl, by simp [lineOff, hc], by simp⟩
      | succ l =>
        simp only [List.getElem?_cons_succ] at h1 h2
        obtain ⟨a, e1, e2, e3⟩ := ih l line next h1 h2
        refine ⟨a + 1, by simp [lineOff, hc, e1], by simp [lineOff, hc, e2]; omega, ?_⟩
        rw [show a + 1 + line.length = a + line.length + 1 by omega, List.take_succ_cons, List.drop_succ_cons]
        exact e3
    · rw [if_neg hc] at h1 h2
      cases hl : linesOf t with
      | nil => exact absurd hl (linesOf_ne t)
      | cons w ws =>
        rw [hl] at h1 h2
        cases l with
        | zero =>
          simp only [List.getElem?_cons_zero, Option.some.injEq] at h1
          subst h1
          simp only [List.getElem?_cons_succ] at h2
          obtain ⟨a, e1, e2, e3⟩ := ih 0 w next (by rw [hl]; rfl) (by rw [hl]; exact h2)
          simp only [lineOff, Option.some.injEq] at e1
          subst e1
          refine ⟨0, rfl, by simp only [lineOff, if_neg hc]; rw [e2]; simp, ?_⟩
          simp only [Nat.zero_add, List.drop_zero] at e3
          simp [e3]
        | succ l =>
          simp only [List.getElem?_cons_succ] at h1 h2
          obtain ⟨a, e1, e2, e3⟩ := ih (l + 1) line next (by rw [hl]; exact h1) (by rw [hl]; exact h2)
          refine ⟨a + 1, by simp [lineOff, hc, e1], by simp [lineOff, hc, e2]; omega, ?_⟩
          rw [show a + 1 + line.length = a + line.length + 1 by omega, List.take_succ_cons, List.drop_succ_cons]
          exact e3

/-- The last line reaches to the end of the text. -/
theorem lineOff_last (content : Str) : ∀ (l : Nat) (line : Str), (linesOf content)[l]? = some line →
    (linesOf content)[l + 1]? = none →
    ∃ a, lineOff content l = some a ∧ lineOff content (l + 1) = some (a + line.length) ∧ content.drop a = line := by
  induction content with
  | nil =>
    intro l line h1 h2
    cases l with
    | zero =>
      simp only [linesOf, splitOn, List.getElem?_cons_zero, Option.some.injEq] at h1
      subst h1
      exact ⟨0, rfl, rfl, rfl⟩
    | succ l => simp [linesOf, splitOn] at h1
  | cons c t ih =>
    intro l line h1 h2
    rw [linesOf_cons] at h1 h2
    by_cases hc : c = '\n'
    · rw [if_pos hc] at h1 h2
      cases l with
      | zero =>
        simp only [List.getElem?_cons_succ, List.getElem?_eq_none_iff] at h2
        exact absurd (List.length_eq_zero_iff.1 (Nat.le_zero.1 h2)) (linesOf_ne t)
      | succ l =>
        simp only [List.getElem?_cons_succ] at h1 h2
        obtain ⟨a, e1, e2, e3⟩ := ih l line h1 h2
        exact ⟨a + 1, by simp [lineOff, hc, e1], by simp [lineOff, hc, e2]; omega, by simpa using e3⟩
    · rw [if_neg hc] at h1 h2
      cases hl : linesOf t with
      | nil => exact absurd hl (linesOf_ne t)
      | cons w ws =>
        rw [hl] at h1 h2
        cases l with
        | zero =>
          simp only [List.getElem?_cons_zero, Option.some.injEq] at h1
          subst h1
          simp only [List.getElem?_cons_succ] at h2
          obtain ⟨a, e1, e2, e3⟩ := ih 0 w (by rw [hl]; rfl) (by rw [hl]; exact h2)
          simp only [lineOff, Option.some.injEq] at e1
          subst e1
          refine ⟨0, rfl, by simp only [lineOff, if_neg hc]; rw [e2]; simp, ?_⟩
          simp only [List.drop_zero] at e3 ⊢
          rw [e3]
        | succ l =>
          simp only [List.getElem?_cons_succ] at h1 h2
          obtain ⟨a, e1, e2, e3⟩ := ih (l + 1) line (by rw [hl]; exact h1) (by rw [hl]; exact h2)
          exact ⟨a + 1, by simp [lineOff, hc, e1], by simp [lineOff, hc, e2]; omega, by simpa using e3⟩

/-- The parts of the context make up the line. -/
theorem context_parts {content : Str} {a s e : Nat} {line : Str} (h : (content.take (a + line.length)).drop a = line) :
    ∃ x y z, context content a (a + line.length + 1) s e = .ok (x, y, z) ∧ x ++ y ++ z = line ∧
      (s ≤ e → e ≤ line.length → x.length = s ∧ x.length + y.length = e) := by
  unfold context
  rw [if_neg (by omega)]
  simp only [Nat.add_sub_cancel, h]
  split
  · rename_i hc
    refine ⟨[], line, [], rfl, by simp, fun h1 h2 => ?_⟩
    simp only [Bool.or_eq_true, decide_eq_true_eq] at hc
    omega
  · rename_i hc
    simp only [Bool.or_eq_true, decide_eq_true_eq, not_or, Nat.not_lt] at hc
    obtain ⟨⟨h1, h2⟩, h3⟩ := hc
    refine ⟨_, _, _, rfl, ?_, fun _ _ => ?_⟩
    · have e1 : (line.drop s).drop (e - s) = line.drop e := by rw [List.drop_drop]; congr 1; omega
      rw [← e1, List.append_assoc, List.take_append_drop, List.take_append_drop]
    · simp only [List.length_take, List.length_drop]
      omega

/-- The message of a diagnostic in one line, not the last one. -/
theorem message_inside {file content : Str} {d : Diag} (hs : d.startLine = d.endLine)
    (hl : d.startLine + 1 < (linesOf content).length) :
    ∃ m line, (linesOf content)[d.startLine]? = some line ∧ message file content d = .ok (some m) ∧ Reports file line d m := by
  obtain ⟨a, e1, e2, e3⟩ := lineOff_line content d.startLine _ _ (List.getElem?_eq_getElem (by omega)) (List.getElem?_eq_getElem hl)
  unfold message
  rw [if_neg (by simpa using hs), ← hs, e1, e2]
  simp only []
  split
  · rename_i hc
    obtain ⟨x, y, z, e4, e5, e6⟩ := context_parts (s := d.startChar) (e := d.endChar) e3
    rw [e4]
    refine ⟨_, _, List.getElem?_eq_getElem (by omega), rfl, ⟨rfl, rfl, rfl, rfl, fun h => ?_, fun _ => ⟨x, y, z, rfl, e5, e6⟩⟩⟩
    simp only [Bool.and_eq_true, decide_eq_true_eq, Bool.not_eq_true'] at hc
    exact absurd hc h
  · rename_i hc
    refine ⟨_, _, List.getElem?_eq_getElem (by omega), rfl, ⟨rfl, rfl, rfl, rfl, fun _ => rfl, fun h => ?_⟩⟩
    simp only [Bool.and_eq_true, decide_eq_true_eq, Bool.not_eq_true'] at hc
    exact absurd h hc

theorem message_multi {file content : Str} {d : Diag} (hs : d.startLine ≠ d.endLine) : message file content d = .ok none := by
  unfold message
  rw [if_pos hs]

theorem Each.append {α β : Type} {R : α → β → Prop} {a a' : List α} {b b' : List β} (h : Each R a b) (h' : Each R a' b') :
    Each R (a ++ a') (b ++ b') := by
  induction h with
  | nil => exact h'
  | cons h1 _ ih => exact .cons h1 ih

theorem Each.imp {α β : Type} {R S : α → β → Prop} {a : List α} {b : List β} (h : Each R a b) (hi : ∀ x y, R x y → S x y) :
    Each S a b := by
  induction h with
  | nil => exact .nil
  | cons h1 _ ih => exact .cons (hi _ _ h1) ih

theorem Each.map_left {α β γ : Type} {R : α → β → Prop} (f : γ → α) {a : List γ} {b : List β} (h : Each (fun x y => R (f x) y) a b) :
    Each R (a.map f) b := by
  induction h with
  | nil => exact .nil
  | cons h1 _ ih => exact .cons h1 ih

theorem messages_inside {file content : Str} {ds : List Diag}
    (h : ∀ d ∈ ds, d.startLine = d.endLine → d.startLine + 1 < (linesOf content).length) :
    ∃ ms, messages file content ds = .ok ms ∧
      Each (fun d m => ∃ line, (linesOf content)[d.startLine]? = some line ∧ Reports file line d m)
        (ds.filter fun d => decide (d.startLine = d.endLine)) ms := by
  induction ds with
  | nil => exact ⟨[], rfl, .nil⟩
  | cons d ds ih =>
    obtain ⟨ms, e1, e2⟩ := ih fun d' hd' => h d' (by simp [hd'])
    unfold messages
    by_cases hs : d.startLine = d.endLine
    · obtain ⟨m, line, h1, h2, h3⟩ := message_inside (file := file) hs (h d (by simp) hs)
      rw [h2, e1, List.filter_cons_of_pos (by simpa using hs)]
      exact ⟨m :: ms, rfl, .cons ⟨line, h1, h3⟩ e2⟩
    · rw [message_multi hs, e1, List.filter_cons_of_neg (by simpa using hs)]
      exact ⟨ms, rfl, e2⟩

theorem allMessages_inside {sources : List Source} (hc : ∀ f ∈ sources, f.content ≠ none)
    (h : ∀ f ∈ sources, ∀ d ∈ f.diags, d.startLine = d.endLine → Inside f d) :
    ∃ ms, allMessages sources = .ok ms ∧
      Each (fun p m => ∃ content line, p.1.content = some content ∧ (linesOf content)[p.2.startLine]? = some line ∧
        Reports p.1.file line p.2 m) ((pairs sources).filter fun p => decide (p.2.startLine = p.2.endLine)) ms := by
  induction sources with
  | nil => exact ⟨[], rfl, .nil⟩
  | cons f fs ih =>
    obtain ⟨ms, e1, e2⟩ := ih (fun g hg => hc g (by simp [hg])) fun g hg => h g (by simp [hg])
    unfold allMessages
    cases hf : f.content with
    | none => exact absurd hf (hc f (by simp))
    | some content =>
      simp only []
      obtain ⟨ms', e3, e4⟩ := messages_inside (file := f.file) (content := content) (ds := f.diags) (by
        intro d hd hs
        obtain ⟨c, h1, h2⟩ := h f (by simp) d hd hs
        rw [hf] at h1
        cases h1
        exact h2)
      rw [e3, e1]
      refine ⟨ms' ++ ms, rfl, ?_⟩
      have hp : pairs (f :: fs) = f.diags.map (fun d => (f, d)) ++ pairs fs := by simp [pairs]
      rw [hp, List.filter_append]
      refine Each.append ?_ e2
      rw [List.filter_map]
      refine Each.map_left _ (e4.imp ?_)
      rintro d m ⟨line, h1, h2⟩
      exact ⟨content, line, hf, h1, h2⟩

theorem rel_some {ws p r : List Str} : rel ws p = some r ↔ p = ws ++ r := by
  induction ws generalizing p with
  | nil => simp [rel, eq_comm]
  | cons b bs ih =>
    cases p with
    | nil => simp [rel]
    | cons c cs =>
      unfold rel
      by_cases h : b = c
      · subst h; simp [ih]
      · simp [h, Ne.symm h]

end Verif.Driver
