import Verif.Model.PrintWriter
/-!
# Properties of the writer of the descriptor printer: C33
-/
namespace Verif.PrintWriter

/-- Specification: `Drops a b`: `b` is `a` without some blanks, each of which is followed by `;` or `,`
or is the end of the text. -/
inductive Drops : Str → Str → Prop where
  | nil : Drops [] []
  | keep (c : Char) {a b : Str} : Drops a b → Drops (c :: a) (c :: b)
  | drop {a b : Str} : (a = [] ∨ a.head? = some ';' ∨ a.head? = some ',') → Drops a b → Drops (' ' :: a) b

/-- The same without dropping at the end. -/
inductive Mid : Str → Str → Prop where
  | nil : Mid [] []
  | keep (c : Char) {a b : Str} : Mid a b → Mid (c :: a) (c :: b)
  | drop (c : Char) {a b : Str} : (c = ';' ∨ c = ',') → Mid (c :: a) b → Mid (' ' :: c :: a) b

theorem Mid.refl (a : Str) : Mid a a := by
  induction a with
  | nil => exact .nil
  | cons c a ih => exact .keep c ih

theorem Mid.append {a b a' b' : Str} (h : Mid a b) (h' : Mid a' b') : Mid (a ++ a') (b ++ b') := by
  induction h with
  | nil => exact h'
  | keep c _ ih => exact .keep c ih
  | drop c hc _ ih => exact .drop c hc ih

theorem Mid.drops {a b : Str} (h : Mid a b) : Drops a b := by
  induction h with
  | nil => exact .nil
  | keep c _ ih => exact .keep c ih
  | drop c hc _ ih =>
    refine .drop (.inr ?_) ih
    rcases hc with rfl | rfl
    · exact .inl rfl
    · exact .inr rfl

theorem Mid.drops_end {a b : Str} (h : Mid a b) : Drops (a ++ [' ']) b := by
  induction h with
  | nil => exact .drop (.inl rfl) .nil
  | keep c _ ih => exact .keep c ih
  | drop c hc _ ih =>
    refine .drop (.inr ?_) ih
    rcases hc with rfl | rfl
    · exact .inl rfl
    · exact .inr rfl

/-- The blank that is pending. -/
def pend (w : Writer) : Str := if w.space then [' '] else []

theorem write_step (w : Writer) (body p : Str) (h : Mid body w.out) :
    ∃ body', body ++ pend w ++ p = body' ++ pend (write w p).1 ∧ Mid body' (write w p).1.out := by
  match p with
  | [] => exact ⟨body, by simp [write], h⟩
  | c :: p' =>
    generalize hq : (if decide ((c :: p').getLast? = some ' ') = true then (c :: p').dropLast else c :: p') = q
    have hout : (write w (c :: p')).1.out = w.out ++ pendingBlank w.space c ++ q := by
      simp only [write, hq]
    have hspace : (write w (c :: p')).1.space = decide ((c :: p').getLast? = some ' ') := rfl
    have hpq : c :: p' = q ++ pend (write w (c :: p')).1 := by
      unfold pend
      rw [hspace, ← hq]
      by_cases hl : (c :: p').getLast? = some ' '
      · rw [if_pos (by simpa using hl), if_pos (by simpa using hl)]
        obtain ⟨l, hl⟩ := List.getLast?_eq_some_iff.1 hl
        rw [hl, List.dropLast_concat]
      · rw [if_neg (by simpa using hl), if_neg (by simpa using hl), List.append_nil]
    refine ⟨body ++ pend w ++ q, ?_, ?_⟩
    · rw [List.append_assoc (body ++ pend w), ← hpq]
    · rw [hout, List.append_assoc, List.append_assoc]
      refine h.append ?_
      unfold pend pendingBlank
      by_cases hs : w.space = true
      · rw [if_pos hs, if_pos hs]
        by_cases hc : c ≠ ';' ∧ c ≠ ','
        · rw [if_pos hc]
          exact Mid.refl _
        · rw [if_neg hc]
          have hc : c = ';' ∨ c = ',' := by
            by_cases h1 : c = ';'
            · exact .inl h1
            · by_cases h2 : c = ','
              · exact .inr h2
              · exact absurd ⟨h1, h2⟩ hc
          match q with
          | [] =>
            rw [List.nil_append] at hpq
            unfold pend at hpq
            split at hpq
            · have := (List.cons.inj hpq).1
              rcases hc with h | h <;> rw [h] at this <;> exact absurd this (by decide)
            · cases hpq
          | d :: q' =>
            have : c = d := (List.cons.inj hpq).1
            subst this
            exact .drop c hc (Mid.refl _)
      · rw [if_neg hs, if_neg hs]
        exact Mid.refl _

theorem writeAll_inv (ps : List Str) (w : Writer) (body : Str) (h : Mid body w.out) :
    ∃ body', body ++ pend w ++ ps.flatten = body' ++ pend (ps.foldl (fun w p => (write w p).1) w) ∧
      Mid body' (ps.foldl (fun w p => (write w p).1) w).out := by
  induction ps generalizing w body with
  | nil => exact ⟨body, by simp, h⟩
  | cons p ps ih =>
    obtain ⟨b1, h1, h2⟩ := write_step w body p h
    obtain ⟨b2, h3, h4⟩ := ih (write w p).1 b1 h2
    refine ⟨b2, ?_, h4⟩
    rw [List.flatten_cons, ← List.append_assoc, h1, h3]
    rfl

/-- **C33**: for every sequence of writes the printed text is the concatenation of the texts, except
for blanks directly before `;` or `,` and possibly one blank at the end. -/
theorem C33_text (ps : List Str) : Drops ps.flatten (writeAll ps).out := by
  obtain ⟨b, h1, h2⟩ := writeAll_inv ps {} [] .nil
  have h1 : ps.flatten = b ++ pend (writeAll ps) := h1
  have h2 : Mid b (writeAll ps).out := h2
  rw [h1]
  unfold pend
  split
  · exact h2.drops_end
  · rw [List.append_nil]
    exact h2.drops

/-- **C33** (part): nothing but blanks is dropped: without blanks, both texts are the same. -/
theorem C33_no_blanks (ps : List Str) :
    (writeAll ps).out.filter (fun c => decide (c ≠ ' ')) = ps.flatten.filter (fun c => decide (c ≠ ' ')) := by
  have h := C33_text ps
  generalize ps.flatten = a at h
  generalize (writeAll ps).out = b at h
  induction h with
  | nil => rfl
  | keep c _ ih => rw [List.filter_cons, List.filter_cons, ih]
  | drop _ _ ih => rw [ih, List.filter_cons_of_neg (by decide)]

/-- **C33** (part): every write reports the full length, as `io.Writer` requires. -/
theorem C33_length (w : Writer) (p : Str) : (write w p).2 = p.length := by
  match p with
  | [] => rfl
  | c :: p' =>
    simp only [write]
    by_cases hl : (c :: p').getLast? = some ' '
    · simp only [hl, decide_true, if_true, List.length_dropLast, List.length_cons]
      omega
    · simp only [hl, decide_false, Bool.false_eq_true, if_false, Nat.add_zero]

/-- **C33** (part): the writer only believes to be at the start of a line if it is. -/
theorem C33_newline (ps : List Str) (h : (writeAll ps).newline = true) :
    (writeAll ps).out = [] ∨ (writeAll ps).out.getLast? = some '\n' := by
  have key : ∀ (w : Writer), (w.newline = true → w.out = [] ∨ w.out.getLast? = some '\n') → ∀ p,
      (write w p).1.newline = true → (write w p).1.out = [] ∨ (write w p).1.out.getLast? = some '\n' := by
    intro w hw p hn
    match p with
    | [] => exact hw hn
    | c :: p' =>
      simp only [write, decide_eq_true_eq] at hn ⊢
      right
      rw [List.getLast?_append, hn]
      rfl
  unfold writeAll at h ⊢
  have : ∀ (ps : List Str) (w : Writer), (w.newline = true → w.out = [] ∨ w.out.getLast? = some '\n') →
      (ps.foldl (fun w p => (write w p).1) w).newline = true →
      (ps.foldl (fun w p => (write w p).1) w).out = [] ∨
      (ps.foldl (fun w p => (write w p).1) w).out.getLast? = some '\n' := by
    intro ps
    induction ps with
    | nil => exact fun w hw => hw
    | cons p ps ih => exact fun w hw => ih _ (key w hw p)
  exact this ps {} (fun _ => .inl rfl) h

example : (writeAll [['a', ' '], [';'], ['b', ' '], [' '], ['c', ' ']]).out = ['a', ';', 'b', ' ', ' ', 'c'] := by
  decide

end Verif.PrintWriter
