import Verif.Util.Str
/-!
`strings.TrimSpace` and `strings.TrimRightFunc(unicode.IsSpace)` on lists of characters.
-/
namespace Verif

def trimLeft (s : Str) : Str := s.dropWhile isSpace
def trimRight (s : Str) : Str := (s.reverse.dropWhile isSpace).reverse
/-- `strings.TrimSpace`. -/
def trimSpace (s : Str) : Str := trimRight (trimLeft s)

/-- Only white space. -/
def Blank (s : Str) : Prop := ∀ c ∈ s, isSpace c = true

theorem blank_nil : Blank [] := fun c hc => by cases hc
theorem blank_append {a b : Str} (ha : Blank a) (hb : Blank b) : Blank (a ++ b) := by
  intro c hc
  rcases List.mem_append.1 hc with h | h
  · exact ha c h
  · exact hb c h

theorem dropWhile_split (p : Char → Bool) (s : Str) :
    ∃ w, s = w ++ s.dropWhile p ∧ (∀ c ∈ w, p c = true) ∧ ∀ c, (s.dropWhile p).head? = some c → p c = false := by
  induction s with
  | nil => exact ⟨[], rfl, (by intro c hc; cases hc), (by intro c hc; cases hc)⟩
  | cons d t ih =>
    by_cases h : p d = true
    · obtain ⟨w, h1, h2, h3⟩ := ih
      refine ⟨d :: w, ?_, ?_, ?_⟩
      · rw [List.dropWhile_cons_of_pos h, List.cons_append, ← h1]
      · intro c hc
        rcases List.mem_cons.1 hc with rfl | hc
        · exact h
        · exact h2 c hc
      · rw [List.dropWhile_cons_of_pos h]; exact h3
    · refine ⟨[], ?_, (by intro c hc; cases hc), ?_⟩
      · rw [List.dropWhile_cons_of_neg h]; rfl
      · rw [List.dropWhile_cons_of_neg h]
        intro c hc
        cases hc
        exact Bool.eq_false_iff.2 h

theorem trimLeft_split (s : Str) : ∃ w, s = w ++ trimLeft s ∧ Blank w ∧ ∀ c, (trimLeft s).head? = some c → isSpace c = false :=
  dropWhile_split isSpace s

theorem trimRight_split (s : Str) : ∃ w, s = trimRight s ++ w ∧ Blank w ∧ ∀ c, (trimRight s).getLast? = some c → isSpace c = false := by
  obtain ⟨w, h1, h2, h3⟩ := dropWhile_split isSpace s.reverse
  refine ⟨w.reverse, ?_, fun c hc => h2 c (List.mem_reverse.1 hc), ?_⟩
  · unfold trimRight
    rw [← List.reverse_append, ← h1, List.reverse_reverse]
  · intro c hc
    unfold trimRight at hc
    rw [List.getLast?_reverse] at hc
    exact h3 c hc

/-- A trimmed text starts and ends with a character that is not white space. -/
structure Trimmed (s : Str) : Prop where
  first : ∀ c, s.head? = some c → isSpace c = false
  last : ∀ c, s.getLast? = some c → isSpace c = false

theorem trimmed_nil : Trimmed [] := ⟨(by intro c hc; cases hc), (by intro c hc; cases hc)⟩

/-- A text that is trimmed except for its start, which is not removed by trimming the end. -/
theorem head_of_append_blank {a w : Str} {c : Char} (h : a.head? = some c) : (a ++ w).head? = some c := by
  cases a with
  | nil => cases h
  | cons d t => exact h

theorem trimSpace_split (s : Str) : ∃ w w', s = w ++ trimSpace s ++ w' ∧ Blank w ∧ Blank w' ∧ Trimmed (trimSpace s) := by
  obtain ⟨w, h1, h2, h3⟩ := trimLeft_split s
  obtain ⟨w', h4, h5, h6⟩ := trimRight_split (trimLeft s)
  refine ⟨w, w', ?_, h2, h5, ⟨?_, h6⟩⟩
  · unfold trimSpace
    rw [List.append_assoc, ← h4]
    exact h1
  · intro c hc
    refine h3 c ?_
    rw [h4]
    exact head_of_append_blank hc

theorem dropWhile_blank_append {p : Char → Bool} (w s : Str) (hw : ∀ c ∈ w, p c = true) :
    (w ++ s).dropWhile p = s.dropWhile p := by
  induction w with
  | nil => rfl
  | cons d t ih =>
    rw [List.cons_append, List.dropWhile_cons_of_pos (hw d List.mem_cons_self),
      ih (fun c hc => hw c (List.mem_cons_of_mem _ hc))]

theorem dropWhile_of_head {p : Char → Bool} (s : Str) (h : ∀ c, s.head? = some c → p c = false) : s.dropWhile p = s := by
  cases s with
  | nil => rfl
  | cons d t => rw [List.dropWhile_cons_of_neg (by rw [h d rfl]; simp)]

theorem dropWhile_all {p : Char → Bool} (w : Str) (hw : ∀ c ∈ w, p c = true) : w.dropWhile p = [] := by
  have := dropWhile_blank_append w [] hw
  simpa using this

/-- Trimming is determined by the trimmed text. -/
theorem trimSpace_unique {w s w' : Str} (hw : Blank w) (hw' : Blank w') (hs : Trimmed s) :
    trimSpace (w ++ s ++ w') = s := by
  unfold trimSpace trimLeft trimRight
  rw [List.append_assoc, dropWhile_blank_append _ _ hw]
  by_cases he : s = []
  · subst he
    rw [List.nil_append, dropWhile_all _ hw']
    rfl
  · have h1 : (s ++ w').dropWhile isSpace = s ++ w' := by
      refine dropWhile_of_head _ ?_
      intro c hc
      obtain ⟨d, t, rfl⟩ := List.exists_cons_of_ne_nil he
      exact hs.first c hc
    rw [h1, List.reverse_append, dropWhile_blank_append _ _ (fun c hc => hw' c (List.mem_reverse.1 hc)),
      dropWhile_of_head _ (fun c hc => hs.last c (by rw [← List.head?_reverse]; exact hc)), List.reverse_reverse]

theorem trimSpace_blank {w : Str} (hw : Blank w) : trimSpace w = [] := by
  have := trimSpace_unique hw blank_nil trimmed_nil
  simpa using this

theorem trimSpace_of_trimmed {s : Str} (hs : Trimmed s) : trimSpace s = s := by
  have := trimSpace_unique blank_nil blank_nil hs
  simpa using this

theorem trimSpace_surround {w s w' : Str} (hw : Blank w) (hw' : Blank w') : trimSpace (w ++ s ++ w') = trimSpace s := by
  obtain ⟨v, v', h1, h2, h3, h4⟩ := trimSpace_split s
  have h : w ++ s ++ w' = (w ++ v) ++ trimSpace s ++ (v' ++ w') := by
    calc w ++ s ++ w' = w ++ (v ++ trimSpace s ++ v') ++ w' := by rw [← h1]
      _ = _ := by simp only [List.append_assoc]
  rw [h]
  exact trimSpace_unique (blank_append hw h2) (blank_append h3 hw') h4

theorem trimSpace_eq_nil {s : Str} : trimSpace s = [] ↔ Blank s := by
  constructor
  · intro h
    obtain ⟨v, v', h1, h2, h3, _⟩ := trimSpace_split s
    rw [h, List.append_nil] at h1
    rw [h1]
    exact blank_append h2 h3
  · exact trimSpace_blank

theorem filter_trimSpace (s : Str) : (trimSpace s).filter (fun c => !isSpace c) = s.filter (fun c => !isSpace c) := by
  obtain ⟨v, v', h1, h2, h3, _⟩ := trimSpace_split s
  have hb : ∀ w : Str, Blank w → w.filter (fun c => !isSpace c) = [] := by
    intro w hw
    rw [List.filter_eq_nil_iff]
    intro c hc
    simp [hw c hc]
  conv => rhs; rw [h1]
  rw [List.filter_append, List.filter_append, hb v h2, hb v' h3, List.nil_append, List.append_nil]

end Verif

namespace Verif

theorem trimSpace_idem (s : Str) : trimSpace (trimSpace s) = trimSpace s := by
  obtain ⟨_, _, _, _, _, h⟩ := trimSpace_split s
  exact trimSpace_of_trimmed h

theorem trimSpace_surround_left {w s : Str} (hw : Blank w) : trimSpace (w ++ s) = trimSpace s := by
  have := trimSpace_surround (s := s) hw blank_nil
  simpa using this

theorem trimSpace_surround_right {s w : Str} (hw : Blank w) : trimSpace (s ++ w) = trimSpace s := by
  have := trimSpace_surround (s := s) blank_nil hw
  simpa using this

/-- Trimming the end is determined by the rest. -/
theorem trimRight_unique {s w : Str} (hw : Blank w) (hs : ∀ c, s.getLast? = some c → isSpace c = false) :
    trimRight (s ++ w) = s := by
  unfold trimRight
  rw [List.reverse_append, dropWhile_blank_append _ _ (fun c hc => hw c (List.mem_reverse.1 hc)),
    dropWhile_of_head _ (fun c hc => hs c (by rw [← List.head?_reverse]; exact hc)), List.reverse_reverse]

theorem trimRight_of_last {s : Str} (hs : ∀ c, s.getLast? = some c → isSpace c = false) : trimRight s = s := by
  have := trimRight_unique (s := s) blank_nil hs
  simpa using this

end Verif
