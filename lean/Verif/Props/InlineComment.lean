import Verif.Model.InlineComment
import Verif.Lemmas.Comment
/-!
# Properties of comments written in-line: C44
-/
namespace Verif.InlineComment
open Verif.FormatWriter Verif.Comment

theorem not_mem_trimSpace {c : Char} {s : Str} (h : c ∉ s) : c ∉ trimSpace s := by
  intro hc
  obtain ⟨w, w', h1, _⟩ := trimSpace_split s
  exact h (by rw [h1]; simp [hc])

theorem not_mem_join {c sep : Char} {ls : List Str} (hc : c ≠ sep) (h : ∀ l ∈ ls, c ∉ l) : c ∉ joinWith sep ls := by
  induction ls with
  | nil => simp [joinWith]
  | cons l ls ih =>
    cases ls with
    | nil => simpa [joinWith] using h l (by simp)
    | cons m ms =>
      rw [joinWith_cons _ _ _ (by simp)]
      simp only [List.mem_append, List.mem_cons, not_or]
      exact ⟨h l (by simp), hc, ih (fun l hl => h l (List.mem_cons_of_mem _ hl))⟩

/-- **C44** (part): a block comment stays exactly one block comment, on one line, and only its white
space is changed. -/
theorem C44_block (text : Str) (h : IsBlock text) :
    IsBlock (inlineText text) ∧ '\n' ∉ inlineText text ∧ Respaced text (inlineText text) := by
  have hpre : ['/', '/'].isPrefixOf text = false := by
    obtain ⟨r, rfl, _⟩ := h
    rfl
  have hres : Respaced text (inlineText text) := by
    have htr := block_trimmed text h
    unfold inlineText
    rw [hpre, if_neg (by simp)]
    have hj := join_splitOn '\n' text
    cases hls : splitOn '\n' text with
    | nil => exact absurd hls (splitOn_ne_nil _ _)
    | cons l ls =>
      rw [hls] at hj
      cases ls with
      | nil =>
        simp only [joinWith] at hj
        simp only [List.map_cons, List.map_nil, joinWith]
        rw [hj, trimSpace_of_trimmed htr]
        exact respaced_refl text
      | cons m ms =>
        rw [joinWith_cons _ _ _ (by simp)] at hj
        obtain ⟨v, v', h1, h2, h3, h4⟩ := trimSpace_split l
        have hl : l ≠ [] := by
          rintro rfl
          have := htr.first '\n' (by rw [← hj]; rfl)
          revert this
          decide
        have hv : v = [] := by
          cases v with
          | nil => rfl
          | cons x v =>
            exfalso
            have hx := htr.first x (by rw [← hj, h1]; rfl)
            rw [h2 x (by simp)] at hx
            cases hx
        rw [hv, List.nil_append] at h1
        rw [List.map_cons, joinWith_cons _ _ _ (by simp)]
        have e1 : text = trimSpace l ++ ((v' ++ ['\n']) ++ joinWith '\n' (m :: ms)) := by
          rw [← hj]
          conv => lhs; rw [h1]
          simp
        conv => lhs; rw [e1]
        have e2 : ∀ x : Str, ' ' :: x = [' '] ++ x := fun _ => rfl
        rw [e2]
        refine respaced_append _ _ _ (respaced_lines (m :: ms) (by simp) ?_ _ _ (by simp) (by simp) ?_ ?_)
        · intro k hk c hc
          refine htr.last c ?_
          -- the last line is a suffix of the text
          have key : ∀ (ls : List Str) (k : Str) (c : Char), ls.getLast? = some k → k.getLast? = some c →
              (joinWith '\n' ls).getLast? = some c := by
            intro ls
            induction ls with
            | nil => intro k c hk; cases hk
            | cons x xs ih =>
              intro k c hk hc
              cases xs with
              | nil => cases hk; simpa [joinWith] using hc
              | cons y ys =>
                rw [List.getLast?_cons_cons] at hk
                rw [joinWith_cons _ _ _ (by simp), List.getLast?_append, List.getLast?_cons, ih k c hk hc]
                rfl
          rw [← hj, List.getLast?_append, List.getLast?_cons, key _ k c hk hc]
          rfl
        · refine blank_append h3 ?_
          intro c hc
          rw [List.mem_singleton.1 hc]
          decide
        · intro c hc
          rw [List.mem_singleton.1 hc]
          decide
  refine ⟨block_respaced hres h, ?_, hres⟩
  unfold inlineText
  rw [hpre, if_neg (by simp)]
  refine not_mem_join (by decide) ?_
  intro l hl
  obtain ⟨k, hk, rfl⟩ := List.mem_map.1 hl
  exact not_mem_trimSpace (splitOn_no_sep '\n' text k hk)

theorem closes_append (x : Char) (hx : isSpace x = true) (s : Str) : ∀ t, closes (s ++ x :: t) =
    match closes s with
    | some r => some (r ++ x :: t)
    | none => closes t := by
  have hx1 : x ≠ '*' := space_ne hx (by decide)
  have hx2 : x ≠ '/' := space_ne hx (by decide)
  induction s with
  | nil => intro t; exact closes_cons _ _ hx1
  | cons c s ih =>
    intro t
    cases s with
    | nil =>
      show closes (c :: x :: t) = closes t
      simp only [closes]
      rw [if_neg (by simp [hx2])]
      exact closes_cons _ _ hx1
    | cons d s =>
      have := ih t
      simp only [List.cons_append, closes] at this ⊢
      split
      · rfl
      · exact this

theorem closes_none_iff (s : Str) : closes s = none ↔ ¬ ['*', '/'] <:+: s := by
  constructor
  · rintro h ⟨a, b, rfl⟩
    induction a with
    | nil => simp [closes] at h
    | cons c a ih =>
      cases ha : a ++ ['*', '/'] ++ b with
      | nil => simp at ha
      | cons d t =>
        rw [List.cons_append, List.cons_append, ha] at h
        simp only [closes] at h
        split at h
        · cases h
        · exact ih (by rw [ha]; exact h)
  · intro h
    cases hc : closes s with
    | none => rfl
    | some r =>
      obtain ⟨p, rfl⟩ := closes_last s r hc
      exact absurd ⟨p, r, by simp⟩ h

theorem infix_trim (s : Str) : ['*', '/'] <:+: trimSpace s ↔ ['*', '/'] <:+: s := by
  obtain ⟨w, w', h1, h2, h3, _⟩ := trimSpace_split s
  constructor
  · rintro ⟨a, b, hab⟩
    exact ⟨w ++ a, b ++ w', by conv => rhs; rw [h1, ← hab]
                               simp⟩
  · intro h
    refine Classical.byContradiction fun hn => ?_
    refine absurd h ((closes_none_iff s).1 ?_)
    have hn := (closes_none_iff _).2 hn
    rw [h1, List.append_assoc, closes_blank _ _ h2]
    cases w' with
    | nil => rw [List.append_nil]; exact hn
    | cons x w' =>
      rw [closes_append x (h3 x (by simp)), hn]
      have := closes_blank w' [] (fun c hc => h3 c (List.mem_cons_of_mem _ hc))
      rw [List.append_nil] at this
      exact this

/-- **C44** (part): a line comment becomes exactly one block comment, with the same text up to white
space at its ends, if and only if it does not contain the end of a block comment. -/
theorem C44_line (r : Str) :
    (IsBlock (inlineText ('/' :: '/' :: r)) ↔ ¬ ['*', '/'] <:+: r) ∧
    ∃ w w', Blank w ∧ Blank w' ∧ inlineText ('/' :: '/' :: r) = ['/', '*', ' '] ++ trimSpace r ++ [' ', '*', '/'] ∧
      r = w ++ trimSpace r ++ w' := by
  have he : inlineText ('/' :: '/' :: r) = ['/', '*', ' '] ++ trimSpace r ++ [' ', '*', '/'] := by
    unfold inlineText
    rw [if_pos (by rfl)]
    rfl
  constructor
  · rw [he, ← infix_trim, ← closes_none_iff]
    have hc : closes (' ' :: (trimSpace r ++ [' ', '*', '/'])) =
        match closes (trimSpace r) with
        | some q => some (q ++ [' ', '*', '/'])
        | none => some [] := by
      rw [closes_cons _ _ (by decide), closes_append ' ' (by decide)]
      rfl
    constructor
    · rintro ⟨q, hq, hq'⟩
      simp only [List.cons_append, List.nil_append, List.cons.injEq, true_and] at hq
      subst hq
      rw [hc] at hq'
      cases hx : closes (trimSpace r) with
      | none => rfl
      | some q =>
        rw [hx] at hq'
        simp at hq'
    · intro hn
      refine ⟨_, rfl, ?_⟩
      show closes (' ' :: (trimSpace r ++ [' ', '*', '/'])) = some []
      rw [hc, hn]
  · obtain ⟨w, w', h1, h2, h3, _⟩ := trimSpace_split r
    exact ⟨w, w', h2, h3, he, h1⟩

/-- **C44** (partial): a line comment that does not contain the end of a block comment is turned into
exactly one block comment, on one line. Missing: line comments with `*/`, for which the property fails
(`C44_violated`). -/
theorem C44_line_partial (r : Str) (h : ¬ ['*', '/'] <:+: r) (hn : '\n' ∉ r) :
    IsBlock (inlineText ('/' :: '/' :: r)) ∧ '\n' ∉ inlineText ('/' :: '/' :: r) := by
  obtain ⟨h1, w, w', _, _, he, _⟩ := C44_line r
  refine ⟨h1.2 h, ?_⟩
  rw [he]
  have := not_mem_trimSpace hn
  simp [this]

example : IsBlock (inlineText "// a".toList) ∧ inlineText "// a".toList = "/* a */".toList ∧
    inlineText "/* a\n   b */".toList = "/* a b */".toList ∧ IsBlock "/* a\n   b */".toList :=
  ⟨⟨" a */".toList, by decide, by decide⟩, by decide, by decide, ⟨" a\n   b */".toList, by decide, by decide⟩⟩

/-- The code violates C44: the rest of a line comment that contains the end of a block comment becomes
code. -/
theorem C44_violated : inlineText "// a */ b".toList = "/* a */ b */".toList ∧
    closes (("/* a */ b */".toList).drop 2) = some " b */".toList := by decide

/-- **C44** (part): all comments that are not virtual are written, in order; nothing else is. -/
theorem C44_all (cs : List Comment) (st : St) :
    ∃ seps : List Str, seps.length = (cs.filter (fun c => !c.virtual)).length ∧ (∀ s ∈ seps, s = [] ∨ s = [' ']) ∧
      (writeInlineComments st cs).out = st.out ++
        (List.zipWith (fun s (c : Comment) => s ++ inlineText c.text) seps (cs.filter (fun c => !c.virtual))).flatten := by
  unfold writeInlineComments
  generalize 0 = i
  induction cs generalizing i st with
  | nil => exact ⟨[], rfl, (by intro s hs; cases hs), by simp [writeLoop]⟩
  | cons c cs ih =>
    unfold writeLoop
    by_cases hv : c.virtual = true
    · have : writeOne i st c = st := by unfold writeOne; rw [if_pos hv]
      rw [this]
      obtain ⟨seps, h1, h2, h3⟩ := ih st (i + 1)
      refine ⟨seps, ?_, h2, ?_⟩
      · simpa [hv] using h1
      · simpa [hv] using h3
    · obtain ⟨sep, hsep, hout⟩ : ∃ sep : Str, (sep = [] ∨ sep = [' ']) ∧
          (writeOne i st c).out = st.out ++ (sep ++ inlineText c.text) := by
        unfold writeOne
        rw [if_neg hv]
        have hsp : ∀ (s : St) (e : Str), spaceFor s e = [] ∨ spaceFor s e = [' '] := by
          intro s e
          unfold spaceFor
          split
          · exact .inr rfl
          · exact .inl rfl
        by_cases hc : i > 0 ∨ c.leadingWhitespace ≠ [] ∨ st.last = ';' ∨ st.last = '}'
        · simp only [if_pos hc]
          exact ⟨_, hsp (space st) (inlineText c.text), List.append_assoc _ _ _⟩
        · simp only [if_neg hc]
          exact ⟨_, hsp st (inlineText c.text), List.append_assoc _ _ _⟩
      obtain ⟨seps, h1, h2, h3⟩ := ih (writeOne i st c) (i + 1)
      refine ⟨sep :: seps, ?_, ?_, ?_⟩
      · simp [hv, h1]
      · intro s hs
        rcases List.mem_cons.1 hs with rfl | hs
        · exact hsep
        · exact h2 s hs
      · rw [h3, hout]
        simp [hv]

end Verif.InlineComment
