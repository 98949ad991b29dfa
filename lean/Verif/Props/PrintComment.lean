import Verif.Model.PrintComment
/-!
# Properties of printed comments: C34
-/
namespace Verif.PrintComment

/-- Specification: a block comment: it ends at the first terminator after its start. -/
def BlockComment (t : Str) : Prop :=
  ∃ body, t = ['/', '*'] ++ body ++ ['*', '/'] ∧
    ∀ x y, body ++ ['*', '/'] = x ++ ['*', '/'] ++ y → y = []

/-- Specification: lines of the form `//…`. -/
inductive LineComments : Str → Prop where
  | one (ws text : Str) : (∀ c ∈ ws, c = ' ' ∨ c = '\t') → '\n' ∉ text →
      LineComments (ws ++ ['/', '/'] ++ text ++ ['\n'])
  | cons (ws text rest : Str) : (∀ c ∈ ws, c = ' ' ∨ c = '\t') → '\n' ∉ text → LineComments rest →
      LineComments (ws ++ ['/', '/'] ++ text ++ ['\n'] ++ rest)

/-- Blank text. -/
def Blank (s : Str) : Prop := ∀ c ∈ s, c = ' ' ∨ c = '\t' ∨ c = '\n'

/-- No terminator inside. -/
def Safe (s : Str) : Prop := ¬ ['*', '/'] <:+: s

theorem safe_of_infix {s t : Str} (h : s <:+: t) (ht : Safe t) : Safe s := fun h' => ht (h'.trans h)

theorem safe_append {s t : Str} (hs : Safe s) (ht : Safe t)
    (hb : ¬ (s.getLast? = some '*' ∧ t.head? = some '/')) : Safe (s ++ t) := by
  rintro ⟨x, y, h⟩
  rw [List.append_assoc, List.append_eq_append_iff] at h
  rcases h with ⟨a, h1, h2⟩ | ⟨a, h1, h2⟩
  · -- s = x ++ a, '*' '/' y = a ++ t
    match a, h2 with
    | [], h2 =>
      rw [List.nil_append] at h2
      exact ht ⟨[], y, by rw [← h2]; simp⟩
    | [c], h2 =>
      have hc : '*' = c := (List.cons.inj h2).1
      have ht' : '/' :: y = t := (List.cons.inj h2).2
      refine hb ⟨?_, ?_⟩
      · rw [h1, ← hc]; simp
      · rw [← ht']; rfl
    | c :: d :: a, h2 =>
      have hc : '*' = c := (List.cons.inj h2).1
      have hd : '/' = d := (List.cons.inj (List.cons.inj h2).2).1
      exact hs ⟨x, a, by rw [h1, ← hc, ← hd]; simp⟩
  · -- x = s ++ a, t = a ++ '*' '/' y
    exact ht ⟨a, y, by rw [h2]; simp⟩

theorem block_of_safe (body : Str) (h : Safe (body ++ ['*'])) :
    BlockComment (['/', '*'] ++ body ++ ['*', '/']) := by
  refine ⟨body, rfl, ?_⟩
  intro x y hxy
  rcases List.eq_nil_or_concat y with rfl | ⟨y', c, rfl⟩
  · rfl
  · exfalso
    rw [List.concat_eq_append] at hxy
    have h1 : (body ++ ['*']) ++ ['/'] = (x ++ ['*', '/'] ++ y') ++ [c] := by simpa using hxy
    have h2 := (List.append_inj' h1 rfl).1
    exact h ⟨x, y', h2.symm⟩

theorem mem_splitOn_infix (sep : Char) (s : Str) : ∀ w ∈ splitOn sep s, w <:+: s := by
  have hj : ∀ (ws : List Str), ∀ w ∈ ws, w <:+: joinWith sep ws := by
    intro ws
    induction ws with
    | nil => intro w hw; cases hw
    | cons v ws ih =>
      intro w hw
      by_cases hne : ws = []
      · subst hne
        rw [List.mem_singleton] at hw
        subst hw
        exact List.infix_refl _
      · rw [joinWith_cons sep v ws hne]
        rcases List.mem_cons.1 hw with rfl | hw
        · exact ⟨[], sep :: joinWith sep ws, by simp⟩
        · exact (ih w hw).trans ⟨v ++ [sep], [], by simp⟩
  intro w hw
  have := hj _ w hw
  rwa [join_splitOn] at this

theorem mem_commentLines {s l : Str} (h : l ∈ commentLines s) : l ∈ splitOn '\n' s := by
  unfold commentLines dropLast at h
  have h1 : l ∈ dropFirst (splitOn '\n' s) := by
    split at h
    · exact List.dropLast_subset _ h
    · exact h
  generalize splitOn '\n' s = ls at h1 ⊢
  match ls with
  | [] => exact h1
  | a :: ls =>
    simp only [dropFirst] at h1
    split at h1
    · exact List.mem_cons_of_mem _ h1
    · exact h1

theorem trimRight_prefix (l : Str) : trimRight l <+: l := by
  unfold trimRight
  have h := List.dropWhile_suffix (fun c => decide (c = ' ' ∨ c = '\t')) (l := l.reverse)
  have := List.reverse_prefix.2 h
  rwa [List.reverse_reverse] at this

theorem indentText_blank (cfg : Cfg) (hc : ∀ c ∈ cfg.indent, c = ' ' ∨ c = '\t') (n : Int) :
    ∀ c ∈ indentText cfg n, c = ' ' ∨ c = '\t' := by
  intro c h
  unfold indentText at h
  obtain ⟨l, hl, hcl⟩ := List.mem_flatten.1 h
  rw [List.eq_of_mem_replicate hl] at hcl
  exact hc c hcl

theorem maybeIndent_blank (cfg : Cfg) (hc : ∀ c ∈ cfg.indent, c = ' ' ∨ c = '\t') (n : Int) (r : Bool) :
    ∀ c ∈ maybeIndent cfg n r, c = ' ' ∨ c = '\t' := by
  unfold maybeIndent
  split
  · exact indentText_blank cfg hc _
  · exact indentText_blank cfg hc _

theorem safe_blank {s : Str} (h : ∀ c ∈ s, c ≠ '*') : Safe s := by
  intro hi
  exact h '*' (hi.subset (by simp)) rfl

theorem spaced_head (l : Str) : (spaced l).head? ≠ some '/' ∧ (Safe l → Safe (spaced l)) ∧
    ('\n' ∉ l → '\n' ∉ spaced l) := by
  unfold spaced
  split
  · refine ⟨by simp, ?_, ?_⟩
    · intro h
      exact safe_append (s := [' ']) (safe_blank (by simp)) h (by simp)
    · intro h h'
      rcases List.mem_cons.1 h' with h' | h'
      · cases h'
      · exact h h'
  · rename_i hn
    refine ⟨?_, id, id⟩
    intro h
    refine hn ⟨?_, ?_⟩
    · rintro rfl
      cases h
    · rw [h]
      simp

theorem trim_spaced (l : Str) (hs : Safe l) :
    (trimRight (spaced l)).head? ≠ some '/' ∧ Safe (trimRight (spaced l)) := by
  have hp := trimRight_prefix (spaced l)
  refine ⟨?_, safe_of_infix hp.isInfix ((spaced_head l).2.1 hs)⟩
  intro h
  refine (spaced_head l).1 ?_
  obtain ⟨t, ht⟩ := hp
  match hh : trimRight (spaced l), h with
  | c :: r, h =>
    rw [hh] at ht
    rw [← ht]
    simpa using h

theorem middle_safe (cfg : Cfg) (hc : ∀ c ∈ cfg.indent, c = ' ' ∨ c = '\t') (n : Int) (l : Str)
    (hs : Safe l) : Safe (middle cfg n l) ∧ (middle cfg n l).getLast? = some '\n' := by
  unfold middle
  obtain ⟨h1, h2⟩ := trim_spaced l hs
  have hi := maybeIndent_blank cfg hc n true
  refine ⟨?_, by rw [List.getLast?_append]; rfl⟩
  refine safe_append (safe_append (safe_append ?_ ?_ ?_) h2 ?_) ?_ ?_
  · exact safe_blank (fun c h he => by rcases hi c h with h | h <;> rw [he] at h <;> cases h)
  · intro h; exact absurd h (by decide)
  · simp
  · exact fun h => h1 h.2
  · exact safe_blank (by simp)
  · simp

theorem middles_safe (cfg : Cfg) (hc : ∀ c ∈ cfg.indent, c = ' ' ∨ c = '\t') (n : Int) (ls : List Str)
    (hs : ∀ l ∈ ls, Safe l) :
    Safe (ls.flatMap (middle cfg n)) ∧ (ls.flatMap (middle cfg n)).getLast? ≠ some '*' := by
  induction ls with
  | nil => exact ⟨safe_blank (by simp), by simp⟩
  | cons l ls ih =>
    have ih := ih (fun x hx => hs x (List.mem_cons_of_mem _ hx))
    have hm := middle_safe cfg hc n l (hs l List.mem_cons_self)
    rw [List.flatMap_cons]
    refine ⟨safe_append hm.1 ih.1 ?_, ?_⟩
    · rw [hm.2]
      exact fun h => by cases h.1
    · rw [List.getLast?_append]
      cases h : (ls.flatMap (middle cfg n)).getLast? with
      | none => simp [hm.2]
      | some c => rw [← h]; simp only [h, Option.some_or]; rw [← h]; exact ih.2

theorem singles_lines (cfg : Cfg) (hc : ∀ c ∈ cfg.indent, c = ' ' ∨ c = '\t') (n : Int) (l : Str)
    (ls : List Str) (hs : ∀ x ∈ l :: ls, '\n' ∉ x) : LineComments (singles cfg n (l :: ls)) := by
  have htext : ∀ x, '\n' ∉ x → '\n' ∉ trimRight (spaced x) := fun x hx h =>
    (spaced_head x).2.2 hx ((trimRight_prefix _).subset h)
  have hmany : ∀ (ls : List Str), (∀ x ∈ ls, '\n' ∉ x) → ls ≠ [] →
      LineComments (ls.flatMap (single cfg n true)) := by
    intro ls
    induction ls with
    | nil => intro _ h; exact absurd rfl h
    | cons l ls ih =>
      intro hs _
      rw [List.flatMap_cons]
      by_cases hne : ls = []
      · subst hne
        rw [List.flatMap_nil, List.append_nil]
        exact .one _ _ (maybeIndent_blank cfg hc _ _) (htext l (hs l List.mem_cons_self))
      · exact .cons _ _ _ (maybeIndent_blank cfg hc _ _) (htext l (hs l List.mem_cons_self))
          (ih (fun x hx => hs x (List.mem_cons_of_mem _ hx)) hne)
  simp only [singles]
  by_cases hne : ls = []
  · subst hne
    rw [List.flatMap_nil, List.append_nil]
    exact .one _ _ (maybeIndent_blank cfg hc _ _) (htext l (hs l List.mem_cons_self))
  · exact .cons _ _ _ (maybeIndent_blank cfg hc _ _) (htext l (hs l List.mem_cons_self))
      (hmany ls (fun x hx => hs x (List.mem_cons_of_mem _ hx)) hne)

theorem lead_blank (cfg : Cfg) (indent : Int) (force : Bool) (lines : List Str) :
    Blank (lead cfg indent force lines).1 := by
  unfold lead Blank
  split
  · split
    · simp
    · simp only
      split <;> simp
  · simp

theorem nl_blank (i : Int) : (if i ≥ 0 then ['\n'] else ([] : Str)) = [] ∨
    (if i ≥ 0 then ['\n'] else ([] : Str)) = ['\n'] := by
  split
  · exact .inr rfl
  · exact .inl rfl

/-- **C34** (part): whatever the comment, the style and the indentation (of blanks and tabs), what is
printed is nothing, or - after blanks - a block comment whose terminator does not occur inside,
followed by at most a newline, or a sequence of `//` lines. -/
theorem C34_wellformed (cfg : Cfg) (hc : ∀ c ∈ cfg.indent, c = ' ' ∨ c = '\t') (comments : Str)
    (indent : Int) (force : Bool) (text : Str) (nl : Bool)
    (h : printComment cfg comments indent force = .ok text nl) :
    text = [] ∨ ∃ pre t post, text = pre ++ t ++ post ∧ Blank pre ∧
      ((BlockComment t ∧ (post = [] ∨ post = ['\n'])) ∨ (LineComments t ∧ post = [])) := by
  unfold printComment at h
  split at h
  · cases h; exact .inl rfl
  simp only at h
  split at h
  · cases h; exact .inl rfl
  · rename_i hlen
    right
    have hpre := lead_blank cfg indent force (commentLines comments)
    generalize hl : lead cfg indent force (commentLines comments) = pi at h hpre
    obtain ⟨pre, ind⟩ := pi
    have hmulti : useMulti cfg indent comments = true → ∀ l ∈ commentLines comments, Safe l := by
      intro hm l hl
      unfold useMulti at hm
      rw [Bool.and_eq_true] at hm
      have hs : Safe comments := by simpa [Safe] using hm.2
      exact safe_of_infix (mem_splitOn_infix _ _ _ (mem_commentLines hl)) hs
    have hnonl : ∀ l ∈ commentLines comments, '\n' ∉ l := fun l hl =>
      splitOn_no_sep _ _ l (mem_commentLines hl)
    generalize commentLines comments = lines at h hmulti hnonl hlen
    generalize useMulti cfg indent comments = m at h hmulti
    simp only at h
    have hiblank := indentText_blank cfg hc ind
    have hpreb : ∀ (i : Str), (∀ c ∈ i, c = ' ' ∨ c = '\t') → Blank (pre ++ i) := by
      intro i hi c hcm
      rcases List.mem_append.1 hcm with h | h
      · exact hpre c h
      · rcases hi c h with h | h
        · exact .inl h
        · exact .inr (.inl h)
    split at h
    · cases h
    · -- one line
      rename_i c l
      cases h
      have hsafe := hmulti rfl (c :: l) List.mem_cons_self
      refine ⟨pre ++ indentText cfg ind, ['/', '*'] ++ (if c = ' ' ∧ (c :: l).getLast? ≠ some ' ' then
        (c :: l) ++ [' '] else c :: l) ++ ['*', '/'], _, ?_, hpreb _ hiblank, .inl ⟨?_, nl_blank ind⟩⟩
      · simp only [List.append_assoc]
      · refine block_of_safe _ ?_
        have hstar : Safe ['*'] := fun h => absurd h (by decide)
        split
        · refine safe_append (safe_append hsafe (safe_blank (by simp)) (by simp)) hstar (by simp)
        · exact safe_append hsafe hstar (by simp)
    · -- several lines
      cases h
      rename_i hm _ _
      have hm := middles_safe cfg hc ind lines (hmulti rfl)
      refine ⟨pre ++ maybeIndent cfg ind false, ['/', '*'] ++ ('\n' :: lines.flatMap (middle cfg ind) ++
        maybeIndent cfg ind true ++ [' ']) ++ ['*', '/'], _, ?_,
        hpreb _ (maybeIndent_blank cfg hc _ _), .inl ⟨?_, nl_blank ind⟩⟩
      · unfold multi
        simp only [List.append_assoc, List.cons_append, List.nil_append]
      · refine block_of_safe _ ?_
        have hi := maybeIndent_blank cfg hc ind true
        have hb : Safe (maybeIndent cfg ind true) :=
          safe_blank (fun c h he => by rcases hi c h with h | h <;> rw [he] at h <;> cases h)
        have hstar : Safe [' ', '*'] := fun h => absurd h (by decide)
        have e : '\n' :: lines.flatMap (middle cfg ind) ++ maybeIndent cfg ind true ++ [' '] ++ ['*']
            = ['\n'] ++ (lines.flatMap (middle cfg ind) ++ (maybeIndent cfg ind true ++ [' ', '*'])) := by simp
        rw [e]
        refine safe_append (safe_blank (by simp)) (safe_append hm.1 (safe_append hb hstar (by simp)) ?_) ?_
        · exact fun h => hm.2 h.1
        · simp
    · cases h
      match lines, hlen with
      | [], hlen => exact absurd rfl hlen
      | l :: ls, _ =>
        exact ⟨pre, _, [], by simp, hpre, .inr ⟨singles_lines cfg hc ind l ls hnonl, rfl⟩⟩

/-- **C34** (part): the returned flag tells whether the text ends with a newline. -/
theorem C34_flag (cfg : Cfg) (comments : Str) (indent : Int) (force : Bool) (text : Str) (nl : Bool)
    (h : printComment cfg comments indent force = .ok text nl) (hne : text ≠ []) :
    nl = true ↔ text.getLast? = some '\n' := by
  have hend : ∀ (a : Str) (b : Bool) (c : Char) (i : Int), c ≠ '\n' → b = decide (i ≥ 0) →
      (b = true ↔ (a ++ [c] ++ (if i ≥ 0 then ['\n'] else [])).getLast? = some '\n') := by
    intro a b c i hcn hb
    by_cases hi : i ≥ 0
    · rw [if_pos hi]; simp [hb, hi]
    · rw [if_neg hi]; simp [hb, hi, hcn]
  unfold printComment at h
  split at h
  · cases h; exact absurd rfl hne
  simp only at h
  split at h
  · cases h; exact absurd rfl hne
  · rename_i hlen
    generalize hl : lead cfg indent force (commentLines comments) = pi at h
    obtain ⟨pre, ind⟩ := pi
    generalize commentLines comments = lines at h hlen
    generalize useMulti cfg indent comments = m at h
    simp only at h
    split at h
    · cases h
    · rename_i c l
      cases h
      have := hend (pre ++ indentText cfg ind ++ ['/', '*'] ++ (if c = ' ' ∧ (c :: l).getLast? ≠ some ' ' then
        (c :: l) ++ [' '] else c :: l) ++ ['*']) _ '/' ind (by decide) rfl
      simpa only [List.append_assoc, List.cons_append, List.nil_append] using this
    · cases h
      have := hend (pre ++ (maybeIndent cfg ind false ++ ['/', '*', '\n'] ++ lines.flatMap (middle cfg ind) ++
        maybeIndent cfg ind true ++ [' ', '*'])) _ '/' ind (by decide) rfl
      unfold multi
      simpa only [List.append_assoc, List.cons_append, List.nil_append] using this
    · cases h
      match lines, hlen with
      | [], hlen => exact absurd rfl hlen
      | l :: ls, _ =>
        refine iff_of_true rfl ?_
        have hs : ∀ r x, (single cfg ind r x).getLast? = some '\n' := by
          intro r x; unfold single; rw [List.getLast?_append]; rfl
        have hm : ∀ (xs : List Str), xs ≠ [] → (xs.flatMap (single cfg ind true)).getLast? = some '\n' := by
          intro xs
          induction xs with
          | nil => exact fun h => absurd rfl h
          | cons x xs ih =>
            intro _
            rw [List.flatMap_cons, List.getLast?_append]
            by_cases hx : xs = []
            · subst hx; simp [hs]
            · rw [ih hx]; rfl
        rw [List.getLast?_append]
        simp only [singles]
        rw [List.getLast?_append]
        by_cases hx : ls = []
        · subst hx; simp [hs]
        · rw [hm ls hx]; rfl

theorem commentLines_blank (s : Str) (hs : s ≠ []) : commentLines s = [[]] ↔ s = ['\n', '\n'] := by
  constructor
  · intro h
    have hj := join_splitOn '\n' s
    unfold commentLines at h
    have key : ∀ ls : List Str, dropLast ls = [[]] → ls = [[]] ∧ False ∨ ls = [[], []] := by
      intro ls hls
      unfold dropLast at hls
      split at hls
      · rename_i hl
        obtain ⟨l, rfl⟩ := List.getLast?_eq_some_iff.1 hl
        rw [List.dropLast_concat] at hls
        rw [hls]
        exact .inr rfl
      · rename_i hl
        subst hls
        exact absurd rfl hl
    match hsp : splitOn '\n' s with
    | [] => exact absurd hsp (splitOn_ne_nil _ _)
    | a :: rest =>
      rw [hsp] at h hj
      rcases key _ h with ⟨_, hf⟩ | hk
      · exact hf.elim
      · simp only [dropFirst] at hk
        split at hk
        · rename_i ha
          subst ha
          subst hk
          rw [← hj]
          rfl
        · rename_i ha
          exact absurd (List.cons.inj hk).1 ha
  · rintro rfl
    decide

/-- **C34** (partial): printing crashes for exactly one comment, two newlines, and only in multi-line
style (always used for inlined comments). Missing: not crashing there. -/
theorem C34_no_crash_partial (cfg : Cfg) (comments : Str) (indent : Int) (force : Bool) :
    printComment cfg comments indent force = .panic ↔
      comments = ['\n', '\n'] ∧ (indent < 0 ∨ cfg.preferMulti = true) := by
  have hm : useMulti cfg indent ['\n', '\n'] = true ↔ (indent < 0 ∨ cfg.preferMulti = true) := by
    have : decide (['*', '/'] <:+: ['\n', '\n']) = false := by decide
    unfold useMulti
    rw [this]
    split
    · rename_i h; simp [h]
    · rename_i h; simp [h]
  unfold printComment
  by_cases h0 : comments = []
  · subst h0; simp
  · rw [if_neg h0]
    by_cases hb : commentLines comments = [[]]
    · have hc := (commentLines_blank comments h0).1 hb
      simp only [hb]
      rw [if_neg (by simp)]
      subst hc
      rw [← hm]
      cases useMulti cfg indent ['\n', '\n'] <;> simp
    · have hc : comments ≠ ['\n', '\n'] := fun h => hb ((commentLines_blank comments h0).2 h)
      simp only
      constructor
      · intro h
        split at h
        · cases h
        · split at h
          · rename_i he _; exact absurd he hb
          · cases h
          · cases h
          · cases h
      · exact fun h => absurd h.1 hc

/-- The code violates C34: printing the comment of two newlines in multi-line style crashes. -/
theorem C34_crash_violated : printComment ⟨true, [' '], true, false⟩ ['\n', '\n'] 0 false = .panic := by decide

example : printComment ⟨true, [' '], true, false⟩ [' ', 'a', '/', '\n', '*', 'b', '\n'] 1 false =
    .ok (' ' :: "/*\n  * a/\n  * *b\n  */\n".toList) true := by decide

example : printComment ⟨true, [' '], true, false⟩ ['*', '/', 'b'] (-2) false = .ok "// */b\n".toList true := by
  decide

end Verif.PrintComment
