import Verif.Model.Formatter
/-!
# C117: the formatter keeps blank lines, at most one at a place and none at brackets
-/
namespace Verif.Formatter

open FormatWriter (St write spaceFor P settle incr decr writeRune)

/-- The white space before a token has a blank line: two line breaks. -/
def HasBlank (ws : Str) : Prop := ∃ x y z, ws = x ++ '\n' :: (y ++ '\n' :: z)

/-- The token opens a block. -/
def Opens (t : Tok) : Prop := t.term = .rune '{' ∨ t.term = .rune '[' ∨ t.term = .rune '<'

/-- The token closes a block or a list. -/
def Closes (t : Tok) : Prop := ∃ c ∈ ['}', ']', ')', '>'], t.term = .rune c

/-- The ways in which a token is written as the last one of a line. -/
inductive EndsLine (cfg : Cfg) (t : Tok) (f : F) : F → Prop
  | line : EndsLine cfg t f (lineEnd cfg t f)
  | bracket : EndsLine cfg t f (openBrace cfg t f)
  | array : EndsLine cfg t f (openBraceForArray cfg t f)
  | body (semi : Option Tok) (inlined : Bool) : EndsLine cfg t f (bodyEnd cfg t semi inlined f)

theorem count_blank (ws : Str) : 1 < newlines ws ↔ HasBlank ws := by
  unfold newlines
  constructor
  · intro h
    have h1 : '\n' ∈ ws := List.count_pos_iff.1 (by omega)
    obtain ⟨x, r, rfl⟩ := List.append_of_mem h1
    induction x with
    | nil =>
      rw [List.nil_append, List.count_cons_self] at h
      obtain ⟨y, z, rfl⟩ := List.append_of_mem (List.count_pos_iff.1 (show 0 < r.count '\n' by omega))
      exact ⟨[], y, z, rfl⟩
    | cons c x ih =>
      by_cases hc : c = '\n'
      · subst hc
        exact ⟨[], x, r, rfl⟩
      · rw [List.cons_append, List.count_cons_of_ne hc] at h
        obtain ⟨a, b, d, e⟩ := ih h (by simp)
        exact ⟨c :: a, b, d, by rw [List.cons_append, e]; rfl⟩
  · rintro ⟨x, y, z, rfl⟩
    simp only [List.count_append, List.count_cons_self]
    omega

theorem isOpen_iff (t : Tok) : isOpen t.rune? = true ↔ Opens t := by
  unfold isOpen Tok.rune? Opens
  cases t.term <;> simp [or_assoc]

/-- The state at the start of a line. -/
structure AtStart (w : St) : Prop where
  last : w.last = '\n'
  space : w.pendingSpace = false
  indent : w.pendingIndent = 0
  text : ∃ x, w.out = x ++ ['\n']

theorem settle_eqs (st : St) : (settle st).last = st.last ∧ (settle st).pendingSpace = st.pendingSpace ∧ (settle st).pendingIndent = 0 ∧
    (settle st).out = st.out := by
  unfold settle incr decr
  split
  · exact ⟨rfl, rfl, rfl, rfl⟩
  · split
    · split <;> exact ⟨rfl, rfl, rfl, rfl⟩
    · exact ⟨rfl, rfl, rfl, rfl⟩

theorem newline_start (f : F) : AtStart (newline f).w := by
  obtain ⟨h1, h2, h3, h4⟩ := settle_eqs (write f.w ['\n'])
  have e : (newline f).w = settle (write f.w ['\n']) := rfl
  rw [← e] at h1 h2 h3 h4
  exact ⟨h1, h2, h3, ⟨f.w.out ++ spaceFor f.w ['\n'], h4⟩⟩

theorem endsLine_start {cfg : Cfg} {t : Tok} {f g : F} (h : EndsLine cfg t f g) : AtStart g.w ∧ g.prev = some (isOpen t.rune?) := by
  cases h with
  | line => exact ⟨newline_start _, rfl⟩
  | bracket =>
    refine ⟨?_, rfl⟩
    show AtStart (if t.trailing ≠ [] then trailingEnd cfg t.trailing _ else newline _).w
    split <;> exact newline_start _
  | array =>
    refine ⟨?_, rfl⟩
    show AtStart (if t.trailing ≠ [] then trailingEnd cfg t.trailing (t.write (indentation t.rune? _)) else newline (t.write (indentation t.rune? _))).w
    by_cases ht : t.trailing ≠ []
    · rw [if_pos ht]; exact newline_start _
    · rw [if_neg ht]; exact newline_start _
  | body semi inlined => exact ⟨newline_start _, rfl⟩

/-- A further line break at the start of a line. -/
theorem newline_again (g : F) (hs : AtStart g.w) : (newline g).w = { g.w with out := g.w.out ++ ['\n'] } := by
  show settle (write g.w ['\n']) = _
  have hi := hs.indent
  unfold settle write
  simp only [hi]
  simp [spaceFor, hs.space, hs.last, hi]

/-- A token at the start of a line. -/
theorem token_out (t : Tok) (g : F) (hl : g.w.last = '\n') (hs : g.w.pendingSpace = false) (n : Nat) (hn : (Closes t → n = g.w.indent - 1) ∧
    (¬ Closes t → n = g.w.indent)) :
    (t.write (indentation t.rune? g)).w.out = g.w.out ++ List.replicate (2 * n) ' ' ++ t.str := by
  have hn' : (match t.rune? with
      | some c => if ['}', ']', ')', '>'].contains c then g.w.indent - 1 else g.w.indent
      | none => g.w.indent) = n := by
    have key : ∀ c, t.term = .rune c → (['}', ']', ')', '>'].contains c = true ↔ Closes t) := by
      intro c hc
      rw [List.contains_iff_mem]
      constructor
      · intro h
        exact ⟨c, h, hc⟩
      · rintro ⟨d, hd, e⟩
        rw [hc] at e
        cases e
        exact hd
    unfold Tok.rune?
    cases ht : t.term with
    | rune c =>
      simp only
      split
      · rename_i hc
        exact (hn.1 ((key c ht).1 hc)).symm
      · rename_i hc
        exact (hn.2 (fun h => hc ((key c ht).2 h))).symm
    | _ =>
      simp only
      refine (hn.2 ?_).symm
      rintro ⟨d, hd, e⟩
      rw [ht] at e
      cases e
  have e : (indentation t.rune? g).w = write g.w (List.replicate (2 * n) ' ') := by
    show FormatWriter.indentation g.w t.rune? = _
    unfold FormatWriter.indentation
    rw [if_neg (by simp [hl])]
    exact congrArg (fun k => write g.w (List.replicate (2 * k) ' ')) hn'
  unfold Tok.write Tok.str
  cases t.term <;> simp [put, e, writeRune, write, spaceFor, hs]

/-- **C117** (blank lines): after a token that ends a line, the first token of the next element is written on a line of its own, preceded by
exactly one blank line if there was a blank line (or several) before it in the source and the line before does not open a block, and by none
otherwise. -/
theorem C117_blank (cfg : Cfg) (a b : Tok) (f g : F) (h : EndsLine cfg a f g) (hl : b.leading = []) (ht : b.trailing = []) :
    (∃ x, g.w.out = x ++ ['\n']) ∧ ∃ n, (start cfg b g).w.out =
      g.w.out ++ (open scoped Classical in if HasBlank b.ws ∧ ¬ Opens a then ['\n'] else []) ++ List.replicate (2 * n) ' ' ++ b.str ∧
      (Closes b → n = g.w.indent - 1) ∧ (¬ Closes b → n = g.w.indent) := by
  classical
  obtain ⟨hs, hp⟩ := endsLine_start h
  refine ⟨hs.text, if Closes b then g.w.indent - 1 else g.w.indent, ?_, fun hc => if_pos hc, fun hc => if_neg hc⟩
  have hpre : startPre cfg false b.ws b.leading b.rune? g = indentation b.rune? (if HasBlank b.ws ∧ ¬ Opens a then newline g else g) := by
    unfold startPre
    simp only [hl, ne_eq, not_true, if_false, Bool.false_or, F.prevOpen, hp]
    congr 1
    have h1 := count_blank b.ws
    have h2 := isOpen_iff a
    by_cases hb : HasBlank b.ws <;> by_cases ho : Opens a
    · simp [hb, ho, h2.2 ho]
    · have : isOpen a.rune? = false := by simpa using fun e => ho (h2.1 e)
      simp [hb, ho, this, h1.2 hb]
    · simp [hb, ho, h2.2 ho]
    · have : ¬ 1 < newlines b.ws := fun e => hb (h1.1 e)
      simp [hb, this]
  have hst : (start cfg b g).w = (b.write (startPre cfg false b.ws b.leading b.rune? g)).w := by
    show (startPost b.trailing b.rune? _).w = _
    simp [startPost, ht, setPrev]
  rw [hst, hpre]
  by_cases hb : HasBlank b.ws ∧ ¬ Opens a
  · rw [if_pos hb, if_pos hb]
    have hw := newline_again g hs
    rw [token_out b (newline g) (by rw [hw]; exact hs.last) (by rw [hw]; exact hs.space) (if Closes b then g.w.indent - 1 else g.w.indent)
      ⟨fun hc => by rw [if_pos hc, hw], fun hc => by rw [if_neg hc, hw]⟩, hw]
  · rw [if_neg hb, if_neg hb, List.append_nil]
    exact token_out b g hs.last hs.space _ ⟨fun hc => if_pos hc, fun hc => if_neg hc⟩

/-- **C117** (ends of blocks): before the closing bracket of a block there is no blank line, whatever was there in the source, and its line ends
behind it. -/
theorem C117_close (cfg : Cfg) (a b : Tok) (semi : Option Tok) (f g : F) (h : EndsLine cfg a f g) (hl : b.leading = [])
    (ht : endComments b semi = []) (hc : Closes b) :
    (bodyEnd cfg b semi false g).w.out = g.w.out ++ List.replicate (2 * (g.w.indent - 1)) ' ' ++ b.str ++ ['\n'] := by
  obtain ⟨hs, hp⟩ := endsLine_start h
  have e1 : endLead cfg false b g = indentation b.rune? g := by
    simp [endLead, hl, multiline, multilineLoop]
  have e2 := token_out b g hs.last hs.space (g.w.indent - 1) ⟨fun _ => rfl, fun hn => absurd hc hn⟩
  have e3 : ∀ k : F, (trailingEnd cfg [] k).w.out = k.w.out ++ ['\n'] := by
    intro k
    obtain ⟨-, -, -, h4⟩ := settle_eqs (write k.w ['\n'])
    show (settle (write k.w ['\n'])).out = _
    rw [h4]
    simp [write, spaceFor, FormatWriter.nextBlock, FormatWriter.firstRune]
  unfold bodyEnd
  simp only [e1, ht, setPrev, e3]
  have e4 : ∀ (p : Prop) [Decidable p] (k : F), (if p then space k else k).w.out = k.w.out := by
    intro p _ k
    split <;> rfl
  rw [e4, e2]

/-! ## Comments -/

/-- A comment of one line, or a `//` comment. -/
def OneLine (c : InlineComment.Comment) : Prop := ¬ (['/', '*'].isPrefixOf c.text = true ∧ '\n' ∈ c.text)

open scoped Classical in
/-- The lines of the comments before an element: each on a line of its own at the level `n`, and with one blank line before it if there were some
in the source, except before the first if `first` (it stands behind an opening bracket). -/
noncomputable def commentLines (n : Nat) (first : Prop) : List InlineComment.Comment → Str
  | [] => []
  | c :: cs => (if HasBlank c.leadingWhitespace ∧ ¬ first then ['\n'] else []) ++ List.replicate (2 * n) ' ' ++ trimSpace c.text ++ ['\n'] ++
      commentLines n False cs

theorem newline_keeps (g : F) (hs : AtStart g.w) : AtStart (newline g).w ∧ (newline g).w.indent = g.w.indent ∧
    (newline g).w.out = g.w.out ++ ['\n'] := by
  rw [newline_again g hs]
  exact ⟨⟨hs.last, hs.space, hs.indent, ⟨_, rfl⟩⟩, rfl, rfl⟩

theorem comment_line (cfg : Cfg) (c : InlineComment.Comment) (hc : OneLine c) (g : F) (hs : AtStart g.w) :
    AtStart (put ['\n'] (comment cfg c.text g)).w ∧ (put ['\n'] (comment cfg c.text g)).w.indent = g.w.indent ∧
    (put ['\n'] (comment cfg c.text g)).w.out = g.w.out ++ List.replicate (2 * g.w.indent) ' ' ++ trimSpace c.text ++ ['\n'] := by
  have e : (put ['\n'] (comment cfg c.text g)).w =
      write (write (write g.w (List.replicate (2 * g.w.indent) ' ')) (trimSpace c.text)) ['\n'] := by
    show write (BlockComment.writeComment cfg.pfx g.w c.text) ['\n'] = _
    unfold BlockComment.writeComment
    rw [if_neg hc]
    unfold FormatWriter.indentation
    rw [if_neg (by simp [hs.last])]
  rw [e]
  have ho : (write (write (write g.w (List.replicate (2 * g.w.indent) ' ')) (trimSpace c.text)) ['\n']).out =
      g.w.out ++ List.replicate (2 * g.w.indent) ' ' ++ trimSpace c.text ++ ['\n'] := by
    simp [write, spaceFor, hs.space]
  exact ⟨⟨rfl, rfl, hs.indent, ⟨_, ho⟩⟩, rfl, ho⟩

theorem multiline_text (cfg : Cfg) : ∀ (cs : List InlineComment.Comment) (compact : Bool) (g : F), (∀ c ∈ cs, OneLine c) → AtStart g.w →
    AtStart (multilineLoop cfg compact cs g).w ∧ (multilineLoop cfg compact cs g).w.indent = g.w.indent ∧
    (multilineLoop cfg compact cs g).w.out = g.w.out ++ commentLines g.w.indent (compact = true) cs
  | [], compact, g, _, hs => ⟨hs, rfl, by simp [multilineLoop, commentLines]⟩
  | c :: cs, compact, g, hc, hs => by
    classical
    have hb := count_blank c.leadingWhitespace
    have h1 : ∃ g1, (if !compact && decide (newlines c.leadingWhitespace > 1) then newline g else g) = g1 ∧ AtStart g1.w ∧ g1.w.indent = g.w.indent ∧
        g1.w.out = g.w.out ++ (if HasBlank c.leadingWhitespace ∧ ¬ compact = true then ['\n'] else []) := by
      obtain ⟨k1, k2, k3⟩ := newline_keeps g hs
      by_cases hx : HasBlank c.leadingWhitespace ∧ ¬ compact = true
      · refine ⟨newline g, ?_, k1, k2, by rw [if_pos hx, k3]⟩
        rw [if_pos]
        simp only [Bool.and_eq_true, Bool.not_eq_true', decide_eq_true_eq]
        exact ⟨by simpa using hx.2, hb.2 hx.1⟩
      · refine ⟨g, ?_, hs, rfl, by rw [if_neg hx, List.append_nil]⟩
        rw [if_neg]
        simp only [Bool.and_eq_true, Bool.not_eq_true', decide_eq_true_eq]
        rintro ⟨a, b⟩
        exact hx ⟨hb.1 b, by simp [a]⟩
    obtain ⟨g1, e1, s1, i1, o1⟩ := h1
    obtain ⟨s2, i2, o2⟩ := comment_line cfg c (hc c (by simp)) g1 s1
    obtain ⟨s3, i3, o3⟩ := multiline_text cfg cs false _ (fun x hx => hc x (by simp [hx])) s2
    simp only [multilineLoop, e1]
    refine ⟨s3, by rw [i3, i2, i1], ?_⟩
    rw [o3, o2, o1, i2, i1]
    by_cases hx : HasBlank c.leadingWhitespace ∧ ¬ compact = true
    · simp only [commentLines, if_pos hx, List.append_assoc, Bool.false_eq_true]
    · simp only [commentLines, if_neg hx, List.append_assoc, Bool.false_eq_true]

/-- **C117** (comments): the comments before an element stand on lines of their own at the level of the element, in the order of the source, and
between comments, and between the last comment and the element, there is one blank line exactly if there was one (or several) in the source; before
the first one too, except behind an opening bracket. (For comments of one line; the others are the subject of C49.) -/
theorem C117_comments (cfg : Cfg) (a b : Tok) (f g : F) (h : EndsLine cfg a f g) (hl : b.leading ≠ []) (hc : ∀ c ∈ b.leading, OneLine c)
    (ht : b.trailing = []) : ∃ n, (start cfg b g).w.out = g.w.out ++ commentLines g.w.indent (Opens a) b.leading ++
      (open scoped Classical in if HasBlank b.ws then ['\n'] else []) ++ List.replicate (2 * n) ' ' ++ b.str ∧
      (Closes b → n = g.w.indent - 1) ∧ (¬ Closes b → n = g.w.indent) := by
  classical
  obtain ⟨hs, hp⟩ := endsLine_start h
  refine ⟨if Closes b then g.w.indent - 1 else g.w.indent, ?_, fun hc => if_pos hc, fun hc => if_neg hc⟩
  have hst : (start cfg b g).w = (b.write (startPre cfg false b.ws b.leading b.rune? g)).w := by
    show (startPost b.trailing b.rune? _).w = _
    simp [startPost, ht, setPrev]
  have hm : multiline cfg false b.leading g = multilineLoop cfg (isOpen a.rune?) b.leading g := by
    simp [multiline, F.prevOpen, hp]
  obtain ⟨s1, i1, o1⟩ := multiline_text cfg b.leading (isOpen a.rune?) g hc hs
  have hopen : (isOpen a.rune? = true) = Opens a := propext (isOpen_iff a)
  rw [hopen] at o1
  have hpre : startPre cfg false b.ws b.leading b.rune? g =
      indentation b.rune? (if HasBlank b.ws then newline (multilineLoop cfg (isOpen a.rune?) b.leading g)
        else multilineLoop cfg (isOpen a.rune?) b.leading g) := by
    unfold startPre
    simp only [hl, ne_eq, not_false_eq_true, if_true, hm]
    congr 1
    have h1 := count_blank b.ws
    by_cases hb : HasBlank b.ws
    · simp [hb, h1.2 hb]
    · have : ¬ 1 < newlines b.ws := fun e => hb (h1.1 e)
      simp [hb, this]
  rw [hst, hpre]
  by_cases hb : HasBlank b.ws
  · rw [if_pos hb, if_pos hb]
    obtain ⟨s2, i2, o2⟩ := newline_keeps _ s1
    rw [token_out b _ s2.last s2.space (if Closes b then g.w.indent - 1 else g.w.indent)
      ⟨fun hc => by rw [if_pos hc, i2, i1], fun hc => by rw [if_neg hc, i2, i1]⟩, o2, o1]
  · rw [if_neg hb, if_neg hb, List.append_nil]
    rw [token_out b _ s1.last s1.space (if Closes b then g.w.indent - 1 else g.w.indent)
      ⟨fun hc => by rw [if_pos hc, i1], fun hc => by rw [if_neg hc, i1]⟩, o1]

/-! ## Levels -/

theorem settle_up (st : St) (h : st.pendingIndent = 1) : (settle st).indent = st.indent + 1 := by
  simp [settle, h, incr]

theorem settle_down (st : St) (h : st.pendingIndent = -1) : (settle st).indent = st.indent - 1 := by
  unfold settle decr
  rw [if_neg (by rw [h]; decide), if_pos (by rw [h]; decide)]
  split
  · rename_i h0
    simp [h0]
  · rfl

theorem indentation_same (r : Option Char) (f : F) : (indentation r f).w.indent = f.w.indent ∧
    (indentation r f).w.pendingIndent = f.w.pendingIndent := by
  show (FormatWriter.indentation f.w r).indent = _ ∧ (FormatWriter.indentation f.w r).pendingIndent = _
  unfold FormatWriter.indentation
  split <;> exact ⟨rfl, rfl⟩

/-- **C117** (levels): what follows a bracket that opens a block is one level deeper than the line of the bracket, and what follows the bracket
that closes it is one level less deep than the content. (For brackets without comments, and if no other bracket was written on the same line.) -/
theorem C117_level (cfg : Cfg) (t : Tok) (f : F) (hl : t.leading = []) (ht : t.trailing = []) (hp : f.w.pendingIndent = 0) :
    (Opens t → (openBrace cfg t f).w.indent = f.w.indent + 1 ∧ (openBraceForArray cfg t f).w.indent = f.w.indent + 1) ∧
    (Closes t → (bodyEnd cfg t none false f).w.indent = f.w.indent - 1) := by
  constructor
  · intro ho
    obtain ⟨c, hc, hw⟩ : ∃ c, t.term = .rune c ∧ FormatWriter.weight c = 1 := by
      rcases ho with h | h | h <;> exact ⟨_, h, by decide⟩
    constructor
    · have e : (openBrace cfg t f).w = settle (write (writeRune f.w c) ['\n']) := by
        unfold openBrace
        simp only [ht, ne_eq, not_true, if_false, leadInline, hl, Tok.write, hc]
        rfl
      rw [e, settle_up _ (by show f.w.pendingIndent + FormatWriter.weight c = 1; rw [hp, hw]; rfl)]
      rfl
    · have e : (openBraceForArray cfg t f).w = settle (write (writeRune (indentation t.rune? f).w c) ['\n']) := by
        unfold openBraceForArray
        simp only [ht, ne_eq, not_true, if_false, hl, Tok.write, hc]
        rfl
      obtain ⟨h1, h2⟩ := indentation_same t.rune? f
      rw [e, settle_up _ (by show (indentation t.rune? f).w.pendingIndent + FormatWriter.weight c = 1; rw [h2, hp, hw]; rfl)]
      show (indentation t.rune? f).w.indent + 1 = _
      rw [h1]
  · rintro ⟨c, hm, hc⟩
    have hw : FormatWriter.weight c = -1 := by
      simp only [List.mem_cons, List.not_mem_nil, or_false] at hm
      rcases hm with h | h | h | h <;> subst h <;> decide
    have e : (bodyEnd cfg t none false f).w = settle (write (writeRune (indentation t.rune? f).w c) ['\n']) := by
      unfold bodyEnd
      simp only [ht, endComments, endLead, hl, Tok.write, hc]
      rfl
    obtain ⟨h1, h2⟩ := indentation_same t.rune? f
    rw [e, settle_down _ (by show (indentation t.rune? f).w.pendingIndent + FormatWriter.weight c = -1; rw [h2, hp, hw]; rfl)]
    show (indentation t.rune? f).w.indent - 1 = _
    rw [h1]

/-! ## Within a line -/

/-- **C117** (within a line): if a blank is to stand before a token of a line, exactly one is written, unless the text before ends with a blank or
an opening bracket, or the token begins with a separator or a closing bracket; otherwise none. -/
theorem C117_inline (t : Tok) (f : F) (hl : t.leading = []) (ht : t.trailing = []) (hs : t.str ≠ []) :
    (inl t f).w.out = f.w.out ++ (if f.w.pendingSpace = true ∧ f.w.last ∉ ['\x00', ' ', '\t', '\n', '<', '[', '{', '('] ∧
      t.str.head hs ∉ ['\n', ';', ',', ')', ']', '}', '>'] then [' '] else []) ++ t.str := by
  have e : (inl t f).w.out = (write { f.w with inline := true } t.str).out := by
    unfold inl
    simp only [ht, leadInline, hl, ne_eq, not_true, if_false]
    unfold Tok.write Tok.str
    cases t.term <;> rfl
  rw [e]
  show f.w.out ++ spaceFor { f.w with inline := true } t.str ++ t.str = _
  have hf : ∀ (x : Str) (hx : x ≠ []), FormatWriter.firstRune x = x.head hx := by
    intro x hx
    cases x with
    | nil => exact absurd rfl hx
    | cons a b => rfl
  congr 2
  unfold spaceFor
  simp only [FormatWriter.prevBlock, FormatWriter.nextBlock, hf _ hs, if_true]
  have iff : ∀ (p q : Prop) [Decidable p] [Decidable q], (p ↔ q) → (if p then [' '] else ([] : Str)) = if q then [' '] else [] := by
    intro p q _ _ h
    by_cases hp : p
    · rw [if_pos hp, if_pos (h.1 hp)]
    · rw [if_neg hp, if_neg (fun k => hp (h.2 k))]
  refine iff _ _ ?_
  simp only [Bool.and_eq_true, Bool.not_eq_true', ← Bool.not_eq_true, List.contains_iff_mem, and_assoc]

/-- **C117** (state): however a token is written, the formatter knows afterwards whether it opened a block, and writing a token within a line
leaves the mode for lines, whatever the mode before. -/
theorem C117_remembered (cfg : Cfg) (t : Tok) (f : F) : ((start cfg t f).prevOpen = true ↔ Opens t) ∧ ((inl t f).prevOpen = true ↔ Opens t) ∧
    ((openBraceInline t f).prevOpen = true ↔ Opens t) ∧ (inl t f).w.inline = false := by
  have h : ∀ g : F, g.prev = some (isOpen t.rune?) → (g.prevOpen = true ↔ Opens t) := by
    intro g hg
    rw [← isOpen_iff]
    unfold F.prevOpen
    rw [hg]
    cases isOpen t.rune? <;> simp
  exact ⟨h _ rfl, h _ rfl, h _ rfl, rfl⟩

/-! ## Literals of several parts -/

/-- A part of a string literal, without comments. -/
structure StringPart (t : Tok) : Prop where
  raw : ∃ r, t.term = .string r
  lead : t.leading = []
  trail : t.trailing = []

theorem StringPart.rune {t : Tok} (h : StringPart t) : t.rune? = none := by
  obtain ⟨r, e⟩ := h.raw
  unfold Tok.rune?
  rw [e]

theorem StringPart.not_closes {t : Tok} (h : StringPart t) : ¬ Closes t := by
  obtain ⟨r, e⟩ := h.raw
  rintro ⟨c, -, e'⟩
  rw [e] at e'
  cases e'

theorem StringPart.not_opens {t : Tok} (h : StringPart t) : ¬ Opens t := by
  obtain ⟨r, e⟩ := h.raw
  unfold Opens
  rw [e]
  simp

theorem StringPart.line {cfg : Cfg} {t : Tok} (h : StringPart t) (g : F) (hs : AtStart g.w) :
    AtStart (lineElement cfg t g).w ∧ (lineElement cfg t g).w.indent = g.w.indent ∧
    (lineElement cfg t g).w.out = g.w.out ++ (List.replicate (2 * g.w.indent) ' ' ++ t.str ++ ['\n']) := by
  have e : (lineElement cfg t g).w = settle (write (t.write (indentation t.rune? g)).w ['\n']) := by
    unfold lineElement bodyEnd
    simp only [h.trail, endComments, endLead, h.lead]
    rfl
  have hw : ∀ k : F, (t.write k).w = write k.w t.str := by
    intro k
    obtain ⟨r, e⟩ := h.raw
    unfold Tok.write
    rw [e]
    rfl
  have ho := token_out t g hs.last hs.space g.w.indent ⟨fun hc => absurd hc h.not_closes, fun _ => rfl⟩
  obtain ⟨i1, i2⟩ := indentation_same t.rune? g
  have hp : (write (t.write (indentation t.rune? g)).w ['\n']).pendingIndent = 0 := by
    rw [hw]
    show (indentation t.rune? g).w.pendingIndent = 0
    rw [i2, hs.indent]
  have hi : (write (t.write (indentation t.rune? g)).w ['\n']).indent = g.w.indent := by
    rw [hw]
    exact i1
  have hout : (write (t.write (indentation t.rune? g)).w ['\n']).out = g.w.out ++ (List.replicate (2 * g.w.indent) ' ' ++ t.str ++ ['\n']) := by
    show (t.write (indentation t.rune? g)).w.out ++ spaceFor (t.write (indentation t.rune? g)).w ['\n'] ++ ['\n'] = _
    have : spaceFor (t.write (indentation t.rune? g)).w ['\n'] = [] := by
      rw [hw]
      simp [spaceFor, write]
    rw [this, ho]
    simp
  have hset : (settle (write (t.write (indentation t.rune? g)).w ['\n'])).indent = g.w.indent := by
    unfold settle
    simp [hp, hi]
  obtain ⟨a1, a2, a3, a4⟩ := settle_eqs (write (t.write (indentation t.rune? g)).w ['\n'])
  rw [e]
  exact ⟨⟨by rw [a1]; rfl, by rw [a2]; rfl, a3, ⟨_, by rw [a4, hout, ← List.append_assoc]⟩⟩, hset, by rw [a4, hout]⟩

theorem strings_text (cfg : Cfg) (z : Tok) (hz : StringPart z) : ∀ (ps : List Tok) (a : Tok) (f g : F), (∀ t ∈ ps, StringPart t) → EndsLine cfg a f g →
    ¬ Opens a → (stringsLoop cfg true (ps ++ [z]) g).w.indent = g.w.indent ∧ (stringsLoop cfg true (ps ++ [z]) g).w.out =
      g.w.out ++ ps.flatMap (fun t => List.replicate (2 * g.w.indent) ' ' ++ t.str ++ ['\n']) ++
        (open scoped Classical in if HasBlank z.ws then ['\n'] else []) ++ List.replicate (2 * g.w.indent) ' ' ++ z.str
  | [], a, f, g, _, h, ha => by
    classical
    have e : stringsLoop cfg true ([] ++ [z]) g = start cfg z g := rfl
    rw [e]
    obtain ⟨-, n, h1, -, h2⟩ := C117_blank cfg a z f g h hz.lead hz.trail
    rw [h1, h2 hz.not_closes]
    constructor
    · have hi : ∀ k : F, (startPost z.trailing z.rune? (z.write k)).w.indent = k.w.indent := by
        intro k
        obtain ⟨r, e⟩ := hz.raw
        simp only [startPost, hz.trail, setPrev, Tok.write, e]
        rfl
      show (startPost z.trailing z.rune? (z.write (startPre cfg false z.ws z.leading z.rune? g))).w.indent = _
      rw [hi]
      unfold startPre
      rw [(indentation_same _ _).1]
      simp only [hz.lead, ne_eq, not_true, if_false]
      split
      · exact (newline_keeps g (endsLine_start h).1).2.1
      · rfl
    · by_cases hb : HasBlank z.ws <;> simp [hb, ha]
  | t :: ps, a, f, g, hp, h, ha => by
    have ht : StringPart t := hp t (by simp)
    have e : stringsLoop cfg true ((t :: ps) ++ [z]) g = stringsLoop cfg true (ps ++ [z]) (lineElement cfg t g) := by
      cases ps <;> rfl
    obtain ⟨l1, l2, l3⟩ := ht.line (cfg := cfg) g (endsLine_start h).1
    obtain ⟨i1, i2⟩ := strings_text cfg z hz ps t g (lineElement cfg t g) (fun x hx => hp x (by simp [hx])) (.body none false) ht.not_opens
    rw [e, i2, i1, l2, l3]
    refine ⟨rfl, ?_⟩
    simp [List.append_assoc]

/-- **C117** (literals of several parts): the parts of a string literal stand on lines of their own, one level deeper than the line that the literal
belongs to, in the order of the source, and what follows is at the level of that line again. -/
theorem C117_strings (cfg : Cfg) (t z : Tok) (ps : List Tok) (f : F) (ht : StringPart t) (hp : ∀ x ∈ ps, StringPart x) (hz : StringPart z) (hb : ¬ HasBlank z.ws)
    (hf : f.w.pendingIndent = 0) : (compoundStrings cfg true true (t :: ps ++ [z]) f).w.indent = f.w.indent ∧
    (compoundStrings cfg true true (t :: ps ++ [z]) f).w.out = f.w.out ++ ['\n'] ++
      (t :: ps).flatMap (fun x => List.replicate (2 * (f.w.indent + 1)) ' ' ++ x.str ++ ['\n']) ++
      List.replicate (2 * (f.w.indent + 1)) ' ' ++ z.str := by
  classical
  have hn : (newline f).w = { f.w with out := f.w.out ++ ['\n'], pendingSpace := false, last := '\n' } := by
    show settle (write f.w ['\n']) = _
    have : spaceFor f.w ['\n'] = [] := by
      unfold spaceFor FormatWriter.nextBlock FormatWriter.firstRune
      cases f.w.inline <;> simp
    unfold settle write
    simp [this, hf]
  have hs : AtStart (indentIn (newline f)).w := by
    show AtStart (FormatWriter.incr (newline f).w)
    rw [hn]
    exact ⟨rfl, rfl, hf, ⟨_, rfl⟩⟩
  have hi : (indentIn (newline f)).w.indent = f.w.indent + 1 := by
    show (FormatWriter.incr (newline f).w).indent = _
    rw [hn]
    rfl
  have ho : (indentIn (newline f)).w.out = f.w.out ++ ['\n'] := by
    show (FormatWriter.incr (newline f).w).out = _
    rw [hn]
    rfl
  obtain ⟨l1, l2, l3⟩ := ht.line (cfg := cfg) _ hs
  obtain ⟨i1, i2⟩ := strings_text cfg z hz ps t _ (lineElement cfg t (indentIn (newline f))) hp (.body none false) ht.not_opens
  have e : stringsLoop cfg true (t :: ps ++ [z]) (indentIn (newline f)) = stringsLoop cfg true (ps ++ [z]) (lineElement cfg t (indentIn (newline f))) := by
    cases ps <;> rfl
  have hd : (compoundStrings cfg true true (t :: ps ++ [z]) f).w =
      FormatWriter.decr (stringsLoop cfg true (ps ++ [z]) (lineElement cfg t (indentIn (newline f)))).w := by
    rw [← e]
    rfl
  rw [hd]
  unfold FormatWriter.decr
  rw [if_neg (by rw [i1, l2, hi]; omega)]
  refine ⟨by show _ - 1 = _; rw [i1, l2, hi]; rfl, ?_⟩
  show (stringsLoop cfg true (ps ++ [z]) (lineElement cfg t (indentIn (newline f)))).w.out = _
  rw [i2, l2, l3, hi, ho, if_neg hb]
  simp [List.append_assoc]

/-! ## Examples -/

namespace BlankExample

def cfg : Cfg := ⟨fun _ => none, fun _ _ => false⟩
def semicolon : Tok := { term := .rune ';' }
def opening : Tok := { term := .rune '{' }
def word : Tok := { term := .text ['i', 'n', 't'], ws := ['\n', '\n', '\n'] }
def closing : Tok := { term := .rune '}', ws := ['\n', '\n'] }

/-- Three line breaks in the source: one blank line. -/
example : (start cfg word (lineEnd cfg semicolon {})).w.out = [';', '\n', '\n', 'i', 'n', 't'] := by
  obtain ⟨-, n, h, -, h2⟩ := C117_blank cfg semicolon word {} _ .line rfl rfl
  rw [h, if_pos ⟨⟨[], [], ['\n'], rfl⟩, by simp [Opens, semicolon]⟩, h2 (by simp [Closes, word])]
  decide +kernel

/-- After an opening bracket: none. -/
example : (start cfg word (openBrace cfg opening {})).w.out = ['{', '\n', ' ', ' ', 'i', 'n', 't'] := by
  obtain ⟨-, n, h, -, h2⟩ := C117_blank cfg opening word {} _ .bracket rfl rfl
  rw [h, if_neg (fun e => e.2 (.inl rfl)), h2 (by simp [Closes, word])]
  decide +kernel

/-- Before a closing one: none. -/
example : (bodyEnd cfg closing none false (openBrace cfg opening {})).w.out = ['{', '\n', '}', '\n'] := by
  rw [C117_close cfg opening closing none {} _ .bracket rfl rfl ⟨'}', by simp, rfl⟩]
  decide +kernel

/-- A comment behind an opening bracket, a blank line, and the element. -/
def commented : Tok := { word with leading := [⟨['/', '/', 'x'], ['\n', '\n'], false⟩] }

example : (start cfg commented (openBrace cfg opening {})).w.out =
    ['{', '\n', ' ', ' ', '/', '/', 'x', '\n', '\n', ' ', ' ', 'i', 'n', 't'] := by
  obtain ⟨n, h, -, h2⟩ := C117_comments cfg opening commented {} _ .bracket (by simp [commented]) (by simp [commented, OneLine]) rfl
  rw [h, if_pos ⟨[], [], ['\n'], rfl⟩, h2 (by simp [Closes, commented, word])]
  have hn : ¬ (HasBlank ['\n', '\n'] ∧ ¬ Opens opening) := fun e => e.2 (.inl rfl)
  simp only [commented, commentLines, if_neg hn]
  decide +kernel

example : (openBrace cfg opening {}).w.indent = 1 := ((C117_level cfg opening {} rfl rfl rfl).1 (.inl rfl)).1

/-- A blank is asked for behind a bracket, and is not written. -/
example : (inl word (space (openBraceInline opening {}))).w.out = ['{', 'i', 'n', 't'] := by
  rw [C117_inline word _ rfl rfl (by simp [Tok.str, word])]
  decide +kernel

example : (start cfg opening {}).prevOpen = true := (C117_remembered cfg opening {}).1.2 (.inl rfl)

/-- A part of a string literal. -/
def part : Tok := { word with term := .string ['"', 'x', '"'], ws := ['\n'] }

theorem part_ok : StringPart part := ⟨⟨_, rfl⟩, rfl, rfl⟩

example : (compoundStrings cfg true true [part, part, part] {}).w.out =
    ['\n', ' ', ' ', '"', 'x', '"', '\n', ' ', ' ', '"', 'x', '"', '\n', ' ', ' ', '"', 'x', '"'] := by
  have h := (C117_strings cfg part part [part] {} part_ok (by simp [part_ok]) part_ok (by rw [← count_blank]; decide +kernel) rfl).2
  exact h.trans (by decide +kernel)

end BlankExample

end Verif.Formatter
