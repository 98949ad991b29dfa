import Verif.Lemmas.FormatLines
import Verif.Lemmas.CommentLexer
/-! The effect of the operations of the formatter on the comments of its output. -/
namespace Verif.Formatter
open Verif.Lexer Verif.Comment
open Verif.InlineComment (Comment)
open Verif.FormatWriter (St)

variable {b : Bool} {cfg : Cfg}

/-- The output is well formed. -/
def Fine (b : Bool) (f : F) (k : K) : Prop := ∃ ts, Good b f ts k

/-- The function writes the comments `cs` in a state `k`, and leads to a state `k'`. -/
def Keeps (b : Bool) (g : F → F) (k : K) (cs : List (List Str)) (k' : K) : Prop :=
  ∀ f, Fine b f k → Fine b (g f) k' ∧ said (g f).w.out = said f.w.out ++ cs

theorem Keeps.comp {g h : F → F} {k k' k'' : K} {a a' : List (List Str)} (hg : Keeps b g k a k') (hh : Keeps b h k' a' k'') :
    Keeps b (fun f => h (g f)) k (a ++ a') k'' := fun f hf => by
  obtain ⟨h1, h2⟩ := hg f hf
  obtain ⟨h3, h4⟩ := hh _ h1
  exact ⟨h3, by rw [h4, h2, List.append_assoc]⟩

theorem Fine.mono {f : F} {k k' : K} (h : Fine b f k) (hk : k.le k' = true) : Fine b f k' := by
  obtain ⟨ts, h⟩ := h; exact ⟨ts, h.mono hk⟩

theorem Fine.idle {f : F} (h : Fine b f .idle) (k : K) : Fine b f k := by
  obtain ⟨ts, h⟩ := h; exact ⟨ts, h.idle k⟩

theorem Keeps.mono {g : F → F} {k k0 k' k1 : K} {a : List (List Str)} (hg : Keeps b g k a k') (h0 : k0.le k = true)
    (h1 : k'.le k1 = true) : Keeps b g k0 a k1 := fun _ hf =>
  ⟨(hg _ (hf.mono h0)).1.mono h1, (hg _ (hf.mono h0)).2⟩

theorem Keeps.to {g : F → F} {k k' : K} {a : List (List Str)} (hg : Keeps b g k a .idle) : Keeps b g k a k' :=
  fun _ hf => ⟨(hg _ hf).1.idle _, (hg _ hf).2⟩

theorem Keeps.from {g : F → F} {k k' : K} {a : List (List Str)} (hg : Keeps b g k a k') : Keeps b g .idle a k' :=
  fun _ hf => hg _ (hf.idle _)

theorem Keeps.id (k : K) : Keeps b (fun f => f) k [] k := fun f hf => ⟨hf, by rw [List.append_nil]⟩

theorem Keeps.fn {g g' : F → F} {k k' : K} {a : List (List Str)} (hg : Keeps b g k a k') (h : ∀ f, g' f = g f) :
    Keeps b g' k a k' := by
  have : g' = g := funext h
  rw [this]; exact hg

theorem Keeps.told {g : F → F} {k k' : K} {a a' : List (List Str)} (hg : Keeps b g k a k') (h : a = a') :
    Keeps b g k a' k' := h ▸ hg

theorem Emits.keeps {g : F → F} {k k' : K} {ts : List Str} {cs : List (List Str)} (h : Emits b g k ts k')
    (hs : ∀ f toks, Good b f toks k → said (g f).w.out = said f.w.out ++ cs) : Keeps b g k cs k' := by
  rintro f ⟨toks, hf⟩
  exact ⟨⟨_, h f toks hf⟩, hs f toks hf⟩

theorem Emits.quiet {g : F → F} {k k' : K} {ts : List Str} (h : Emits b g k ts k') (hs : ∀ f, (g f).w.out = f.w.out) :
    Keeps b g k [] k' := h.keeps fun f _ _ => by rw [hs, List.append_nil]

theorem keeps_ite {p : Prop} [Decidable p] {g h : F → F} {k k' : K} {a : List (List Str)} (h1 : Keeps b g k a k')
    (h2 : Keeps b h k a k') : Keeps b (fun f => if p then g f else h f) k a k' := by
  by_cases hp : p
  · exact h1.fn (fun f => if_pos hp)
  · exact h2.fn (fun f => if_neg hp)

/-- A choice that depends on the state. -/
theorem keeps_choice {p : F → Prop} [∀ f, Decidable (p f)] {g h : F → F} {k k' : K} {a : List (List Str)} (h1 : Keeps b g k a k')
    (h2 : Keeps b h k a k') : Keeps b (fun f => if p f then g f else h f) k a k' := by
  intro f hf
  by_cases hp : p f
  · simp only [if_pos hp]; exact h1 f hf
  · simp only [if_neg hp]; exact h2 f hf

/-! ### Writing a text -/

theorem outside_of_fit {k : K} (hk : k ≠ .eol) {p : Bool} {m : Mode} (h : Fit k p m) : Outside m := by
  rcases fit_clean_or h with h | h
  · exact h.outside
  · cases k <;> cases m <;> simp_all [Bare, Outside, Clean]

theorem said_append {s t : Str} (h : Outside (lexFrom .idle s).2) :
    said (s ++ t) = said s ++ (allComments (lexFrom .idle s).2 [] t).map content := by
  unfold said; rw [comments_append h, List.map_append]

theorem put_cases {f : F} {ts : List Str} {k : K} (h : Good b f ts k) (hk : k ≠ .eol) (s : Str) :
    ((put s f).w.out = f.w.out ++ ' ' :: s ∧ (Clean (lexFrom .idle f.w.out).2 ∨ (lexFrom .idle f.w.out).2 = .slash)) ∨
    ((put s f).w.out = f.w.out ++ s ∧ Before k s (lexFrom .idle f.w.out).2) := by
  by_cases hsp : FormatWriter.spaceFor f.w s = [' ']
  · left
    have hout : (Formatter.put s f).w.out = f.w.out ++ ' ' :: s := by
      show f.w.out ++ FormatWriter.spaceFor f.w s ++ s = _
      rw [hsp]; simp
    refine ⟨hout, ?_⟩
    rcases fit_clean_or h.fit with hc | hb
    · exact .inl hc
    · revert hb
      generalize (lexFrom .idle f.w.out).2 = m
      intro hb
      cases k <;> cases m <;> simp_all [Bare, Clean]
  · right
    have hsp0 : FormatWriter.spaceFor f.w s = [] := by
      unfold FormatWriter.spaceFor at hsp ⊢
      split at hsp
      · exact absurd rfl hsp
      · rename_i hc; rw [if_neg hc]
    refine ⟨?_, ?_⟩
    · show f.w.out ++ FormatWriter.spaceFor f.w s ++ s = _
      rw [hsp0, List.append_nil]
    · rcases h.fit with hf | ⟨hk, hp, hcl⟩ | hf
      · exact .inl hf
      · unfold FormatWriter.spaceFor at hsp0
        by_cases h1 : FormatWriter.prevBlock f.w.inline f.w.last = true
        · left
          rcases h.last with ho | ho
          · rw [ho]; rfl
          · exact idle_of_last ho (prevBlock_wordish h1) hcl
        · by_cases h2 : FormatWriter.nextBlock f.w.inline (FormatWriter.firstRune s) = true
          · exact .inr (.inl ⟨hcl, nextBlock_closer h2⟩)
          · simp [hp, h1, h2] at hsp0
      · exact .inr (.inr hf)

theorem said_put {f : F} {ts : List Str} {k : K} (h : Good b f ts k) (hk : k ≠ .eol) {s : Str} {new : List Str}
    (H : ∀ m, Before k s m → allComments m [] s = new) : said (put s f).w.out = said f.w.out ++ new.map content := by
  have ho := outside_of_fit hk h.fit
  rcases put_cases h hk s with ⟨h1, h2⟩ | ⟨h1, h2⟩
  · have h3 := H .idle (.inl rfl)
    rw [h1, said_append ho, allComments_space h2 (by decide)]
    unfold comments
    rw [h3]
  · rw [h1, said_append ho, H _ h2]

/-- A token is not a comment. -/
theorem said_token {f : F} {ts : List Str} {k k' : K} {s : Str} (h : Good b f ts k) (hk : k ≠ .eol)
    (h' : Good b (put s f) (ts ++ [s]) k') (hk' : k' ≠ .eol) : said (put s f).w.out = said f.w.out := by
  have ho := outside_of_fit hk h.fit
  have hl' : (lexFrom .idle (put s f).w.out).2 ≠ .line := by
    have := outside_of_fit hk' h'.fit
    intro e; rw [e] at this; exact this
  have e1 := congrArg size h.lexed
  have e2 := congrArg size h'.lexed
  simp only [size_append, size_cons, size_nil] at e1 e2
  rcases put_cases h hk s with ⟨h1, h2⟩ | ⟨h1, h2⟩
  · have h3 : lexFrom (lexFrom .idle f.w.out).2 (' ' :: s) =
        (done (lexFrom .idle f.w.out).2 ++ (lexFrom .idle s).1, (lexFrom .idle s).2) := by
      revert h2
      generalize (lexFrom .idle f.w.out).2 = m
      intro h2
      have hsp : step m ' ' = (done m, .idle) := by
        rcases h2 with h2 | rfl
        · rw [step_hard h2 (by decide), show fresh ' ' = ([], .idle) by decide]; simp
        · decide
      simp only [lexFrom, hsp]
    rw [h1, lexFrom_append, h3] at e2 hl'
    simp only [size_append] at e2 hl'
    rw [h1, said_append ho, allComments_space h2 (by decide)]
    have : comments s = [] := Lexer.quiet (by rw [show size (done .idle) = 0 from rfl]; omega) hl'
    rw [this]; simp
  · rw [h1, lexFrom_append] at e2 hl'
    simp only [size_append] at e2 hl'
    rw [h1, said_append ho, Lexer.quiet (by omega) hl']; simp

/-! ### The simple operations -/

theorem keeps_setPrev (x : Bool) (k : K) : Keeps b (setPrev x) k [] k := (emits_setPrev x k).quiet fun _ => rfl
theorem keeps_setInline (x : Bool) (k : K) : Keeps b (setInline x) k [] k := (emits_setInline x k).quiet fun _ => rfl
theorem keeps_indentIn (k : K) : Keeps b indentIn k [] k := (emits_indentIn k).quiet fun _ => rfl
theorem keeps_indentOut (k : K) : Keeps b indentOut k [] k := (emits_indentOut k).quiet fun f => by
  unfold indentOut FormatWriter.decr; split <;> rfl
theorem keeps_space (k : K) : Keeps b space k [] k := (emits_space k).quiet fun _ => rfl
theorem keeps_space_free {k : K} (hk : k ≠ .slash) (hk' : k ≠ .eol) : Keeps b space k [] .free :=
  (emits_space_free hk hk').quiet fun _ => rfl

theorem fine_setCompact {f : F} {k : K} {b' : Bool} (h : Fine b' f k) (b : Bool) : Fine b (setCompact b f) k := by
  obtain ⟨ts, h⟩ := h; exact ⟨ts, good_setCompact h b⟩

theorem said_newline {f : F} {ts : List Str} {k : K} (hk : k ≠ .slash) (h : Good b f ts k) :
    said (put ['\n'] f).w.out = said f.w.out := by
  have hout : (put ['\n'] f).w.out = f.w.out ++ ['\n'] := by
    show f.w.out ++ FormatWriter.spaceFor f.w ['\n'] ++ ['\n'] = _
    have : FormatWriter.spaceFor f.w ['\n'] = [] := by
      unfold FormatWriter.spaceFor FormatWriter.firstRune FormatWriter.nextBlock
      cases f.w.inline <;> simp
    rw [this, List.append_nil]
  rw [hout]
  have hcase : Clean (lexFrom .idle f.w.out).2 ∨ (lexFrom .idle f.w.out).2 = .line := by
    rcases fit_clean_or h.fit with h | h
    · exact .inl h
    · revert h
      generalize (lexFrom .idle f.w.out).2 = m
      intro h
      cases k <;> cases m <;> simp_all [Bare, Clean]
  rcases hcase with hc | hc
  · rw [said_append hc.outside, allComments_space (.inl hc) (by decide)]
    simp [comments_nil]
  · unfold said
    rw [comments_newline hc, comments_nil, List.append_nil]

theorem keeps_newline_char {k : K} (hk : k ≠ .slash) : Keeps b (put ['\n']) k [] .idle := by
  rintro f ⟨ts, hf⟩
  exact ⟨⟨ts, hf.newline_char hk⟩, by rw [said_newline hk hf, List.append_nil]⟩

theorem keeps_newline {k : K} (hk : k ≠ .slash) : Keeps b newline k [] .idle :=
  (emits_newline hk).keeps fun f ts hf => by
    rw [(newline_parts f).1, said_newline hk hf, List.append_nil]

theorem keeps_indentation {k : K} (r : Option Char) : Keeps b (indentation r) k [] k :=
  (emits_indentation r).keeps fun f _ hf => by
    rw [List.append_nil]
    by_cases hl : f.w.last ≠ '\n'
    · have : indentation r f = f := by
        unfold indentation FormatWriter.indentation
        rw [if_pos hl]
      rw [this]
    · have hl : f.w.last = '\n' := Decidable.byContradiction hl
      obtain ⟨n, hn⟩ : ∃ n, indentation r f = put (List.replicate n ' ') f := by
        unfold indentation FormatWriter.indentation
        rw [if_neg (by simp [hl])]
        exact ⟨_, rfl⟩
      have hsp : FormatWriter.spaceFor f.w (List.replicate n ' ') = [] := by
        unfold FormatWriter.spaceFor FormatWriter.prevBlock
        rw [hl]
        cases f.w.inline <;> simp
      have hout : (put (List.replicate n ' ') f).w.out = f.w.out ++ List.replicate n ' ' := by
        show f.w.out ++ FormatWriter.spaceFor f.w _ ++ _ = _
        rw [hsp, List.append_nil]
      have hm := hf.at_newline hl
      rw [hn, hout, said_append (by rw [hm]; trivial), hm]
      have : allComments .idle [] (List.replicate n ' ') = [] := by
        have := comments_blank (BlockComment.blank_spaces n) []
        rw [List.append_nil, comments_nil] at this
        exact this
      rw [this]; simp

theorem keeps_write {t : Tok} {c : Cls} {k : K} (ht : TermOk c t.term) (hk : Accept k c = true) :
    Keeps b t.write k [] (after c) := (emits_write ht hk).keeps fun f ts hf => by
  rw [List.append_nil]
  have h' := emits_write (b := b) ht hk f ts hf
  have hke : k ≠ .eol := by intro e; subst e; simp [Accept] at hk
  have hae : after c ≠ .eol := by cases c <;> simp [after]
  cases hterm : t.term with
  | rune r =>
    have hstr : t.str = [r] := by unfold Tok.str; rw [hterm]
    have hw : (t.write f).w.out = (put [r] f).w.out := by unfold Tok.write; rw [hterm]; rfl
    rw [hw]
    rw [hstr] at h'
    refine said_token hf hke (k' := after c) ?_ hae
    refine h'.congr hw.symm ?_ ?_ ?_ ?_ <;> (unfold Tok.write; rw [hterm]; rfl)
  | text s =>
    have hw := put_eq_write t f (by rw [hterm]; intro c hc; cases hc)
    rw [hw] at h' ⊢
    exact said_token hf hke h' hae
  | string s =>
    have hw := put_eq_write t f (by rw [hterm]; intro c hc; cases hc)
    rw [hw] at h' ⊢
    exact said_token hf hke h' hae

/-! ### Comments -/

theorem before_clean {k : K} (hk : k.calm = true) {s : Str} {m : Mode} (h : Before k s m) : Clean m := by
  rcases h with rfl | h | h
  · trivial
  · exact h.1
  · cases k <;> cases m <;> simp_all [Bare, Clean, K.calm]

theorem said_block {f : F} {ts : List Str} {k : K} (h : Good b f ts k) (hk : k.calm = true) {s : Str} (hs : IsBlock s) :
    said (put s f).w.out = said f.w.out ++ [content s] := by
  refine said_put h (K.calm_ne hk).2 (new := [s]) ?_
  intro m hm
  rw [← comments_isBlock hs]
  obtain ⟨r, rfl, _⟩ := hs
  exact allComments_hard (before_clean hk hm) (by decide) _

theorem content_inline {c : Comment} (h : CommentOk c) : content (InlineComment.inlineText c.text) = content c.text := by
  rcases h with h | ⟨r, h1, h2, h3⟩
  · exact content_respaced (InlineComment.C44_block _ h).2.2 h
  · obtain ⟨_, w, w', hw, hw', he, hr⟩ := InlineComment.C44_line r
    rw [h1, he]
    have e : ['/', '*', ' '] ++ trimSpace r ++ [' ', '*', '/'] = '/' :: '*' :: (([' '] ++ (trimSpace r ++ [' '])) ++ ['*', '/']) := by
      simp
    have hb : Blank [' '] := BlockComment.blank_spaces 1
    unfold content
    rw [e, inside_block, inside_line, words_blank hb, words_blank_end hb]
    conv => rhs; rw [hr]
    rw [words_blank_end hw', words_blank hw]

theorem conts_cons (c : Comment) (cs : List Comment) : conts (c :: cs) = content c.text :: conts cs := rfl

theorem keeps_inlineLoop {k : K} (hk : k.calm = true) (cs : List Comment) (h : ∀ c ∈ cs, CommentOk c)
    (hv : ∀ c ∈ cs, c.virtual = false) : ∀ i, Keeps b (fun f => { f with w := InlineComment.writeLoop i f.w cs }) k (conts cs) k := by
  induction cs with
  | nil => intro i; exact Keeps.id k
  | cons c cs ih =>
    intro i
    obtain ⟨hk1, hk2⟩ := K.calm_ne hk
    have h1 : Keeps b (fun f => { f with w := InlineComment.writeOne i f.w c }) k [content c.text] k := by
      rintro f ⟨ts, hf⟩
      beta_reduce
      have hv : ¬ c.virtual = true := by rw [hv c List.mem_cons_self]; simp
      have hc := h c List.mem_cons_self
      have hb := commentOk_inline hc
      by_cases hsp : i > 0 ∨ c.leadingWhitespace ≠ [] ∨ f.w.last = ';' ∨ f.w.last = '}'
      · have : ({ f with w := InlineComment.writeOne i f.w c } : F) = put (InlineComment.inlineText c.text) (space f) := by
          unfold InlineComment.writeOne; rw [if_neg hv, if_pos hsp]; rfl
        rw [this]
        have hs : Good b (space f) ts k := by have := emits_space k f ts hf; rwa [List.append_nil] at this
        exact ⟨⟨ts, (good_block hs hk1 hk2 hb).idle k⟩, by rw [said_block hs hk hb, content_inline hc]; rfl⟩
      · have : ({ f with w := InlineComment.writeOne i f.w c } : F) = put (InlineComment.inlineText c.text) f := by
          unfold InlineComment.writeOne; rw [if_neg hv, if_neg hsp]; rfl
        rw [this]
        exact ⟨⟨ts, (good_block hf hk1 hk2 hb).idle k⟩, by rw [said_block hf hk hb, content_inline hc]⟩
    exact (h1.comp (ih (fun c hc => h c (List.mem_cons_of_mem _ hc)) (fun c hc => hv c (List.mem_cons_of_mem _ hc))
      (i + 1))).fn (fun f => rfl)

theorem keeps_inlineComments {k : K} (hk : k.calm = true) {cs : List Comment} (h : CommentsOk cs)
    (hv : ∀ c ∈ cs, c.virtual = false) : Keeps b (inlineComments cs) k (conts cs) k := keeps_inlineLoop hk cs h.each hv 0

/-- A comment on its own line or at the end of a line. -/
theorem fine_comment {f : F} {k : K} (h : Fine b f k) (hk : k.calm = true) {c : Comment} (hc : CommentOk c) :
    Fine b (comment cfg c.text f) .eol ∧ (['/', '/'].isPrefixOf c.text = false → Fine b (comment cfg c.text f) .idle) ∧
      said (comment cfg c.text f).w.out = said f.w.out ++ [content c.text] := by
  obtain ⟨ts, h⟩ := h
  obtain ⟨g1, g2⟩ := good_comment (cfg := cfg) h hk hc
  refine ⟨⟨ts, g1⟩, fun e => ⟨ts, g2 e⟩, ?_⟩
  rcases hc with hs | ⟨r, h1, h2, _⟩
  · obtain ⟨pre, hp, ho⟩ := BlockComment.C49_written cfg.pfx f.w c.text hs
    have hr := BlockComment.C49_block cfg.pfx (BlockComment.restLevel f.w) c.text hs
    have hcont := content_respaced (BlockComment.respaced_rendered cfg.pfx (BlockComment.restLevel f.w) c.text hs) hs
    have hout : (comment cfg c.text f).w.out =
        f.w.out ++ (pre ++ BlockComment.rendered cfg.pfx (BlockComment.restLevel f.w) c.text) := by
      rw [← List.append_assoc]; exact ho
    have hcl := clean_of_calm hk h.fit
    have ha : allComments (lexFrom .idle f.w.out).2 [] (pre ++ BlockComment.rendered cfg.pfx (BlockComment.restLevel f.w) c.text) =
        [BlockComment.rendered cfg.pfx (BlockComment.restLevel f.w) c.text] := by
      revert hr
      generalize BlockComment.rendered cfg.pfx (BlockComment.restLevel f.w) c.text = z
      intro hr
      have hz := comments_isBlock hr
      cases pre with
      | nil =>
        obtain ⟨r, rfl, _⟩ := hr
        rw [List.nil_append, allComments_hard hcl (by decide), hz]
      | cons x pre =>
        rw [List.cons_append, allComments_space (.inl hcl) (hp x List.mem_cons_self),
          comments_blank (fun d hd => hp d (List.mem_cons_of_mem _ hd)), hz]
    rw [hout, said_append hcl.outside, ha, List.map_singleton, hcont]
  · rw [h1]
    obtain ⟨w, w', e1, e2, e3, _⟩ := trimSpace_split ('/' :: '/' :: r)
    obtain ⟨r', e4, e5⟩ := trim_line h2
    have he : comment cfg ('/' :: '/' :: r) f = put ('/' :: '/' :: r') (indentation none f) := by
      unfold comment BlockComment.writeComment
      rw [if_neg (by intro hh; have := hh.1; simp [List.isPrefixOf] at this), e4]
      rfl
    have hrr : content ('/' :: '/' :: r') = content ('/' :: '/' :: r) := by
      unfold content
      rw [inside_line, inside_line]
      rw [e4] at e1
      cases w with
      | nil =>
        have : r = r' ++ w' := by simpa using e1
        rw [this, words_blank_end e3]
      | cons x w =>
        exfalso
        have : x = '/' := by simp only [List.cons_append] at e1; exact (List.cons.inj e1).1.symm
        have hx := e2 x List.mem_cons_self
        rw [this] at hx; revert hx; decide
    obtain ⟨⟨ts', hi⟩, hi2⟩ := keeps_indentation (b := b) none f ⟨ts, h⟩
    rw [he, said_put hi (K.calm_ne hk).2 (new := ['/' :: '/' :: r']), hi2, List.append_nil, List.map_singleton, hrr]
    intro m hm
    rw [allComments_hard (before_clean hk hm) (by decide), comments_lineComment e5]

theorem keeps_multilineLoop {k : K} (hk : k.calm = true) (cs : List Comment) (h : ∀ c ∈ cs, CommentOk c) :
    ∀ compact, Keeps b (multilineLoop cfg compact cs) k (conts cs) k := by
  induction cs generalizing k with
  | nil => intro compact; exact Keeps.id k
  | cons c cs ih =>
    intro compact f hf
    obtain ⟨hk1, hk2⟩ := K.calm_ne hk
    have h1 : Fine b (if !compact && newlines c.leadingWhitespace > 1 then newline f else f) k ∧
        said (if !compact && newlines c.leadingWhitespace > 1 then newline f else f).w.out = said f.w.out := by
      split
      · obtain ⟨a1, a2⟩ := keeps_newline hk1 f hf
        exact ⟨a1.idle _, by rw [a2, List.append_nil]⟩
      · exact ⟨hf, rfl⟩
    obtain ⟨b1, _, b2⟩ := fine_comment (cfg := cfg) h1.1 hk (h c List.mem_cons_self)
    obtain ⟨c1, c2⟩ := keeps_newline_char (by simp) _ b1
    obtain ⟨d1, d2⟩ := ih (k := .idle) rfl (fun c hc => h c (List.mem_cons_of_mem _ hc)) false _ c1
    refine ⟨d1.idle _, ?_⟩
    show said (multilineLoop cfg false cs _).w.out = _
    rw [d2, c2, b2, h1.2, conts_cons]
    simp

theorem keeps_multiline {k : K} (hk : k.calm = true) {cs : List Comment} (h : CommentsOk cs) (force : Bool) :
    Keeps b (multiline cfg force cs) k (conts cs) k := fun f hf =>
  keeps_multilineLoop hk cs h.each (force || f.prevOpen) f hf

theorem fine_trailingLoop (cs : List Comment) : ∀ (i : Nat) (f : F) (k : K), Fine b f k → k ≠ .slash →
    (k = .eol → ∀ c, cs.head? = some c → '\n' ∈ c.leadingWhitespace) → (∀ c ∈ cs, CommentOk c) → cs.IsChain Follows →
    Fine b (trailingLoop cfg i cs f) .eol ∧ said (trailingLoop cfg i cs f).w.out = said f.w.out ++ conts cs := by
  induction cs with
  | nil =>
    intro i f k h hk _ _ _
    exact ⟨h.mono (by cases k <;> simp [K.le] at hk ⊢), (List.append_nil _).symm⟩
  | cons c cs ih =>
    intro i f k h hk hh hc hch
    have hcalm : ∃ k1, k1.calm = true ∧ Fine b (if c.leadingWhitespace.contains '\n' then newline f
        else if i > 0 ∧ c.leadingWhitespace ≠ [] then space f else f) k1 ∧ said (if c.leadingWhitespace.contains '\n' then newline f
        else if i > 0 ∧ c.leadingWhitespace ≠ [] then space f else f).w.out = said f.w.out := by
      by_cases hn : c.leadingWhitespace.contains '\n' = true
      · rw [if_pos hn]
        obtain ⟨a1, a2⟩ := keeps_newline hk f h
        exact ⟨.idle, rfl, a1, by rw [a2, List.append_nil]⟩
      · rw [if_neg hn]
        have hke : k ≠ .eol := by
          intro e
          refine hn ?_
          rw [List.contains_iff_mem]
          exact hh e c rfl
        refine ⟨k, by cases k <;> simp_all [K.calm], ?_⟩
        split
        · obtain ⟨a1, a2⟩ := keeps_space k f h
          exact ⟨a1, by rw [a2, List.append_nil]⟩
        · exact ⟨h, rfl⟩
    obtain ⟨k1, hk1, hg, hgs⟩ := hcalm
    obtain ⟨g1, g2, g3⟩ := fine_comment (cfg := cfg) hg hk1 (hc c List.mem_cons_self)
    have hc' : ∀ d ∈ cs, CommentOk d := fun d hd => hc d (List.mem_cons_of_mem _ hd)
    have hch' : cs.IsChain Follows := hch.tail
    have fin : ∀ z : F, said z.w.out = said (comment cfg c.text (if c.leadingWhitespace.contains '\n' then newline f
        else if i > 0 ∧ c.leadingWhitespace ≠ [] then space f else f)).w.out ++ conts cs →
        said z.w.out = said f.w.out ++ conts (c :: cs) := by
      intro z hz
      rw [hz, g3, hgs, conts_cons]; simp
    by_cases hl : ['/', '/'].isPrefixOf c.text = true
    · obtain ⟨a1, a2⟩ := ih (i + 1) _ .eol g1 (by simp) (by
        intro _ d hd
        cases cs with
        | nil => cases hd
        | cons e cs =>
          cases hd
          rw [List.isChain_cons_cons] at hch
          exact hch.1 hl) hc' hch'
      exact ⟨a1, fin _ a2⟩
    · obtain ⟨a1, a2⟩ := ih (i + 1) _ .idle (g2 (Bool.eq_false_iff.2 hl)) (by simp) (by intro e; cases e) hc' hch'
      exact ⟨a1, fin _ a2⟩

theorem keeps_trailingEnd {k : K} (hk : k.calm = true) {cs : List Comment} (h : CommentsOk cs) :
    Keeps b (trailingEnd cfg cs) k (conts cs) .idle := fun f hf => by
  obtain ⟨a1, a2⟩ := fine_trailingLoop (cfg := cfg) cs 0 f k hf (K.calm_ne hk).1 (fun e => absurd e (K.calm_ne hk).2) h.each h.chain
  obtain ⟨b1, b2⟩ := keeps_newline (by simp) _ a1
  exact ⟨b1, by show said (newline _).w.out = _; rw [b2, a2, List.append_nil]⟩

/-! ### Tokens with comments -/

theorem told_nil : told [] = [] := rfl
theorem told_cons (t : Tok) (ts : List Tok) : told (t :: ts) = t.told ++ told ts := rfl
theorem told_one (t : Tok) : told [t] = t.told := by simp [told]
theorem told_append (a c : List Tok) : told (a ++ c) = told a ++ told c := by simp [told]
theorem conts_nil : conts [] = [] := rfl

theorem Silent.told {t : Tok} (h : Silent t) : t.told = [] := by unfold Tok.told; rw [h.1, h.2]; rfl
theorem Silent.seen {t : Tok} (h : Silent t) : Seen t := by unfold Seen; rw [h.1, h.2]; simp
theorem Silent?.told {t : Option Tok} (h : Silent? t) : Formatter.told t.toList = [] := by
  cases t with
  | none => rfl
  | some t => rw [Option.toList_some, told_one]; exact (h t rfl).told
theorem silent_new (c : Char) : Silent (Tok.new c) := ⟨rfl, rfl⟩

theorem keeps_cond {p : Prop} [Decidable p] {g : F → F} {k : K} {a : List (List Str)} (h : Keeps b g k a k)
    (hn : ¬ p → a = []) : Keeps b (fun f => if p then g f else f) k a k := by
  by_cases hp : p
  · exact h.fn (fun f => if_pos hp)
  · rw [hn hp]; exact (Keeps.id k).fn (fun f => if_neg hp)

theorem keeps_maybe {p : F → Bool} {g : F → F} {k : K} (h : Keeps b g k [] .idle) :
    Keeps b (fun f => if p f = true then g f else f) k [] k := keeps_choice h.to (Keeps.id k)

theorem conts_not {cs : List Comment} (h : ¬ cs ≠ []) : conts cs = [] := by
  have : cs = [] := Decidable.byContradiction h
  rw [this]; rfl

theorem keeps_startPre {k : K} (hk : k.calm = true) {cs : List Comment} (h : CommentsOk cs) (force : Bool) (ws : Str)
    (r : Option Char) : Keeps b (startPre cfg force ws cs r) k (conts cs) k := fun f hf => by
  obtain ⟨hk1, _⟩ := K.calm_ne hk
  have key : Keeps b (fun f => if cs ≠ [] then
      if !force && newlines ws > 1 then newline (multiline cfg force cs f) else multiline cfg force cs f
    else if !(force || f.prevOpen) && newlines ws > 1 then newline f else f) k (conts cs) k := by
    by_cases hc : cs ≠ []
    · simp only [if_pos hc]
      exact (((keeps_multiline (cfg := cfg) hk h force).comp (keeps_choice (p := fun _ => (!force && decide (newlines ws > 1)) = true)
        (keeps_newline hk1).to (Keeps.id k)))).told (by simp)
    · simp only [if_neg hc]
      rw [conts_not hc]
      exact keeps_choice (p := fun f => (!(force || f.prevOpen) && decide (newlines ws > 1)) = true)
        (keeps_newline hk1).to (Keeps.id k)
  exact (((key.comp (keeps_indentation r)).told (List.append_nil _)).fn (fun f => rfl)) f hf

theorem keeps_startPost {k : K} (hk : k.calm = true) {cs : List Comment} (h : CommentsOk cs) (hv : ∀ c ∈ cs, c.virtual = false)
    (r : Option Char) : Keeps b (startPost cs r) k (conts cs) k :=
  (((keeps_cond (p := cs ≠ []) (keeps_inlineComments hk h hv) conts_not).comp (keeps_setPrev _ k)).told (List.append_nil _)).fn
    (fun _ => rfl)

theorem keeps_startMaybe {t : Tok} {c : Cls} {k : K} (ht : Is c t) (hv : Seen t) (hk : Accept k c = true) (hks : k ≠ .slash)
    (hc : c ≠ .slash) (force : Bool) : Keeps b (startMaybe cfg force t) k t.told (after c) :=
  (((keeps_startPre (accept_calm hk hks) ht.leading force t.ws t.rune?).comp (keeps_write ht.term hk)).comp
    (keeps_startPost (after_calm hc) ht.trailing hv.2 t.rune?)).told (by simp [Tok.told])

theorem keeps_start {t : Tok} {c : Cls} {k : K} (ht : Is c t) (hv : Seen t) (hk : Accept k c = true) (hks : k ≠ .slash)
    (hc : c ≠ .slash) : Keeps b (start cfg t) k t.told (after c) := keeps_startMaybe ht hv hk hks hc false

theorem keeps_leadInline {t : Tok} {k : K} (h : CommentsOk t.leading) (hv : Seen t) (hk : k.calm = true ∨ t.leading = []) :
    Keeps b (leadInline t) k (conts t.leading) k := by
  by_cases hl : t.leading ≠ []
  · have hk : k.calm = true := hk.resolve_right hl
    refine ((((keeps_inlineComments hk h hv.1).comp (keeps_ite (p := t.ws ≠ []) (keeps_space k) (Keeps.id k))).told
      (List.append_nil _))).fn (fun f => ?_)
    unfold leadInline
    rw [if_pos hl]
  · rw [conts_not hl]
    refine (Keeps.id k).fn (fun f => ?_)
    unfold leadInline
    rw [if_neg hl]

/-- `writeInline` of a token; a slash has no comments after it, and what follows none before it. -/
theorem keeps_inl {t : Tok} {c : Cls} {k : K} (ht : Is c t) (hv : Seen t) (hk : Accept k c = true) (hks : k = .slash → t.leading = [])
    (hc : c = .slash → t.trailing = []) : Keeps b (inl t) k t.told (after c) := by
  have h1 : Keeps b (inlineComments t.trailing) (after c) (conts t.trailing) (after c) := by
    by_cases h : c = .slash
    · rw [hc h]; exact (Keeps.id _).fn (fun _ => rfl)
    · exact keeps_inlineComments (after_calm h) ht.trailing hv.2
  have h2 : Keeps b (leadInline t) k (conts t.leading) k := keeps_leadInline ht.leading hv (by
    by_cases h : k = .slash
    · exact .inr (hks h)
    · exact .inl (accept_calm hk h))
  exact ((((((keeps_setInline true k).comp h2).comp (keeps_write ht.term hk)).comp h1).comp
    (keeps_setPrev _ _)).comp (keeps_setInline false _)).told (by simp [Tok.told])

theorem keeps_inl_hard {t : Tok} {k : K} (ht : Is .hard t) (hv : Seen t) (hk : k.calm = true) : Keeps b (inl t) k t.told .idle :=
  keeps_inl ht hv (by cases k <;> simp_all [Accept, K.calm]) (by intro e; subst e; cases hk) (by intro e; cases e)

theorem seen_new (c : Char) : Seen (Tok.new c) := (silent_new c).seen

theorem endPlain_told {t : Tok} {semi : Option Tok} (h : EndPlain t semi) :
    conts t.leading ++ conts (endComments t semi) = t.told ++ told semi.toList := by
  unfold Tok.told endComments
  cases semi with
  | none =>
    rw [Option.toList_none, told_nil, List.append_nil]
    split
    · rfl
    · rename_i hn; rw [conts_not hn]; rfl
  | some s =>
    rw [Option.toList_some, told_one]
    obtain ⟨h1, h2⟩ := h s rfl
    rcases h2 with h2 | ⟨h2, h3⟩
    · unfold Tok.told
      rw [h1, h2]
      simp only [conts_nil, List.append_nil]
      split
      · rfl
      · rename_i hn; rw [conts_not hn, h2, ite_self]; rfl
    · rw [h3]
      unfold Tok.told
      rw [h1]
      simp [h2, conts_nil]

theorem endComments_seen {t : Tok} {semi : Option Tok} (ht : Seen t) (hs : ∀ s ∈ semi.toList, Seen s) :
    ∀ c ∈ endComments t semi, c.virtual = false := by
  unfold endComments
  split
  · exact ht.2
  · cases semi with
    | none => simp
    | some s =>
      simp only
      split
      · exact (hs s (by simp)).2
      · simp

theorem keeps_endLead {t : Tok} {c : Cls} {k : K} (ht : Is c t) (hv : Seen t) (hk : k.calm = true) (inlined : Bool) :
    Keeps b (endLead cfg inlined t) k (conts t.leading) k := by
  cases inlined with
  | true => exact (keeps_leadInline ht.leading hv (.inl hk)).fn (fun f => rfl)
  | false => exact (((keeps_multiline hk ht.leading false).comp (keeps_indentation t.rune?)).told (by simp)).fn (fun f => rfl)

theorem keeps_bodyEnd {t : Tok} {c : Cls} {k : K} {semi : Option Tok} (ht : Is c t) (hv : Seen t) (hk : Accept k c = true)
    (hks : k ≠ .slash) (hc : c ≠ .slash) (hs : SemiOk semi) (hp : EndPlain t semi) (inlined : Bool) :
    Keeps b (bodyEnd cfg t semi inlined) k (t.told ++ told semi.toList) .idle := by
  intro f hf
  obtain ⟨a1, a2⟩ := ((keeps_endLead (cfg := cfg) ht hv (accept_calm hk hks) inlined).comp (keeps_write ht.term hk)) f hf
  have key : ∀ (p : Prop) [Decidable p], Fine b (setPrev (isOpen t.rune?) (trailingEnd cfg (endComments t semi)
      (if p then space (t.write (endLead cfg inlined t f)) else t.write (endLead cfg inlined t f)))) .idle ∧
      said (setPrev (isOpen t.rune?) (trailingEnd cfg (endComments t semi) (if p then space (t.write (endLead cfg inlined t f)) else
      t.write (endLead cfg inlined t f)))).w.out = said f.w.out ++ (t.told ++ told semi.toList) := by
    intro p _
    rw [List.append_nil] at a2
    have hb : Fine b (if p then space (t.write (endLead cfg inlined t f)) else t.write (endLead cfg inlined t f)) (after c) ∧
        said (if p then space (t.write (endLead cfg inlined t f)) else t.write (endLead cfg inlined t f)).w.out =
        said f.w.out ++ conts t.leading := by
      split
      · exact ⟨(keeps_space _ _ a1).1, by rw [(keeps_space _ _ a1).2, a2, List.append_nil]⟩
      · exact ⟨a1, a2⟩
    obtain ⟨c1, c2⟩ := ((keeps_trailingEnd (cfg := cfg) (after_calm hc) (endComments_ok ht hs)).comp
      (keeps_setPrev (isOpen t.rune?) _)) _ hb.1
    refine ⟨c1, ?_⟩
    rw [c2, hb.2, ← endPlain_told hp]
    simp
  exact key _

theorem keeps_bodyEndInline {t : Tok} {c : Cls} {k : K} {semi : Option Tok} (ht : Is c t) (hv : Seen t) (hk : Accept k c = true)
    (hks : k ≠ .slash) (hc : c ≠ .slash) (hs : SemiOk semi) (hsv : ∀ s ∈ semi.toList, Seen s) (hp : EndPlain t semi)
    (inlined : Bool) : Keeps b (bodyEndInline cfg t semi inlined) k (t.told ++ told semi.toList) (after c) :=
  (((((keeps_endLead (cfg := cfg) ht hv (accept_calm hk hks) inlined).comp (keeps_write ht.term hk)).comp
    (keeps_cond (p := endComments t semi ≠ []) (keeps_inlineComments (after_calm hc) (endComments_ok ht hs) (endComments_seen hv hsv))
      conts_not)).comp (keeps_setPrev _ _)).told (by rw [← endPlain_told hp]; simp)).fn (fun f => rfl)

theorem endPlain_none {t : Tok} : EndPlain t none := fun _ h => by cases h

theorem keeps_lineElement {t : Tok} {c : Cls} {k : K} (ht : Is c t) (hv : Seen t) (hk : Accept k c = true) (hks : k ≠ .slash)
    (hc : c ≠ .slash) : Keeps b (lineElement cfg t) k t.told .idle :=
  (keeps_bodyEnd ht hv hk hks hc semiOk_none endPlain_none false).told (by simp [told_nil])

theorem keeps_lineEnd {t : Tok} {c : Cls} {k : K} (ht : Is c t) (hv : Seen t) (hk : Accept k c = true) (hks : k ≠ .slash)
    (hc : c ≠ .slash) : Keeps b (lineEnd cfg t) k t.told .idle :=
  (((((keeps_leadInline ht.leading hv (.inl (accept_calm hk hks))).comp (keeps_write ht.term hk)).comp (keeps_space _)).comp
    (keeps_trailingEnd (after_calm hc) ht.trailing)).comp (keeps_setPrev _ _)).told (by simp [Tok.told])

theorem accept_hard_calm {k : K} (hk : k.calm = true) : Accept k .hard = true := by cases k <;> simp_all [Accept, K.calm]

theorem keeps_after {cs : List Comment} {k : K} {g : F → F} (hk : k.calm = true) (h : Keeps b g k (conts cs) .idle) :
    Keeps b (fun f => if cs ≠ [] then g f else newline f) k (conts cs) .idle := by
  by_cases hc : cs ≠ []
  · simp only [if_pos hc]; exact h
  · simp only [if_neg hc, conts_not hc]; exact keeps_newline (K.calm_ne hk).1

theorem keeps_openBrace {t : Tok} {k : K} (ht : Is .hard t) (hv : Seen t) (hk : k.calm = true) :
    Keeps b (openBrace cfg t) k t.told .idle :=
  (((((keeps_leadInline ht.leading hv (.inl hk)).comp (keeps_write ht.term (accept_hard_calm hk))).comp
    (keeps_after rfl (keeps_trailingEnd rfl ht.trailing))).comp (keeps_setPrev _ _)).told (by simp [Tok.told])).fn (fun f => rfl)

theorem keeps_openBraceInline {t : Tok} {k : K} (ht : Is .hard t) (hv : Seen t) (hk : k.calm = true) :
    Keeps b (openBraceInline t) k t.told .idle :=
  (((((keeps_leadInline ht.leading hv (.inl hk)).comp (keeps_write ht.term (accept_hard_calm hk))).comp
    (keeps_cond (p := t.trailing ≠ []) (keeps_inlineComments rfl ht.trailing hv.2) conts_not)).comp (keeps_setPrev _ _)).told
      (by simp [Tok.told])).fn (fun f => rfl)

theorem keeps_openBraceForArray {t : Tok} {k : K} (ht : Is .hard t) (hk : k.calm = true) :
    Keeps b (openBraceForArray cfg t) k t.told .idle :=
  ((((((keeps_cond (p := t.leading ≠ []) (keeps_multiline hk ht.leading false) conts_not).comp (keeps_indentation t.rune?)).comp
    (keeps_write ht.term (accept_hard_calm hk))).comp (keeps_after rfl (keeps_trailingEnd rfl ht.trailing))).comp
      (keeps_setPrev _ _)).told (by simp [Tok.told])).fn (fun f => rfl)

/-- A body. -/
theorem keeps_body {op cl : Tok} {semi : Option Tok} {elems : Option (F → F)} {openW : Tok → F → F}
    {closeW : Tok → Option Tok → Bool → F → F} {k k' : K} {ts e : List (List Str)} (hop : Is .hard op) (hv : Seen op) (hk : k.calm = true)
    (ho : Keeps b (openW op) k op.told .idle)
    (hc : ∀ k0 : K, k0.calm = true → ∀ i, Keeps b (closeW cl semi i) k0 e k')
    (he : ∀ e, elems = some e → ∃ k0 : K, k0.calm = true ∧ Keeps b e .idle ts k0) (hn : elems = none → ts = []) :
    Keeps b (body op cl semi elems openW closeW) k (op.told ++ ts ++ e) k' := by
  cases elems with
  | none =>
    rw [hn rfl, List.append_nil]
    intro f hf
    unfold body
    simp only
    split
    · exact ((keeps_inl_hard hop hv hk).comp (hc _ rfl true)) f hf
    · exact (ho.comp (hc _ rfl false)) f hf
  | some e =>
    obtain ⟨k0, h1, h2⟩ := he e rfl
    exact ((ho.comp h2).comp (hc k0 h1 false)).fn (fun f => rfl)

end Verif.Formatter
