import Verif.Lemmas.FormatEmits
/-! The rules for comments and for tokens with their comments. -/
namespace Verif.Formatter
open Verif.Lexer Verif.Comment
open Verif.InlineComment (Comment)
open Verif.FormatWriter (St)

variable {b : Bool} {cfg : Cfg}

/-- Neither directly after a slash nor in a line comment. -/
def K.calm : K → Bool
  | .slash => false
  | .eol => false
  | _ => true

theorem K.calm_ne {k : K} (h : k.calm = true) : k ≠ .slash ∧ k ≠ .eol := by
  cases k <;> simp [K.calm] at h ⊢

theorem clean_of_calm {k : K} (h : k.calm = true) {p : Bool} {m : Mode} (hf : Fit k p m) : Clean m := by
  rcases fit_clean_or hf with h' | h'
  · exact h'
  · cases k <;> cases m <;> simp_all [Bare, Clean, K.calm]

/-! ### Comments on lines of their own -/

theorem write_last (st : St) {s : Str} (hs : s ≠ []) :
    (FormatWriter.write st s).out.getLast? = some (FormatWriter.write st s).last := by
  show (st.out ++ FormatWriter.spaceFor st s ++ s).getLast? = some (s.getLast?.getD st.last)
  rw [List.getLast?_append, List.getLast?_eq_some_getLast hs]; rfl

theorem formatLine_ne {mn : Nat} {pf : Option Nat} {first : Bool} {l : Str} (h : trimSpace l ≠ []) :
    BlockComment.formatLine mn pf first l ≠ [] := by
  intro e
  have := BlockComment.trim_formatLine mn pf first l
  rw [e] at this
  exact h this.symm

theorem writeRest_last (mn : Nat) (pf : Option Nat) (ls : List Str) : ∀ st, ls ≠ [] →
    (∀ l, ls.getLast? = some l → trimSpace l ≠ []) →
    (BlockComment.writeRest mn pf st ls).out.getLast? = some (BlockComment.writeRest mn pf st ls).last := by
  induction ls with
  | nil => intro st h; exact absurd rfl h
  | cons l ls ih =>
    intro st _ hl
    cases ls with
    | nil => exact write_last _ (formatLine_ne (hl l rfl))
    | cons m ms =>
      exact ih _ (by simp) (fun x hx => hl x (by rw [List.getLast?_cons_cons]; exact hx))

theorem writeComment_last (pfx : Char → Option Nat) (st : St) {s : Str} (h : IsBlock s) :
    (BlockComment.writeComment pfx st s).out.getLast? = some (BlockComment.writeComment pfx st s).last := by
  have hp : ['/', '*'].isPrefixOf s = true := by
    obtain ⟨r, rfl, _⟩ := h
    rfl
  unfold BlockComment.writeComment
  by_cases hn : '\n' ∈ s
  · rw [if_pos ⟨hp, hn⟩]
    obtain ⟨l, ls, hls, hne, _, _, hlast, _⟩ := BlockComment.isBlock_lines s h hn
    rw [hls]
    exact writeRest_last _ _ ls _ hne hlast
  · rw [if_neg (fun hh => hn hh.2)]
    refine write_last _ ?_
    have ht := block_trimmed s h
    rw [trimSpace_of_trimmed ht]
    obtain ⟨r, rfl, _⟩ := h
    simp

theorem writeRest_pending (mn : Nat) (pf : Option Nat) (ls : List Str) : ∀ st, ls ≠ [] →
    (BlockComment.writeRest mn pf st ls).pendingSpace = false := by
  induction ls with
  | nil => intro st h; exact absurd rfl h
  | cons l ls ih =>
    intro st _
    cases ls with
    | nil => rfl
    | cons m ms => exact ih _ (by simp)

/-- A block comment. -/
theorem good_comment_block {f : F} {ts : List Str} {k : K} (h : Good b f ts k) (hk : k.calm = true) {s : Str}
    (hs : IsBlock s) : Good b (comment cfg s f) ts .idle := by
  obtain ⟨pre, hp, ho⟩ := BlockComment.C49_written cfg.pfx f.w s hs
  have hr := BlockComment.C49_block cfg.pfx (BlockComment.restLevel f.w) s hs
  have hout : (comment cfg s f).w.out = f.w.out ++ (pre ++ BlockComment.rendered cfg.pfx (BlockComment.restLevel f.w) s) := by
    rw [← List.append_assoc]; exact ho
  have hl : lexFrom (lexFrom .idle f.w.out).2 (pre ++ BlockComment.rendered cfg.pfx (BlockComment.restLevel f.w) s) =
      (done (lexFrom .idle f.w.out).2, .idle) := by
    have hc := clean_of_calm hk h.fit
    by_cases hpe : pre = []
    · rw [hpe, List.nil_append]
      exact lexFrom_isBlock hc hr
    · rw [lexFrom_append, lexFrom_blank_clean hc hp hpe]
      simp only
      rw [lexFrom_isBlock (m := .idle) trivial hr]
      simp [done]
  refine ⟨?_, ?_, .inr (writeComment_last _ _ hs), h.ok, h.flag⟩
  · rw [hout, lexFrom_append, hl]
    simp only [done, List.append_nil]
    exact h.lexed
  · rw [hout, lexFrom_append, hl]
    exact .inl rfl

theorem trim_line {r : Str} (h : '\n' ∉ r) : ∃ r', trimSpace ('/' :: '/' :: r) = '/' :: '/' :: r' ∧ '\n' ∉ r' := by
  obtain ⟨w, w', h1, h2, h3, h4⟩ := trimSpace_split ('/' :: '/' :: r)
  have hw : w = [] := by
    cases w with
    | nil => rfl
    | cons x w =>
      exfalso
      have : x = '/' := by simp only [List.cons_append] at h1; exact (List.cons.inj h1).1.symm
      have hx := h2 x List.mem_cons_self
      rw [this] at hx; revert hx; decide
  subst hw
  rw [List.nil_append] at h1
  cases ht : trimSpace ('/' :: '/' :: r) with
  | nil =>
    exfalso
    have := trimSpace_eq_nil.1 ht '/' List.mem_cons_self
    revert this; decide
  | cons x t =>
    rw [ht, List.cons_append] at h1
    obtain ⟨rfl, h5⟩ := List.cons.inj h1
    cases t with
    | nil =>
      exfalso
      rw [List.nil_append] at h5
      have := h3 '/' (by rw [← h5]; exact List.mem_cons_self)
      revert this; decide
    | cons y t =>
      rw [List.cons_append] at h5
      obtain ⟨rfl, h6⟩ := List.cons.inj h5
      refine ⟨t, rfl, fun hc => h ?_⟩
      rw [h6]; exact List.mem_append_left _ hc

/-- A line comment. -/
theorem good_comment_line {f : F} {ts : List Str} {k : K} (h : Good b f ts k) (hk : k.calm = true) {r : Str}
    (hr : '\n' ∉ r) : Good b (comment cfg ('/' :: '/' :: r) f) ts .eol := by
  obtain ⟨r', h1, h2⟩ := trim_line hr
  have he : comment cfg ('/' :: '/' :: r) f = put ('/' :: '/' :: r') (indentation none f) := by
    unfold comment BlockComment.writeComment
    rw [if_neg (by intro hh; have := hh.1; simp [List.isPrefixOf] at this), h1]
    rfl
  rw [he]
  have hi : Good b (indentation none f) ts k := by have := emits_indentation none f ts h; rwa [List.append_nil] at this
  have := hi.put (s := '/' :: '/' :: r') (by simp) (new := []) (k' := .eol) ?_
  · rwa [List.append_nil] at this
  · intro m hm
    have hcl : Clean m := by
      rcases hm with rfl | h | h
      · trivial
      · exact h.1
      · cases k <;> cases m <;> simp_all [Bare, Clean, K.calm]
    rw [lexFrom_lineComment hcl h2]
    exact ⟨by simp [done], .inr (.inr rfl)⟩

theorem good_comment {f : F} {ts : List Str} {k : K} (h : Good b f ts k) (hk : k.calm = true) {c : Comment}
    (hc : CommentOk c) : Good b (comment cfg c.text f) ts .eol ∧
      (['/', '/'].isPrefixOf c.text = false → Good b (comment cfg c.text f) ts .idle) := by
  rcases hc with hc | ⟨r, h1, h2, _⟩
  · have := good_comment_block (cfg := cfg) h hk hc
    exact ⟨this.idle _, fun _ => this⟩
  · rw [h1]
    exact ⟨good_comment_line h hk h2, by intro e; simp [List.isPrefixOf] at e⟩

theorem good_nil {g : F → F} {k k' : K} (h : Emits b g k [] k') {f : F} {ts : List Str} (hf : Good b f ts k) :
    Good b (g f) ts k' := by
  have := h f ts hf
  rwa [List.append_nil] at this

theorem Emits.of_good {g : F → F} {k k' : K} (h : ∀ f ts, Good b f ts k → Good b (g f) ts k') : Emits b g k [] k' :=
  fun f ts hf => by rw [List.append_nil]; exact h f ts hf

theorem good_ite {p : Prop} [Decidable p] {f g : F} {ts : List Str} {k : K} (h1 : Good b f ts k) (h2 : Good b g ts k) :
    Good b (if p then f else g) ts k := by
  split <;> assumption

theorem emits_multilineLoop {k : K} (hk : k.calm = true) (cs : List Comment) (h : ∀ c ∈ cs, CommentOk c) :
    ∀ compact, Emits b (multilineLoop cfg compact cs) k [] k := by
  induction cs generalizing k with
  | nil => intro compact; exact Emits.id k
  | cons c cs ih =>
    intro compact
    refine Emits.of_good fun f ts hf => ?_
    obtain ⟨hk1, hk2⟩ := K.calm_ne hk
    have h1 : Good b (if !compact && newlines c.leadingWhitespace > 1 then newline f else f) ts k := by
      split
      · exact (good_nil (emits_newline hk1) hf).idle _
      · exact hf
    have h2 := (good_comment (cfg := cfg) h1 hk (h c List.mem_cons_self)).1
    have h3 := h2.newline_char (by simp)
    exact (good_nil (ih (k := .idle) rfl (fun c hc => h c (List.mem_cons_of_mem _ hc)) false) h3).idle _

theorem emits_multiline {k : K} (hk : k.calm = true) {cs : List Comment} (h : CommentsOk cs) (force : Bool) :
    Emits b (multiline cfg force cs) k [] k := fun f ts hf =>
  emits_multilineLoop hk cs h.each (force || f.prevOpen) f ts hf

theorem good_trailingLoop (cs : List Comment) : ∀ (i : Nat) (f : F) (ts : List Str) (k : K), Good b f ts k → k ≠ .slash →
    (k = .eol → ∀ c, cs.head? = some c → '\n' ∈ c.leadingWhitespace) → (∀ c ∈ cs, CommentOk c) → cs.IsChain Follows →
    Good b (trailingLoop cfg i cs f) ts .eol := by
  induction cs with
  | nil =>
    intro i f ts k h hk _ _ _
    exact h.mono (by cases k <;> simp [K.le] at hk ⊢)
  | cons c cs ih =>
    intro i f ts k h hk hh hc hch
    have hcalm : ∃ k1, k1.calm = true ∧ Good b (if c.leadingWhitespace.contains '\n' then newline f
        else if i > 0 ∧ c.leadingWhitespace ≠ [] then space f else f) ts k1 := by
      by_cases hn : c.leadingWhitespace.contains '\n' = true
      · rw [if_pos hn]
        exact ⟨.idle, rfl, good_nil (emits_newline hk) h⟩
      · rw [if_neg hn]
        have hke : k ≠ .eol := by
          intro e
          refine hn ?_
          rw [List.contains_iff_mem]
          exact hh e c rfl
        refine ⟨k, by cases k <;> simp_all [K.calm], ?_⟩
        split
        · exact good_nil (emits_space k) h
        · exact h
    obtain ⟨k1, hk1, hg⟩ := hcalm
    obtain ⟨g1, g2⟩ := good_comment (cfg := cfg) hg hk1 (hc c List.mem_cons_self)
    have hc' : ∀ d ∈ cs, CommentOk d := fun d hd => hc d (List.mem_cons_of_mem _ hd)
    have hch' : cs.IsChain Follows := hch.tail
    by_cases hl : ['/', '/'].isPrefixOf c.text = true
    · refine ih (i + 1) _ ts .eol g1 (by simp) ?_ hc' hch'
      intro _ d hd
      cases cs with
      | nil => cases hd
      | cons e cs =>
        cases hd
        rw [List.isChain_cons_cons] at hch
        exact hch.1 hl
    · exact ih (i + 1) _ ts .idle (g2 (Bool.eq_false_iff.2 hl)) (by simp) (by intro e; cases e) hc' hch'

theorem emits_trailingEnd {k : K} (hk : k.calm = true) {cs : List Comment} (h : CommentsOk cs) :
    Emits b (trailingEnd cfg cs) k [] .idle := Emits.of_good fun f ts hf =>
  good_nil (emits_newline (by simp)) (good_trailingLoop cs 0 f ts k hf (K.calm_ne hk).1
    (fun e => absurd e (K.calm_ne hk).2) h.each h.chain)

theorem trailingEnd_last (cs : List Comment) (f : F) : (trailingEnd cfg cs f).w.last = '\n' := (newline_parts _).2.1

/-! ### Tokens with comments -/

theorem commentsOk_nil : CommentsOk [] := ⟨by simp, .nil⟩

theorem is_new {c : Char} (h : punct c = true) : Is .hard (Tok.new c) := ⟨h, commentsOk_nil, commentsOk_nil⟩

theorem emits_startPre {k : K} (hk : k.calm = true) {cs : List Comment} (h : CommentsOk cs) (force : Bool) (ws : Str)
    (r : Option Char) : Emits b (startPre cfg force ws cs r) k [] k := Emits.of_good fun f ts hf => by
  obtain ⟨hk1, _⟩ := K.calm_ne hk
  unfold startPre
  refine good_nil (emits_indentation r) ?_
  have hm := good_nil (emits_multiline (cfg := cfg) hk h force) hf
  by_cases hc : cs ≠ []
  · simp only [if_pos hc]
    split
    · exact (good_nil (emits_newline hk1) hm).idle _
    · exact hm
  · simp only [if_neg hc]
    split
    · exact (good_nil (emits_newline hk1) hf).idle _
    · exact hf

theorem emits_trailing {k : K} (hk : k.calm = true) {cs : List Comment} (h : CommentsOk cs) :
    Emits b (inlineComments cs) k [] k := emits_inlineComments (K.calm_ne hk).1 (K.calm_ne hk).2 h

theorem emits_startPost {k : K} (hk : k.calm = true) {cs : List Comment} (h : CommentsOk cs) (r : Option Char) :
    Emits b (startPost cs r) k [] k := Emits.of_good fun f ts hf => by
  unfold startPost
  refine good_nil (emits_setPrev _ k) ?_
  split
  · exact good_nil (emits_trailing hk h) hf
  · exact hf

theorem accept_calm {k : K} {c : Cls} (h : Accept k c = true) (hk : k ≠ .slash) : k.calm = true := by
  cases k <;> simp_all [Accept, K.calm]

theorem after_calm {c : Cls} (h : c ≠ .slash) : (after c).calm = true := by
  cases c <;> simp_all [after, K.calm]

theorem emits_startMaybe {t : Tok} {c : Cls} {k : K} (ht : Is c t) (hk : Accept k c = true) (hks : k ≠ .slash) (hc : c ≠ .slash)
    (force : Bool) : Emits b (startMaybe cfg force t) k [t.str] (after c) :=
  (((emits_startPre (accept_calm hk hks) ht.leading force t.ws t.rune?).comp (emits_write ht.term hk)).comp
    (emits_startPost (after_calm hc) ht.trailing t.rune?)).toks (by simp)

theorem emits_start {t : Tok} {c : Cls} {k : K} (ht : Is c t) (hk : Accept k c = true) (hks : k ≠ .slash) (hc : c ≠ .slash) :
    Emits b (start cfg t) k [t.str] (after c) := emits_startMaybe ht hk hks hc false

theorem emits_leadInline {t : Tok} {k : K} (h : CommentsOk t.leading) (hk : k.calm = true ∨ t.leading = []) :
    Emits b (leadInline t) k [] k := Emits.of_good fun f ts hf => by
  unfold leadInline
  by_cases hl : t.leading ≠ []
  · rw [if_pos hl]
    have hk : k.calm = true := hk.resolve_right hl
    have hm := good_nil (emits_trailing hk h) hf
    simp only
    split
    · exact good_nil (emits_space k) hm
    · exact hm
  · rw [if_neg hl]; exact hf

theorem emits_inlineComments_nil (k : K) : Emits b (inlineComments []) k [] k := Emits.of_good fun _ _ hf => hf

/-- `writeInline` of a token; a slash has no comments after it, and what follows none before it. -/
theorem emits_inl {t : Tok} {c : Cls} {k : K} (ht : Is c t) (hk : Accept k c = true) (hks : k = .slash → t.leading = [])
    (hc : c = .slash → t.trailing = []) : Emits b (inl t) k [t.str] (after c) := by
  have h1 : Emits b (inlineComments t.trailing) (after c) [] (after c) := by
    by_cases h : c = .slash
    · rw [hc h]; exact emits_inlineComments_nil _
    · exact emits_trailing (after_calm h) ht.trailing
  have h2 : Emits b (leadInline t) k [] k := emits_leadInline ht.leading (by
    by_cases h : k = .slash
    · exact .inr (hks h)
    · exact .inl (accept_calm hk h))
  exact ((((((emits_setInline true k).comp h2).comp (emits_write ht.term hk)).comp h1).comp
    (emits_setPrev _ _)).comp (emits_setInline false _)).toks (by simp)

theorem emits_inl_hard {t : Tok} {k : K} (ht : Is .hard t) (hk : k.calm = true) : Emits b (inl t) k [t.str] .idle :=
  emits_inl ht (by cases k <;> simp_all [Accept, K.calm]) (by intro e; subst e; cases hk) (by intro e; cases e)

theorem endComments_ok {t : Tok} {c : Cls} {semi : Option Tok} (ht : Is c t) (hs : SemiOk semi) :
    CommentsOk (endComments t semi) := by
  unfold endComments
  split
  · exact ht.trailing
  · cases semi with
    | none => exact commentsOk_nil
    | some s =>
      simp only
      split
      · exact (hs s rfl).is.trailing
      · exact commentsOk_nil

theorem emits_endLead {t : Tok} {c : Cls} {k : K} (ht : Is c t) (hk : k.calm = true) (inlined : Bool) :
    Emits b (endLead cfg inlined t) k [] k := by
  cases inlined with
  | true => exact (emits_leadInline ht.leading (.inl hk)).fn (fun f => rfl)
  | false => exact (((emits_multiline hk ht.leading false).comp (emits_indentation t.rune?)).toks (by simp)).fn (fun f => rfl)

theorem emits_bodyEnd {t : Tok} {c : Cls} {k : K} {semi : Option Tok} (ht : Is c t) (hk : Accept k c = true) (hks : k ≠ .slash)
    (hc : c ≠ .slash) (hs : SemiOk semi) (inlined : Bool) : Emits b (bodyEnd cfg t semi inlined) k [t.str] .idle := by
  intro f ts hf
  have h1 := emits_write ht.term hk _ _ (good_nil (emits_endLead (cfg := cfg) ht (accept_calm hk hks) inlined) hf)
  unfold bodyEnd
  exact good_nil (emits_setPrev _ _) (good_nil (emits_trailingEnd (after_calm hc) (endComments_ok ht hs))
    (good_ite (good_nil (emits_space _) h1) h1))

theorem bodyEnd_last (t : Tok) (semi : Option Tok) (inlined : Bool) (f : F) : (bodyEnd cfg t semi inlined f).w.last = '\n' :=
  trailingEnd_last _ _

theorem emits_bodyEndInline {t : Tok} {c : Cls} {k : K} {semi : Option Tok} (ht : Is c t) (hk : Accept k c = true)
    (hks : k ≠ .slash) (hc : c ≠ .slash) (hs : SemiOk semi) (inlined : Bool) :
    Emits b (bodyEndInline cfg t semi inlined) k [t.str] (after c) := by
  intro f ts hf
  have h1 := emits_write ht.term hk _ _ (good_nil (emits_endLead (cfg := cfg) ht (accept_calm hk hks) inlined) hf)
  unfold bodyEndInline
  refine good_nil (emits_setPrev _ _) ?_
  split
  · exact good_nil (emits_trailing (after_calm hc) (endComments_ok ht hs)) h1
  · exact h1

theorem semiOk_none : SemiOk none := fun _ h => by cases h

theorem emits_lineElement {t : Tok} {c : Cls} {k : K} (ht : Is c t) (hk : Accept k c = true) (hks : k ≠ .slash)
    (hc : c ≠ .slash) : Emits b (lineElement cfg t) k [t.str] .idle := emits_bodyEnd ht hk hks hc semiOk_none false

theorem emits_lineEnd {t : Tok} {c : Cls} {k : K} (ht : Is c t) (hk : Accept k c = true) (hks : k ≠ .slash)
    (hc : c ≠ .slash) : Emits b (lineEnd cfg t) k [t.str] .idle :=
  (((((emits_leadInline ht.leading (.inl (accept_calm hk hks))).comp (emits_write ht.term hk)).comp (emits_space _)).comp
    (emits_trailingEnd (after_calm hc) ht.trailing)).comp (emits_setPrev _ _)).toks (by simp)

theorem lineEnd_last (t : Tok) (f : F) : (lineEnd cfg t f).w.last = '\n' := trailingEnd_last _ _

theorem emits_openBrace {t : Tok} {k : K} (ht : Is .hard t) (hk : k.calm = true) :
    Emits b (openBrace cfg t) k [t.str] .idle := by
  intro f ts hf
  have ha : Accept k .hard = true := by cases k <;> simp_all [Accept, K.calm]
  have h1 := emits_write ht.term ha _ _ (good_nil (emits_leadInline ht.leading (.inl hk)) hf)
  unfold openBrace
  refine good_nil (emits_setPrev _ _) ?_
  split
  · exact good_nil (emits_trailingEnd rfl ht.trailing) h1
  · exact good_nil (emits_newline (by simp [after])) h1

theorem emits_openBraceInline {t : Tok} {k : K} (ht : Is .hard t) (hk : k.calm = true) :
    Emits b (openBraceInline t) k [t.str] .idle := by
  intro f ts hf
  have ha : Accept k .hard = true := by cases k <;> simp_all [Accept, K.calm]
  have h1 := emits_write ht.term ha _ _ (good_nil (emits_leadInline ht.leading (.inl hk)) hf)
  unfold openBraceInline
  refine good_nil (emits_setPrev _ _) ?_
  split
  · exact good_nil (emits_trailing rfl ht.trailing) h1
  · exact h1

theorem emits_openBraceForArray {t : Tok} {k : K} (ht : Is .hard t) (hk : k.calm = true) :
    Emits b (openBraceForArray cfg t) k [t.str] .idle := by
  intro f ts hf
  have ha : Accept k .hard = true := by cases k <;> simp_all [Accept, K.calm]
  have h0 : Good b (if t.leading ≠ [] then multiline cfg false t.leading f else f) ts k := by
    split
    · exact good_nil (emits_multiline hk ht.leading false) hf
    · exact hf
  have h1 := emits_write ht.term ha _ _ (good_nil (emits_indentation t.rune?) h0)
  unfold openBraceForArray
  refine good_nil (emits_setPrev _ _) ?_
  split
  · exact good_nil (emits_trailingEnd rfl ht.trailing) h1
  · exact good_nil (emits_newline (by simp [after])) h1

/-- A body. -/
theorem emits_body {op cl : Tok} {semi : Option Tok} {elems : Option (F → F)} {openW : Tok → F → F}
    {closeW : Tok → Option Tok → Bool → F → F} {k k' : K} {ts : List Str} (hop : Is .hard op) (hk : k.calm = true)
    (ho : Emits b (openW op) k [op.str] .idle)
    (hc : ∀ k0 : K, k0.calm = true → ∀ i, Emits b (closeW cl semi i) k0 [cl.str] k')
    (he : ∀ e, elems = some e → ∃ k0 : K, k0.calm = true ∧ Emits b e .idle ts k0) (hn : elems = none → ts = []) :
    Emits b (body op cl semi elems openW closeW) k ([op.str] ++ ts ++ [cl.str]) k' := by
  cases elems with
  | none =>
    rw [hn rfl, List.append_nil]
    intro f toks hf
    unfold body
    simp only
    split
    · exact ((emits_inl_hard hop hk).comp (hc _ rfl true)) f toks hf
    · exact (ho.comp (hc _ rfl false)) f toks hf
  | some e =>
    obtain ⟨k0, h1, h2⟩ := he e rfl
    exact ((ho.comp h2).comp (hc k0 h1 false)).fn (fun f => rfl)

end Verif.Formatter
