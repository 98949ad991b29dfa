import Verif.Lemmas.Publish
/-!
# C96: diagnostics reach the client
-/
namespace Verif.Publish

open Diagnostics

/-- **C96** (order): the client is sent the reports that were made, in this order, each once; at most three are under way, and none when
nothing is going on. -/
theorem C96_order (uriOf : Path → Option Uri) (tr : List Event) (s : State) (h : Run uriOf {} tr s) :
    tried tr <+: made tr ∧ (made tr).length ≤ (tried tr).length + 3 ∧ (Quiet s → tried tr = made tr) := by
  have hi := inv_run h
  rw [hi.order]
  refine ⟨List.prefix_append _ _, ?_, ?_⟩
  · have h1 := hi.cap
    have h2 : (pending s.publisher).length ≤ 1 := by cases s.publisher <;> simp [pending]
    have h3 : s.calling.toList.length ≤ 1 := by cases s.calling <;> simp
    simp only [List.length_append, capacity] at *
    omega
  · rintro ⟨_, h2, h3, h4⟩
    simp [h2, h3, h4, pending]

/-- **C96** (content): when nothing is going on after a flush, and no diagnostics of the path were added or removed since, the client shows
the current diagnostics of the path. (Partial: unless a flush came across them without a listener, or a report could not be sent. Every
URI belongs to one path.) -/
theorem C96_current_partial (uriOf : Path → Option Uri) (a b : List Event) (s : State) (h : Run uriOf {} (a ++ .endFlush :: b) s) (p : Path) (u : Uri)
    (hu : uriOf p = some u) (hinj : ∀ q, uriOf q = some u → q = p) (hb : ∀ e ∈ b, ¬ Touches p e) (hq : Quiet s)
    (hheard : Event.unheard p ∉ a ++ .endFlush :: b) (hsent : ∀ r, Event.failed r ∉ a ++ .endFlush :: b) :
    Shown (got (a ++ .endFlush :: b)) u (s.handler.lists p).diags := by
  have hgot : got (a ++ .endFlush :: b) = made (a ++ .endFlush :: b) := by
    rw [← (C96_order uriOf _ s h).2.2 hq]
    unfold got tried
    apply List.filterMap_congr
    intro e he
    cases e with
    | failed r => exact absurd he (hsent r)
    | _ => rfl
  rw [hgot]
  refine made_current h p u hu hinj hheard ?_
  rw [show a ++ Event.endFlush :: b = (a ++ [.endFlush]) ++ b by simp] at h
  obtain ⟨m, h1, h2⟩ := run_append h
  refine (untouched_run (inv_run h1) h2 p hb).2 ?_
  obtain ⟨m', h3, h4⟩ := run_append h1
  generalize hl : [Event.endFlush] = l at h4
  cases h4 with
  | nil => cases hl
  | @snoc tr t e _ h5 h6 =>
    rcases List.append_eq_singleton_iff.1 hl.symm with ⟨rfl, h7⟩ | ⟨_, h7⟩
    · simp only [List.cons.injEq, and_true] at h7
      subst h7
      cases h6 with
      | endFlush hf hc => exact (inv_more (inv_run h3) h5).flushed [] hf p (by simp)
    · cases h7

/-- **C96** (version): a report carries the URI of its path and the version that was last given for it. -/
theorem C96_version (uriOf : Path → Option Uri) (tr : List Event) (s : State) (p : Path) (r : Report) (h : Run uriOf {} (tr ++ [.call p r]) s) :
    uriOf p = some r.uri ∧ Version tr r.uri r.version := by
  generalize hl : tr ++ [Event.call p r] = l at h
  cases h with
  | nil => simp at hl
  | @snoc tr' t e _ h5 h6 =>
    obtain ⟨rfl, h7⟩ := List.append_inj' hl rfl
    simp only [List.cons.injEq, and_true] at h7
    subst h7
    cases h6 with
    | call _ rest u hf hc hd hl hu => exact ⟨hu, (inv_run h5).versions u⟩

/-- **C96** (progress): until the workspace is removed, the server finishes whatever is going on, in a bounded number of steps, whatever the
order of the steps of its goroutines. (Sending a report to the client counts as a step.) -/
theorem C96_progress (uriOf : Path → Option Uri) (tr : List Event) (s : State) (h : Run uriOf {} tr s) (hx : s.cancelled = false) :
    (¬ Quiet s → ∃ e t, Step uriOf s e t ∧ Internal e) ∧
    ∃ n, ∀ tr' t, Run uriOf s tr' t → (∀ e ∈ tr', Internal e) → tr'.length ≤ n := by
  have hi := inv_run h
  refine ⟨?_, weight s, fun tr' t h' he => Nat.le_trans (Nat.le_add_right _ _) (internal_run h' he)⟩
  intro hq
  cases hp : s.publisher with
  | busy r => exact ⟨_, _, .published s r hp, trivial⟩
  | stopped =>
    have := hi.stopped hp
    rw [hx] at this
    cases this
  | idle =>
    cases hch : s.channel with
    | cons r rest => exact ⟨_, _, .receive s r rest hp hch, trivial⟩
    | nil =>
      cases hc : s.calling with
      | some r => exact ⟨_, _, .send s r hc (by rw [hch]; decide), trivial⟩
      | none =>
        refine flush_step uriOf s (fun hf => hq ⟨hf, hc, hch, hp⟩) hc

/-- **C96** (end): when a workspace is removed while nothing is flushed, both goroutines end. (Partial: see the next two theorems.) -/
theorem C96_end_partial (uriOf : Path → Option Uri) (tr : List Event) (s : State) (h : Run uriOf {} tr s) (hx : s.cancelled = true)
    (hf : s.flush = none) (hno : ∀ e t, Internal e → ¬ Step uriOf s e t) : s.stream = .done ∧ s.publisher = .stopped := by
  have hi := inv_run h
  have hc : s.calling = none := by
    by_contra hc
    exact (hi.calling hc).1 hf
  constructor
  · cases hs : s.stream with
    | starting => exact absurd (.install s hs) (hno .install _ trivial)
    | waiting => exact absurd (.remove s hs hx hc) (hno .remove _ trivial)
    | done => rfl
  · cases hp : s.publisher with
    | idle => exact absurd (.stop s hp hx) (hno .stop _ trivial)
    | busy r => exact absurd (.published s r hp) (hno (.published r) _ trivial)
    | stopped => rfl

/-- A flush is stuck exactly if the publishing goroutine has ended and the channel is full. -/
theorem C96_stuck_iff (uriOf : Path → Option Uri) (tr : List Event) (s : State) (h : Run uriOf {} tr s) (hf : s.flush ≠ none) :
    (∀ e t, Internal e → ¬ Step uriOf s e t) ↔ s.calling ≠ none ∧ s.channel.length = capacity ∧ s.publisher = .stopped := by
  have hi := inv_run h
  constructor
  · intro hno
    have hc : s.calling ≠ none := by
      intro hc
      obtain ⟨e, t, h1, h2⟩ := flush_step uriOf s hf hc
      exact hno e t h2 h1
    have hch : s.channel.length = capacity := by
      cases hc' : s.calling with
      | none => exact absurd hc' hc
      | some r =>
        by_contra hne
        exact hno (.send r) _ trivial (.send s r hc' (Nat.lt_of_le_of_ne hi.cap hne))
    refine ⟨hc, hch, ?_⟩
    cases hp : s.publisher with
    | idle =>
      cases hl : s.channel with
      | nil => rw [hl] at hch; cases hch
      | cons r rest => exact absurd (.receive s r rest hp hl) (hno (.receive r) _ trivial)
    | busy r => exact absurd (.published s r hp) (hno (.published r) _ trivial)
    | stopped => rfl
  · rintro ⟨hc, hch, hp⟩ e t he hs
    have hw := (hi.calling hc).2
    cases hs with
    | modify => cases he
    | update => cases he
    | startFlush => cases he
    | cancel => cases he
    | clean _ _ _ h => exact hc h
    | unheard _ _ _ h => exact hc h
    | unknown _ _ _ h => exact hc h
    | call _ _ _ _ h => exact hc h
    | send _ _ hr => omega
    | endFlush _ h => exact hc h
    | install h => rw [hw] at h; cases h
    | remove _ _ h => exact hc h
    | receive _ _ h => rw [hp] at h; cases h
    | published _ h => rw [hp] at h; cases h
    | failed _ h => rw [hp] at h; cases h
    | stop h => rw [hp] at h; cases h

/-- A flush that is stuck never ends: the lock on the results of the compiler is held for ever. -/
theorem stuck_for_ever (uriOf : Path → Option Uri) (s : State) (hf : s.flush ≠ none) (hw : s.stream = .waiting) (hc : s.calling ≠ none)
    (hch : s.channel.length = capacity) (hp : s.publisher = .stopped) (tr : List Event) (t : State) (h : Run uriOf s tr t) :
    t.flush ≠ none ∧ t.stream = .waiting ∧ t.calling ≠ none ∧ t.channel.length = capacity ∧ t.publisher = .stopped := by
  induction h with
  | nil => exact ⟨hf, hw, hc, hch, hp⟩
  | snoc _ hs ih =>
    obtain ⟨hf, hw, hc, hch, hp⟩ := ih
    cases hs with
    | modify _ _ h => exact absurd h hf
    | update _ h => exact absurd h hf
    | startFlush _ _ h => exact absurd h hf
    | cancel => exact ⟨hf, hw, hc, hch, hp⟩
    | clean _ _ _ h => exact absurd h hc
    | unheard _ _ _ h => exact absurd h hc
    | unknown _ _ _ h => exact absurd h hc
    | call _ _ _ _ h => exact absurd h hc
    | send _ _ hr => omega
    | endFlush _ h => exact absurd h hc
    | install h => rw [hw] at h; cases h
    | remove _ _ h => exact absurd h hc
    | receive _ _ h => rw [hp] at h; cases h
    | published _ h => rw [hp] at h; cases h
    | failed _ h => rw [hp] at h; cases h
    | stop h => rw [hp] at h; cases h

/-- **C96** (start): what was flushed before the listener was installed is not shown until it changes. -/
theorem C96_start (uriOf : Path → Option Uri) (tr tr' : List Event) (s t : State) (h : Run uriOf {} tr s) (hs : s.stream = .starting) (p : Path)
    (u : Uri) (hinj : ∀ q, uriOf q = some u → q = p) (hd : (s.handler.lists p).dirty = false) (h' : Run uriOf s tr' t)
    (ht : ∀ e ∈ tr', ¬ Touches p e) :
    (∀ r ∈ got (tr ++ tr'), r.uri ≠ u) ∧ (t.handler.lists p).diags = (s.handler.lists p).diags := by
  have hi := inv_run h
  refine ⟨?_, (untouched_run hi h' p ht).1⟩
  have hmade : ∀ r ∈ made (tr ++ tr'), r.uri ≠ u := by
    induction h' with
    | nil => rw [List.append_nil, hi.starting hs]; simp
    | @snoc tr' m e t hm hst ih =>
      have ht' : ∀ e ∈ tr', ¬ Touches p e := fun e he => ht e (by simp [he])
      have ih := ih ht'
      rw [← List.append_assoc, made_snoc]
      intro r hr
      rcases List.mem_append.1 hr with hr | hr
      · exact ih r hr
      · cases hst with
        | call q rest v hf hc hq hl hu =>
          simp only [made, List.filterMap_cons, List.filterMap_nil, List.mem_singleton] at hr
          subst hr
          rintro rfl
          have := hinj q hu
          subst this
          rw [(untouched_run hi hm q ht').2 hd] at hq
          cases hq
        | _ => simp [made] at hr
  intro r hr
  refine hmade r ((C96_order uriOf _ t (run_trans h h')).1.subset ?_)
  unfold got at hr
  unfold tried
  obtain ⟨e, he, hr⟩ := List.mem_filterMap.1 hr
  refine List.mem_filterMap.2 ⟨e, he, ?_⟩
  cases e with
  | published x => exact hr
  | _ => cases hr

/-! ## Violations -/

/-- Paths `a` and `b` with URIs. -/
def uris (p : Path) : Option Uri := if p = "a" then some 1 else if p = "b" then some 2 else none

def d : Diag := ⟨1, 1, .error, [], []⟩

theorem uris_inj (q : Path) (h : uris q = some 1) : q = "a" := by
  unfold uris at h
  split at h
  · assumption
  · split at h <;> cases h

/-- **C96** (violated): what the files of a workspace have when it is opened is not shown. `LoadFiles` compiles them and flushes
(server.go:85) before the listener is installed (line 89): the client gets nothing until the diagnostics change. -/
theorem C96_start_violated :
    ∃ tr s, Run uris {} tr s ∧ Quiet s ∧ s.stream = .starting ∧ (s.handler.lists "a").diags = [d] ∧
      ∀ tr' t, Run uris s tr' t → (∀ e ∈ tr', ¬ Touches "a" e) →
        (∀ r ∈ got (tr ++ tr'), r.uri ≠ 1) ∧ (t.handler.lists "a").diags = [d] := by
  have h0 : Run uris {} [] {} := .nil
  have h1 := h0.snoc (.modify _ (.create "a") rfl rfl)
  have h2 := h1.snoc (.modify _ (.add "a" 1 d) rfl rfl)
  have h3 := h2.snoc (.startFlush _ ["a"] (.refl _) rfl)
  have h4 := h3.snoc (.unheard _ "a" [] rfl rfl rfl rfl)
  have h5 := h4.snoc (.endFlush _ rfl rfl)
  exact ⟨_, _, h5, ⟨rfl, rfl, rfl, rfl⟩, rfl, rfl, fun tr' t h' ht => C96_start uris _ tr' _ t h5 rfl "a" 1 uris_inj rfl h' ht⟩

/-- **C96** (violated): if a workspace is removed while its diagnostics are flushed, the flush may never end, and with it the request and the
lock. -/
theorem C96_end_violated :
    ∃ tr s, Run uris {} tr s ∧ s.cancelled = true ∧ ∀ tr' t, Run uris s tr' t → t.flush ≠ none := by
  have h0 : Run uris {} [] {} := .nil
  have h1 := h0.snoc (.install _ rfl)
  have h2 := h1.snoc (.modify _ (.create "a") rfl rfl)
  have h3 := h2.snoc (.modify _ (.add "a" 1 d) rfl rfl)
  have h4 := h3.snoc (.modify _ (.create "b") rfl rfl)
  have h5 := h4.snoc (.modify _ (.add "b" 2 d) rfl rfl)
  have h6 := h5.snoc (.startFlush _ ["a", "b"] (.refl _) rfl)
  have h7 := h6.snoc (.call _ "a" ["b"] 1 rfl rfl rfl rfl rfl)
  have h8 := h7.snoc (.send _ _ rfl (by decide))
  have h9 := h8.snoc (.cancel _)
  have h10 := h9.snoc (.stop _ rfl rfl)
  have h11 := h10.snoc (.call _ "b" [] 2 rfl rfl rfl rfl rfl)
  exact ⟨_, _, h11, rfl, fun tr' t h' => (stuck_for_ever uris _ (by simp) rfl (by simp) rfl rfl tr' t h').1⟩

/-- An execution in which a report for `a` is received by the publishing goroutine. -/
theorem received : ∃ tr s, Run uris {} tr s ∧ s.publisher = .busy ⟨1, 0, [d]⟩ ∧ s.flush = none ∧ s.calling = none ∧ s.channel = [] ∧
    s.stream = .waiting ∧ (s.handler.lists "a").diags = [d] ∧ (s.handler.lists "a").dirty = false ∧ got tr = [] ∧ s.cancelled = false := by
  have h0 : Run uris {} [] {} := .nil
  have h1 := h0.snoc (.install _ rfl)
  have h2 := h1.snoc (.modify _ (.create "a") rfl rfl)
  have h3 := h2.snoc (.modify _ (.add "a" 1 d) rfl rfl)
  have h4 := h3.snoc (.startFlush _ ["a"] (.refl _) rfl)
  have h5 := h4.snoc (.call _ "a" [] 1 rfl rfl rfl rfl rfl)
  have h6 := h5.snoc (.send _ _ rfl (by decide))
  have h7 := h6.snoc (.endFlush _ rfl rfl)
  have h8 := h7.snoc (.receive _ _ [] rfl rfl)
  exact ⟨_, _, h8, rfl, rfl, rfl, rfl, rfl, rfl, rfl, rfl, rfl⟩

/-- **C96** (violated): a report that could not be sent is not sent again. -/
theorem C96_failed_violated :
    ∃ tr s, Run uris {} tr s ∧ Quiet s ∧ (s.handler.lists "a").dirty = false ∧ (s.handler.lists "a").diags = [d] ∧ got tr = [] := by
  obtain ⟨tr, s, h, hp, hf, hc, hch, _, h1, h2, h3, _⟩ := received
  refine ⟨_, _, h.snoc (.failed s _ hp), ⟨hf, hc, hch, rfl⟩, h2, h1, ?_⟩
  simpa [got] using h3

/-- Nothing is sent after the goroutine has ended. -/
theorem stopped_got (uriOf : Path → Option Uri) (s : State) (hp : s.publisher = .stopped) (tr : List Event) (t : State) (h : Run uriOf s tr t) :
    t.publisher = .stopped ∧ got tr = [] := by
  induction h with
  | nil => exact ⟨hp, rfl⟩
  | snoc _ hs ih =>
    obtain ⟨h1, h2⟩ := ih
    rw [got, List.filterMap_append]
    rw [got] at h2
    rw [h2]
    cases hs with
    | receive _ _ h => rw [h1] at h; cases h
    | published _ h => rw [h1] at h; cases h
    | failed _ h => rw [h1] at h; cases h
    | stop h => rw [h1] at h; cases h
    | _ => exact ⟨h1, rfl⟩

/-- **C96** (violated): the diagnostics of a workspace that was removed stay with the client: both goroutines have ended and nothing was
sent to take them back. -/
theorem C96_removed_violated :
    ∃ tr s, Run uris {} tr s ∧ s.stream = .done ∧ s.publisher = .stopped ∧
      ∀ tr' t, Run uris s tr' t → Shown (got (tr ++ tr')) 1 [d] := by
  obtain ⟨tr, s, h, hp, hf, hc, hch, hw, h1, h2, h3, _⟩ := received
  have h4 := h.snoc (.published s _ hp)
  have h5 := h4.snoc (.cancel _)
  have h6 := h5.snoc (.stop _ rfl rfl)
  have h7 := h6.snoc (.remove _ hw rfl hc)
  refine ⟨_, _, h7, rfl, rfl, ?_⟩
  intro tr' t h'
  have := (stopped_got uris _ rfl tr' t h').2
  refine .inl ⟨[], ⟨1, 0, [d]⟩, [], ?_, rfl, rfl, by simp⟩
  rw [show ∀ a b, got (a ++ b) = got a ++ got b from fun a b => by simp [got], this]
  simp only [List.append_nil, List.nil_append]
  rw [show ∀ a b, got (a ++ b) = got a ++ got b from fun a b => by simp [got], show ∀ a b, got (a ++ b) = got a ++ got b from fun a b => by simp [got],
    show ∀ a b, got (a ++ b) = got a ++ got b from fun a b => by simp [got], show ∀ a b, got (a ++ b) = got a ++ got b from fun a b => by simp [got], h3]
  rfl

/-! ## Examples -/

/-- Two files are flushed, the second report is made while the first is sent. -/
theorem two : ∃ a s, Run uris {} (a ++ [.endFlush]) s ∧ s.publisher = .busy ⟨1, 5, [d]⟩ ∧ s.channel = [⟨2, 0, [d, d]⟩] ∧ s.flush = none ∧
    s.calling = none ∧ s.cancelled = false ∧ got (a ++ [.endFlush]) = [] ∧ Event.unheard "a" ∉ a ∧ (∀ r, Event.failed r ∉ a) ∧
    (s.handler.lists "a").diags = [d] := by
  have h0 : Run uris {} [] {} := .nil
  have h1 := h0.snoc (.install _ rfl)
  have h2 := h1.snoc (.modify _ (.create "a") rfl rfl)
  have h3 := h2.snoc (.modify _ (.add "a" 1 d) rfl rfl)
  have h4 := h3.snoc (.modify _ (.create "b") rfl rfl)
  have h5 := h4.snoc (.modify _ (.add "b" 2 d) rfl rfl)
  have h6 := h5.snoc (.modify _ (.add "b" 3 d) rfl rfl)
  have h7 := h6.snoc (.update _ [(1, 4), (1, 5)] rfl)
  have h8 := h7.snoc (.startFlush _ ["a", "b"] (.refl _) rfl)
  have h9 := h8.snoc (.call _ "a" ["b"] 1 rfl rfl rfl rfl rfl)
  have h10 := h9.snoc (.send _ _ rfl (by decide))
  have h11 := h10.snoc (.receive _ _ [] rfl rfl)
  have h12 := h11.snoc (.call _ "b" [] 2 rfl rfl rfl rfl rfl)
  have h13 := h12.snoc (.send _ _ rfl (by decide))
  have h14 := h13.snoc (.endFlush _ rfl rfl)
  exact ⟨_, _, h14, rfl, rfl, rfl, rfl, rfl, rfl, by simp, by simp, rfl⟩

/-- The diagnostics of a file are cleared when it is compiled again, and nothing is added: the client gets an empty report. -/
example : ∃ tr s, Run uris {} tr s ∧ Shown (made tr) 1 [] ∧ (s.handler.lists "a").diags = [] ∧ (made tr).length = 2 := by
  have h0 : Run uris {} [] {} := .nil
  have h1 := h0.snoc (.install _ rfl)
  have h2 := h1.snoc (.modify _ (.create "a") rfl rfl)
  have h3 := h2.snoc (.modify _ (.add "a" 1 d) rfl rfl)
  have h4 := h3.snoc (.startFlush _ ["a"] (.refl _) rfl)
  have h5 := h4.snoc (.call _ "a" [] 1 rfl rfl rfl rfl rfl)
  have h6 := h5.snoc (.send _ _ rfl (by decide))
  have h7 := h6.snoc (.endFlush _ rfl rfl)
  have h8 := h7.snoc (.modify _ (.clearPath "a" 2) rfl rfl)
  have h9 := h8.snoc (.startFlush _ ["a"] (.refl _) rfl)
  have h10 := h9.snoc (.call _ "a" [] 1 rfl rfl rfl rfl rfl)
  refine ⟨_, _, h10, .inl ⟨[⟨1, 0, [d]⟩], ⟨1, 0, []⟩, [], rfl, rfl, rfl, by simp⟩, rfl, rfl⟩

/-- The hypotheses of `C96_current_partial` and `C96_progress` are met. -/
example : ∃ a b s, Run uris {} (a ++ .endFlush :: b) s ∧ Quiet s ∧ (∀ e ∈ b, ¬ Touches "a" e) ∧ Event.unheard "a" ∉ a ++ .endFlush :: b ∧
    (∀ r, Event.failed r ∉ a ++ .endFlush :: b) ∧ got (a ++ .endFlush :: b) = [⟨1, 5, [d]⟩, ⟨2, 0, [d, d]⟩] ∧ s.cancelled = false ∧
    Shown (got (a ++ .endFlush :: b)) 1 [d] := by
  obtain ⟨a, m, h, hp, hch, hf, hc, hx, hg, hun, hfa, hd⟩ := two
  have h15 := (Run.nil (uriOf := uris) (s := m)).snoc (.published _ _ hp)
  have h16 := h15.snoc (.receive _ _ [] rfl hch)
  have h17 := h16.snoc (.published _ _ rfl)
  have h18 := h17.snoc (.modify _ (.add "b" 4 d) rfl hf)
  have h19 := run_trans h h18
  rw [List.append_assoc] at h19
  have ht : ∀ e ∈ [Event.published ⟨1, 5, [d]⟩, .receive ⟨2, 0, [d, d]⟩, .published ⟨2, 0, [d, d]⟩, .modify (.add "b" 4 d)], ¬ Touches "a" e := by
    simp [Touches]
  refine ⟨a, _, _, h19, ⟨hf, hc, rfl, rfl⟩, ht, by simp [hun], by simp [hfa], ?_, hx, ?_⟩
  · simp only [got, List.filterMap_append] at hg ⊢
    rw [List.append_eq_nil_iff] at hg
    rw [hg.1]
    rfl
  · have h20 := C96_current_partial uris a _ _ h19 "a" 1 rfl uris_inj ht ⟨hf, hc, rfl, rfl⟩ (by simp [hun]) (by simp [hfa])
    rw [(untouched_run (inv_run h) h18 "a" ht).1, hd] at h20
    exact h20

end Verif.Publish
