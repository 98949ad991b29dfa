import Verif.Lemmas.PrinterLit
import Mathlib.Data.List.Perm.Basic
/-! The options that the descriptor printer writes. -/
namespace Verif.Printer
open Verif.Lexer Verif.PrintWriter Verif.Decls Verif.Literal

variable {c : Cfg} {si : SI}

theorem Env.loc (e : Env c si) (p : Path) : LocsOk (si.get p) := fun x hx => by
  unfold SI.get at hx
  exact e.locs p x (List.mem_of_head? hx)

/-! ### One option -/

theorem emits_put_punct {x : Char} (h : punctChar x = true) (hx : x ≠ ' ') (k : K) : Emits (put [x]) k [[x]] .idle :=
  Emits.put_idle (Lx.punct (m := .idle) trivial h) (by simp) (by simpa using hx) (.inl ⟨x, [], rfl, hard_punct h⟩)

theorem emits_printOption (e : Env c si) {a : At} (hs : ScOk a.pk a.sc) {o : Opt} (h : o.Ok) :
    ∃ d, o.Means a d ∧ ∀ ind, Emits (printOption c a o ind) .sep d.toks .any := by
  obtain ⟨ps, hn, m, hx, hcl, x, s, ex, hx1, hx2⟩ := lx_oname (c := c) hs h.name
  obtain ⟨v, hv, hvo⟩ := h.val
  obtain ⟨d, hd, ht⟩ := txt_oval (c := c) e.indent e.noNul hs v hvo
  refine ⟨⟨ps, d⟩, ⟨hn, v, hv, hd⟩, fun ind => ?_⟩
  have h1 : Emits (put (o.name.text c a.pk a.sc a.inMsg ++ [' ', '=', ' '])) .sep (nameToks ps ++ [['=']]) .sep := by
    have hl : Lx .idle (o.name.text c a.pk a.sc a.inMsg ++ [' ', '=']) (nameToks ps ++ [['=']]) .idle :=
      ((hx.append (Lx.space hcl)).append (Lx.punct (m := .idle) trivial (c := '=') (by decide)) |>.toks (by simp)).text (by simp)
    have := Emits.put_sep (k := .sep) hl (by simp) (by rw [List.getLast?_append]; simp) trivial
      (.inr ⟨by simp, by rw [ex]; simpa using hx1, by rw [ex]; simpa using hx2⟩)
    simpa using this
  have h2 := (ht ind).emits (k := .sep) (by simp)
  intro m0 base w toks hg
  have := (hg.after h1).after h2
  have this := this.toks (us := toks ++ (Setting.toks ⟨ps, d⟩)) (by simp [Setting.toks])
  unfold printOption
  rw [hv]
  cases v <;> exact this

/-! ### Option statements -/

/-- The tokens of options in statements. -/
def optionDecls (ds : List Setting) : List Decl := ds.map .option

theorem toksAll_append (a b : List Decl) : Decl.toksAll (a ++ b) = Decl.toksAll a ++ Decl.toksAll b := by
  induction a with
  | nil => simp [Decl.toksAll]
  | cons d a ih => simp [Decl.toksAll, ih]

theorem ident_kw {s : String} (h : (match s.toList with | [] => false | x :: t => letter x && t.all (fun d => letter d || digit d)) = true) :
    Ident s.toList := by
  cases hs : s.toList with
  | nil => rw [hs] at h; cases h
  | cons x t =>
    rw [hs] at h
    simp only [Bool.and_eq_true, List.all_eq_true, Bool.or_eq_true] at h
    exact h

/-- A keyword and a blank. -/
theorem emits_kw (s : String) (h : (match s.toList with | [] => false | x :: t => letter x && t.all (fun d => letter d || digit d)) = true)
    {k : K} (hk : k ≠ .any) : Emits (put (s.toList ++ [' '])) k [s.toList] .sep := (Txt.ident (ident_kw h)).emits_sep hk

theorem emits_optionStatement (e : Env c si) {a : At} (hs : ScOk a.pk a.sc) {o : Opt} (h : o.Ok) :
    ∃ d, o.Means a d ∧ ∀ ind, Emits (fun w => put [';'] (printOption c a o ind (put (kw "option ") (indentW c ind w)))) .idle
      (Decl.option d).toks .idle := by
  obtain ⟨d, h1, h2⟩ := emits_printOption e hs h
  refine ⟨d, h1, fun ind => ?_⟩
  have hk := emits_kw "option" (by decide) (k := .idle) (by simp)
  have := (((emits_indentW e.indent ind .idle).comp hk).comp (h2 ind)).comp (emits_put_punct (x := ';') (by decide) (by decide) .any)
  exact this.toks (by simp [Decl.toks, semi])

theorem emits_optionsLoop_long (e : Env c si) {a : At} (hs : ScOk a.pk a.sc) (os : List Opt) (h : ∀ o ∈ os, o.Ok) :
    ∃ ds, List.Forall₂ (Opt.Means a) os ds ∧ ∀ (ind : Int) (loc : Nat → Option Loc) (i : Nat), (∀ i, LocsOk (loc i)) →
      Emits (optionsLoop c ind loc (fun o _ w => if o.val.isNone then w
        else put [';'] (printOption c a o ind (put (kw "option ") (indentW c ind w)))) false i os) .idle
        (Decl.toksAll (optionDecls ds)) .idle := by
  induction os with
  | nil => exact ⟨[], .nil, fun _ _ _ _ => Emits.id _⟩
  | cons o os ih =>
    obtain ⟨d, h1, h2⟩ := emits_optionStatement e hs (h o List.mem_cons_self)
    obtain ⟨ds, h3, h4⟩ := ih (fun x hx => h x (List.mem_cons_of_mem _ hx))
    refine ⟨d :: ds, .cons h1 h3, fun ind loc i hl => ?_⟩
    obtain ⟨v, hv, _⟩ := (h o List.mem_cons_self).val
    have hstep : Emits (element c false (loc i) ind (fun w => if o.val.isNone then w
        else put [';'] (printOption c a o ind (put (kw "option ") (indentW c ind w))))) .idle (Decl.option d).toks .idle := by
      apply emits_element e.indent (hl i)
      simpa [hv] using h2 ind
    exact (hstep.comp (h4 ind loc (i + 1) hl)).toks (by simp [optionDecls, Decl.toksAll])

/-- The options of a number as statements. -/
theorem emits_optionsLong (e : Env c si) {a : At} (hs : ScOk a.pk a.sc) {os : List Opt} (h : ∀ o ∈ os, o.Ok) (path : Path) (ind : Int) :
    ∃ ds, List.Forall₂ (Opt.Means a) os ds ∧ Emits (optionsLong c si a os path ind) .idle (Decl.toksAll (optionDecls ds)) .idle := by
  obtain ⟨ds, h1, h2⟩ := emits_optionsLoop_long e hs os h
  exact ⟨ds, h1, h2 ind _ 0 (fun i => e.loc _)⟩

/-! ### Options in brackets -/

theorem emits_shortFn (e : Env c si) {a : At} (hs : ScOk a.pk a.sc) {o : Opt} (h : o.Ok) :
    ∃ d, o.Means a d ∧ ∀ expand ind more, Emits (shortFn c a expand ind o more) .sep (d.toks ++ if more then [[',']] else [])
      (if more then .sep else .any) := by
  obtain ⟨d, h1, h2⟩ := emits_printOption e hs h
  refine ⟨d, h1, fun expand ind more => ?_⟩
  have h3 : Emits (fun w => printOption c a o ind (if expand then indentW c ind w else w)) .sep d.toks .any := by
    cases expand
    · exact h2 ind
    · exact ((emits_indentW e.indent ind .sep).comp (h2 ind)).toks (by simp)
  cases more
  · rw [show shortFn c a expand ind o false = (fun w => printOption c a o ind (if expand then indentW c ind w else w)) from rfl]
    exact h3.toks (by simp)
  · have hc : Emits (put (if expand then [',', '\n'] else [',', ' '])) .any [[',']] .sep := by
      cases expand
      · exact Emits.put_sep (q := [',']) (Lx.punct (m := .idle) trivial (by decide)) (by simp) (by simp) trivial
          (.inl ⟨',', [], rfl, by decide⟩)
      · have hx : Lx .idle [',', '\n'] [[',']] .idle :=
          ((Lx.punct (m := .idle) trivial (c := ',') (by decide)).append (Lx.newline (m := .idle) trivial)).toks (by simp)
        exact (Emits.put_idle hx (by simp) (by simp) (.inl ⟨',', ['\n'], rfl, by decide⟩)).to
    exact h3.comp hc

theorem commas_cons (t : List Str) {ts : List (List Str)} (h : ts ≠ []) : commas (t :: ts) = t ++ [','] :: commas ts := by
  cases ts with
  | nil => exact absurd rfl h
  | cons u ts => rfl

theorem commas_append {a b : List (List Str)} (ha : a ≠ []) (hb : b ≠ []) : commas (a ++ b) = commas a ++ [','] :: commas b := by
  induction a with
  | nil => exact absurd rfl ha
  | cons t a ih =>
    cases a with
    | nil => simp only [List.cons_append, List.nil_append]; rw [commas_cons t hb]; rfl
    | cons u a =>
      rw [List.cons_append, commas_cons t (by simp), ih (by simp), commas_cons t (by simp)]
      simp

/-- The loop over the options of a number. -/
theorem emits_optionsLoop_short (e : Env c si) {a : At} (hs : ScOk a.pk a.sc) (os : List Opt) (h : ∀ o ∈ os, o.Ok) (hne : os ≠ []) :
    ∃ ds, List.Forall₂ (Opt.Means a) os ds ∧ ∀ (ind i2 : Int) (expand : Bool) (loc : Nat → Option Loc) (haveMore : Bool) (i : Nat),
      (∀ i, LocsOk (loc i)) →
      Emits (optionsLoop c ind loc (shortFn c a expand i2) haveMore i os) .sep
        (commas (ds.map Setting.toks) ++ if haveMore then [[',']] else []) (if haveMore then .sep else .any) := by
  induction os with
  | nil => exact absurd rfl hne
  | cons o os ih =>
    obtain ⟨d, h1, h2⟩ := emits_shortFn e hs (h o List.mem_cons_self)
    cases os with
    | nil =>
      refine ⟨[d], .cons h1 .nil, fun ind i2 expand loc haveMore i hl => ?_⟩
      have := emits_element e.indent (hl i) false ind (h2 expand i2 haveMore)
      simpa [optionsLoop, commas] using this
    | cons o' os =>
      obtain ⟨ds, h3, h4⟩ := ih (fun x hx => h x (List.mem_cons_of_mem _ hx)) (by simp)
      refine ⟨d :: ds, .cons h1 h3, fun ind i2 expand loc haveMore i hl => ?_⟩
      have hds : ds.map Setting.toks ≠ [] := by
        cases h3; simp
      have h5 := emits_element e.indent (hl i) false ind (h2 expand i2 true)
      have h6 := h5.comp (h4 ind i2 expand loc haveMore (i + 1) hl)
      have h7 := h6.toks (a' := commas ((d :: ds).map Setting.toks) ++ if haveMore then [[',']] else []) (by
        rw [List.map_cons, commas_cons _ hds]; simp)
      simpa only [optionsLoop, List.isEmpty_cons, Bool.not_false, Bool.or_true] using h7

/-- The loop over the numbers. -/
theorem emits_shortLoop (e : Env c si) {a : At} (hs : ScOk a.pk a.sc) (os : Opts) (gs : Opts) (hne : gs ≠ [])
    (hg : ∀ g ∈ gs, optsAt os g.1 = g.2 ∧ g.2 ≠ [] ∧ ∀ o ∈ g.2, o.Ok) :
    ∃ ds, List.Forall₂ (Opt.Means a) (gs.flatMap Prod.snd) ds ∧ ∀ tag path ind expand,
      Emits (shortLoop c si a os tag path ind expand (optKeys gs)) .sep (commas (ds.map Setting.toks)) .any := by
  induction gs with
  | nil => exact absurd rfl hne
  | cons g gs ih =>
    obtain ⟨hg1, hg2, hg3⟩ := hg g List.mem_cons_self
    obtain ⟨d1, h1, h2⟩ := emits_optionsLoop_short e hs g.2 hg3 hg2
    cases gs with
    | nil =>
      refine ⟨d1, by simpa using h1, fun tag path ind expand => ?_⟩
      have := h2 (if expand then ind else inline ind) (if expand then ind else inline ind) expand
        (fun (i : Nat) => si.get (if g.1 < 0 then path ++ [-g.1] else path ++ [tag, g.1, (i : Int)])) false 0 (fun i => e.loc _)
      simpa [optKeys, shortLoop, hg1] using this
    | cons g' gs =>
      obtain ⟨ds, h3, h4⟩ := ih (by simp) (fun x hx => hg x (List.mem_cons_of_mem _ hx))
      refine ⟨d1 ++ ds, by simpa using List.rel_append h1 h3, fun tag path ind expand => ?_⟩
      have h5 := h2 (if expand then ind else inline ind) (if expand then ind else inline ind) expand
        (fun (i : Nat) => si.get (if g.1 < 0 then path ++ [-g.1] else path ++ [tag, g.1, (i : Int)])) true 0 (fun i => e.loc _)
      have hd1 : d1.map Setting.toks ≠ [] := by
        cases hge : g.2 with
        | nil => exact absurd hge hg2
        | cons o os' => rw [hge] at h1; cases h1; simp
      have hds : ds.map Setting.toks ≠ [] := by
        have := (hg g' (by simp)).2.1
        cases hge : g'.2 with
        | nil => exact absurd hge this
        | cons o os' =>
          rw [List.flatMap_cons, hge] at h3
          cases h3; simp
      have h6 := (h5.comp (h4 tag path ind expand)).toks (a' := commas ((d1 ++ ds).map Setting.toks)) (by
        rw [List.map_append, commas_append hd1 hds]; simp)
      simpa [optKeys, shortLoop, hg1] using h6

/-- The options in brackets. -/
def bracketed (ds : List Setting) : List Str := ['['] :: commas (ds.map Setting.toks) ++ [[']']]

theorem emits_elementsShort (e : Env c si) {a : At} {os gs : Opts} {ds : List Setting} {tag : Int} {path : Path}
    (h : ∀ ind expand, Emits (shortLoop c si a os tag path ind expand (optKeys gs)) .sep (commas (ds.map Setting.toks)) .any)
    (ind : Int) (expand : Bool) : Emits (elementsShort c si a os tag path ind expand (optKeys gs)) .sep (bracketed ds) .idle := by
  have hend := emits_put_punct (x := ']') (by decide) (by decide) .any
  cases expand
  · have h1 := emits_put_punct (x := '[') (by decide) (by decide) .sep
    have := ((h1.to (k' := .sep)).comp (h ind false)).comp hend
    exact this.toks (by simp [bracketed])
  · have hx : Lx .idle ['[', '\n'] [['[']] .idle :=
      ((Lx.punct (m := .idle) trivial (c := '[') (by decide)).append (Lx.newline (m := .idle) trivial)).toks (by simp)
    have h1 : Emits (put ['[', '\n']) .sep [['[']] .idle := Emits.put_idle hx (by simp) (by simp) (.inl ⟨'[', ['\n'], rfl, by decide⟩)
    have := (((h1.to (k' := .sep)).comp (h (ind + 1) true)).comp (emits_indentW e.indent ind .any)).comp hend
    exact this.toks (by simp [bracketed])

/-- The text of the buffer is taken over. -/
theorem good_commit {a : At} {os gs : Opts} {ds : List Setting} {tag : Int} {path : Path} {ind : Int}
    (h : Emits (shortLoop c si a os tag path ind false (optKeys gs)) .sep (commas (ds.map Setting.toks)) .any)
    {m0 : Mode} {base : Str} {w : W} {toks : List Str} (hg : Good m0 base w toks .sep) :
    Good m0 base (commit w (elementsShort c si a os tag path ind false (optKeys gs) { w with w := { w.w with out := [] } }))
      (toks ++ bracketed ds) .idle := by
  obtain ⟨m1, hm1⟩ : ∃ m1, (lexFrom m0 w.w.out).2 = m1 := ⟨_, rfl⟩
  have hg0 : Good m1 [] { w with w := { w.w with out := [] } } (done m1) .sep :=
    ⟨by simp [lexFrom], by have := hg.fit; rw [hm1] at this; simpa [lexFrom] using this, hg.ok, List.nil_prefix⟩
  have h1 := hg0.after (emits_put_punct (x := '[') (by decide) (by decide) .sep)
  obtain ⟨ho1, _⟩ := write_out { w.w with out := [] } ['['] false (by simp) (by simp)
  have ho1 : (put ['['] { w with w := { w.w with out := [] } }).w.out = pendingBlank w.w.space '[' ++ ['['] := by
    simpa [put] using ho1
  have h1' : Good m1 (pendingBlank w.w.space '[' ++ ['[']) (put ['['] { w with w := { w.w with out := [] } }) (done m1 ++ [['[']]) .sep :=
    { (h1.idle .sep) with base := by rw [ho1]; exact List.prefix_refl _ }
  have h2 := h1'.after h
  have h3 := h2.after (emits_put_punct (x := ']') (by decide) (by decide) .any)
  obtain ⟨t, ht⟩ : ∃ t, elementsShort c si a os tag path ind false (optKeys gs) { w with w := { w.w with out := [] } } = t := ⟨_, rfl⟩
  have ht' : put [']'] (shortLoop c si a os tag path ind false (optKeys gs) (put ['['] { w with w := { w.w with out := [] } })) = t := by
    rw [← ht]; simp [elementsShort]
  obtain ⟨ho2, hs2⟩ := write_out (shortLoop c si a os tag path ind false (optKeys gs) (put ['['] { w with w := { w.w with out := [] } })).w
    [']'] false (by simp) (by simp)
  have hlast : t.w.out.getLast? = some ']' := by
    rw [← ht']
    simp only [put, Bool.false_eq_true, if_false, List.append_nil] at ho2 ⊢
    rw [ho2, List.getLast?_append]
    rfl
  rw [ht'] at h3
  rw [ht]
  -- what is written
  obtain ⟨r, hr⟩ := h3.base
  have hout : (commit w t).w.out = w.w.out ++ t.w.out := by
    unfold commit
    simp only
    cases hsp : w.w.space
    · rw [hsp] at hr
      have hr' : t.w.out = '[' :: r := by rw [← hr]; simp [pendingBlank]
      rw [if_neg (by simp)]
      obtain ⟨ho, _⟩ := write_out w.w t.w.out false (by rw [hr']; simp) (by rw [hlast]; simp)
      simp only [Bool.false_eq_true, if_false, List.append_nil] at ho
      rw [show (put t.w.out w).w.out = _ from ho, hsp]
      simp [pendingBlank]
    · rw [hsp] at hr
      have hr' : t.w.out = ' ' :: '[' :: r := by rw [← hr]; simp [pendingBlank]
      rw [if_pos (by rw [hr']; simp)]
      have hl2 : t.w.out.tail.getLast? ≠ some ' ' := by
        rw [hr'] at hlast ⊢
        rw [List.tail_cons]
        rw [List.getLast?_cons_cons] at hlast
        rw [hlast]; simp
      obtain ⟨ho, _⟩ := write_out w.w t.w.out.tail false (by rw [hr']; simp) hl2
      simp only [Bool.false_eq_true, if_false, List.append_nil] at ho
      rw [show (put t.w.out.tail w).w.out = _ from ho, hsp]
      rw [hr']
      simp [pendingBlank]
  refine ⟨?_, ?_, ?_, ?_⟩
  · rw [hout, lexFrom_append, hm1]
    simp only [List.append_assoc]
    have hl := hg.lexed
    rw [hm1] at hl
    rw [h3.lexed, ← hl]
    simp [bracketed]
  · show Fit .idle _ _
    rw [hout, lexFrom_append, hm1]
    exact h3.fit
  · unfold commit
    simp [hg.ok, h3.ok]
  · rw [hout]; exact hg.base.trans (List.prefix_append _ _)

theorem optsAt_mem {os : Opts} (hd : (os.map Prod.fst).Nodup) {g : Int × List Opt} (h : g ∈ os) : optsAt os g.1 = g.2 := by
  unfold optsAt
  induction os with
  | nil => cases h
  | cons x os ih =>
    rw [List.map_cons, List.nodup_cons] at hd
    rcases List.mem_cons.1 h with rfl | h
    · simp
    · have : x.1 ≠ g.1 := fun e => hd.1 (e ▸ List.mem_map_of_mem h)
      rw [List.find?_cons_of_neg (by simpa using this)]
      exact ih hd.2 h

/-- A permutation of the keys is the keys of a permutation. -/
theorem perm_map_inv {α β : Type*} {f : α → β} {l : List β} {xs : List α} (h : l.Perm (xs.map f)) : ∃ ys : List α, ys.Perm xs ∧ l = ys.map f := by
  have h1 : ∀ xs : List α, List.Forall₂ (fun b a => b = f a) (xs.map f) xs := by
    intro xs
    induction xs with
    | nil => exact .nil
    | cons x xs ih => exact .cons rfl ih
  obtain ⟨ys, h2, h3⟩ := List.perm_comp_forall₂ h (h1 xs)
  refine ⟨ys, h3, ?_⟩
  clear h1 h3 h
  induction h2 with
  | nil => rfl
  | cons e _ ih => rw [List.map_cons, ih, e]

theorem optKeys_perm (e : Env c si) (path : Path) (os : Opts) : ∃ gs : Opts, gs.Perm os ∧ c.sort path (optKeys os) = optKeys gs :=
  perm_map_inv (e.sorted path (optKeys os))

/-- The options of an element in brackets, if there are any. -/
theorem emits_optionsShort (e : Env c si) {a : At} (hs : ScOk a.pk a.sc) {os : Opts} (h : os.Ok) (tag : Int) (path : Path) (ind : Int) :
    ∃ ds, Opts.Mean a os ds ∧ Emits (optionsShort c si a os tag path ind) .sep (optToks ds) .sep := by
  by_cases hos : os = []
  · subst hos
    refine ⟨[], ⟨[], List.Perm.refl _, .nil⟩, ?_⟩
    exact Emits.id _
  obtain ⟨gs, hp, hk⟩ := optKeys_perm e path os
  have hgs : gs ≠ [] := fun h => hos (by rw [h] at hp; exact hp.symm.eq_nil)
  obtain ⟨ds, h1, h2⟩ := emits_shortLoop e hs os gs hgs (fun g hg =>
    ⟨optsAt_mem h.distinct (hp.subset hg), h.each g (hp.subset hg)⟩)
  refine ⟨ds, ⟨gs, hp, h1⟩, ?_⟩
  have hds : ds ≠ [] := by
    rintro rfl
    obtain ⟨g, gs', rfl⟩ := List.exists_cons_of_ne_nil hgs
    have := (h.each g (hp.subset List.mem_cons_self)).1
    cases hg : g.2 with
    | nil => exact this hg
    | cons o os' => rw [List.flatMap_cons, hg] at h1; cases h1
  have htoks : optToks ds = bracketed ds := by
    unfold optToks bracketed
    rw [if_neg (by simpa using hds)]
  have hexp := fun expand => emits_elementsShort e (h2 tag path) ind expand
  intro m0 base w toks hg
  rw [htoks]
  unfold optionsShort
  rw [if_neg (by simpa using hos)]
  simp only
  rw [hk]
  generalize (if c.optCount ≤ 0 then (3 : Int) else c.optCount) = maxCount
  generalize (if c.optLength ≤ 0 then (50 : Int) else c.optLength) = maxLength
  split
  · exact (hg.after (hexp true)).idle _
  · split
    · have hgood := (hg.after (hexp true)).idle .sep
      have ht : (elementsShort c si a os tag path ind false (optKeys gs) { w with w := { w.w with out := [] } }).stuck = false := by
        have := good_commit (h2 tag path ind false) hg
        have := this.ok
        unfold commit at this
        simp only [Bool.or_eq_false_iff] at this
        exact this.2
      refine ⟨hgood.lexed, hgood.fit, ?_, hgood.base⟩
      simp only [Bool.or_eq_false_iff]
      exact ⟨ht, hgood.ok⟩
    · exact (good_commit (h2 tag path ind false) hg).idle _

end Verif.Printer
