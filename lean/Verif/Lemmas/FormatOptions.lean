import Verif.Lemmas.FormatValues
/-! The rules for options, fields and enum values. -/
namespace Verif.Formatter
open Verif.Lexer Verif.Comment
open Verif.InlineComment (Comment)
open Verif.ColumnFormat (Field Elem)

variable {b : Bool} {cfg : Cfg}

/-! ### Option names -/

theorem emits_parts (n : OptName) : OptNameOk n → ∀ {k : K}, Accept k .ident = true → k ≠ .slash →
    Emits b (fun f => n.foldl (fun f p => Part.write p f) f) k (n.flatMap Part.out) .ident := by
  fun_induction OptNameOk n with
  | case1 r =>
    intro h k h1 h2
    exact ((emits_ref h.1 h1 h2).toks (by simp [Part.out])).fn (fun f => rfl)
  | case2 r d ps ih =>
    intro h k h1 h2
    have := ((emits_ref (b := b) h.1 h1 h2).comp (emits_write (t := d) h.2.2.1.term (by rfl))).comp (ih h.2.2.2 (by rfl) (by simp [after]))
    exact (this.toks (by simp [Part.out])).fn (fun f => rfl)
  | case3 => intro h; exact absurd h id

theorem ref_url {r : Ref} (h : RefOk r) (ho : r.op = none) : r.url = none := by
  cases hu : r.url with
  | none => rfl
  | some u => have := (h.url u hu).2.2.1; rw [ho] at this; cases this

theorem emits_writeFirst {r : Ref} {k : K} (h : RefOk r) (hu : r.url = none) (hk : Accept k .ident = true) (hks : k ≠ .slash) :
    Emits b (Part.writeFirst (.ref r)) k r.out .ident := by
  have hsl := h.slash hu
  have hcalm := accept_calm hk hks
  cases ho : r.op with
  | none =>
    obtain ⟨h1, h2⟩ := h.bare ho
    have := ((emits_nameWrite (b := b) h1 hk hks).comp (emits_trailing rfl (nameOk_last h1).trailing)).comp (emits_closeRef h rfl rfl)
    refine (this.toks ?_).fn (fun f => ?_)
    · unfold Ref.out; rw [ho, hu, hsl]; simp [str?, strs]
    · simp only [Part.writeFirst, ho]
  | some t =>
    have ht := h.op t ho
    have := (((emits_write (b := b) (k := k) ht.term (accept_hard hcalm)).comp (emits_trailing rfl ht.trailing)).comp
      (emits_inlsDot h.name (.inl rfl))).comp (emits_closeRef h rfl rfl)
    refine (this.toks ?_).fn (fun f => ?_)
    · unfold Ref.out; rw [ho, hu, hsl]; simp [str?, strs]
    · simp only [Part.writeFirst, ho]; rfl

theorem emits_optName {n : OptName} (h : OptNameOk n) : Emits b (optNameWrite n) .free (n.flatMap Part.out) .ident := by
  cases n with
  | nil => unfold OptNameOk at h; exact absurd h id
  | cons p ps =>
    cases b with
    | false =>
      intro f ts hf
      have h1 := emits_parts _ h (k := .free) rfl (by simp) f ts hf
      have : optNameWrite (p :: ps) f = (p :: ps).foldl (fun f p => Part.write p f) f := by
        unfold optNameWrite; rw [hf.flag]; rfl
      rw [this]; exact h1
    | true =>
      have h1 : Emits true (fun f => ps.foldl (fun f p => Part.write p f) (p.writeFirst f)) .free ((p :: ps).flatMap Part.out) .ident := by
        match p, ps, h with
        | .ref r, [], h =>
          exact ((emits_writeFirst h.1 h.2 rfl (by simp)).toks (by simp [Part.out]))
        | .ref r, .dot d :: ps, h =>
          have := ((emits_writeFirst (b := true) (k := .free) h.1 h.2.1 rfl (by simp)).comp (emits_write (t := d) h.2.2.1.term (by rfl))).comp
            (emits_parts ps h.2.2.2 (by rfl) (by simp [after]))
          exact (this.toks (by simp [Part.out])).fn (fun f => rfl)
        | .ref r, .ref r' :: ps, h => exact absurd h (by unfold OptNameOk; exact id)
        | .dot d, ps, h => exact absurd h (by unfold OptNameOk; exact id)
      intro f ts hf
      have : optNameWrite (p :: ps) f = ps.foldl (fun f p => Part.write p f) (p.writeFirst f) := by
        unfold optNameWrite; rw [hf.flag]; rfl
      rw [this]; exact h1 f ts hf

theorem ref_first {r : Ref} (h : RefOk r) (hu : r.url = none) : ∃ c, Is c r.first := by
  unfold Ref.first
  rw [hu]
  cases ho : r.op with
  | some t => exact ⟨_, h.op t ho⟩
  | none => exact ⟨_, nameOk_first (h.bare ho).1⟩

theorem ref_last {r : Ref} (h : RefOk r) : ∃ c, Is c r.last := by
  unfold Ref.last
  cases hc : r.cl with
  | some t => exact ⟨_, h.cl t hc⟩
  | none => exact ⟨_, dotNameOk_last h.name⟩

theorem optFirst_ok {n : OptName} (h : OptNameOk n) : ∃ c, Is c (optFirst n) := by
  match n, h with
  | [.ref r], h => exact ref_first h.1 h.2
  | .ref r :: .dot d :: ps, h => exact ref_first h.1 h.2.1

theorem optLast_ok (n : OptName) : OptNameOk n → ∃ c, Is c (optLast n) := by
  fun_induction OptNameOk n with
  | case1 r => intro h; exact ref_last h.1
  | case2 r d ps ih =>
    intro h
    have := ih h.2.2.2
    have hne : ps ≠ [] := by rintro rfl; have := h.2.2.2; unfold OptNameOk at this; exact this
    unfold optLast at this ⊢
    rw [List.getLast?_cons, List.getLast?_cons]
    cases hl : ps.getLast? with
    | none => exact absurd (List.getLast?_eq_none_iff.1 hl) hne
    | some x => rw [hl] at this; simpa using this
  | case3 => intro h; exact absurd h id

/-! ### The ends of lines -/

theorem emits_lineEnd? {semi : Option Tok} {k : K} (h : SemiOk semi) (hs : semi.isSome = true) (hk : k.calm = true) :
    Emits b (lineEnd? cfg semi) k (str? semi) .idle := by
  obtain ⟨s, rfl⟩ := Option.isSome_iff_exists.1 hs
  exact (emits_lineEnd (h s rfl).is (accept_hard hk) (K.calm_ne hk).1 (by simp)).fn (fun f => rfl)

theorem lineEnd?_last {semi : Option Tok} (hs : semi.isSome = true) (f : F) : (lineEnd? cfg semi f).w.last = '\n' := by
  obtain ⟨s, rfl⟩ := Option.isSome_iff_exists.1 hs
  exact lineEnd_last _ _

theorem optSemi_ok {semi : Option Tok} (h : SemiOk semi) (hs : semi.isSome = true) :
    SemiOk (optSemi semi) ∧ (optSemi semi).isSome = true ∧ str? (optSemi semi) = [[',']] := by
  obtain ⟨s, rfl⟩ := Option.isSome_iff_exists.1 hs
  refine ⟨?_, rfl, rfl⟩
  intro t ht
  obtain rfl := (Option.some.inj ht).symm
  exact ⟨⟨(by decide : punct ',' = true), (h s rfl).is.leading, (h s rfl).is.trailing⟩, .inr rfl⟩

theorem value_out_ne {v : Value} (h : v.Ok) : v.out ≠ [] := by
  cases v with
  | ident ts =>
    rw [Value.Ok] at h
    rw [Value.out]
    cases ts with
    | nil => exact absurd h id
    | cons t ts => simp [strs]
  | strings ps =>
    rw [Value.Ok] at h
    rw [Value.out]
    cases ps with
    | nil => exact absurd rfl h.1
    | cons t ts => simp [strs]
  | _ => rw [Value.out]; simp

/-- The separator of an option in cells. -/
def cellSep (b last : Bool) (o : Opt) : List Str := if b then optSep true last o else str? o.semi

theorem emits_optValue {o : Opt} {last : Bool} (h : OptOk o) (h1 : b = false → o.semi.isSome = true)
    (h2 : b = true → last = false → o.semi.isSome = true)
    (h3 : ∀ v, o.val = some v → v.isStrings = true → o.semi.isSome = true) :
    Emits b (optValue cfg last o) .free ((o.val.map Value.out).getD [] ++ cellSep b last o) .idle ∧
    ∀ f : F, f.inCompact = b → (optValue cfg last o f).w.last = '\n' := by
  obtain ⟨v, hv, hok⟩ := h.val
  by_cases hs : ∃ ps, v = .strings ps
  · obtain ⟨ps, rfl⟩ := hs
    have hsome := h3 _ hv rfl
    rw [Value.Ok] at hok
    have e : ∀ f, optValue cfg last o f = lineEnd? cfg o.semi (compoundStrings cfg true true ps f) := by
      intro f; unfold optValue; rw [hv]
    refine ⟨?_, fun f _ => by rw [e]; exact lineEnd?_last hsome _⟩
    have := (emits_compoundStrings (b := b) (cfg := cfg) (k := .free) (by simp) true true ps hok.1 hok.2).comp
      (emits_lineEnd? (cfg := cfg) h.semi hsome rfl)
    refine (this.toks ?_).fn e
    rw [hv]
    unfold cellSep optSep
    rw [hv]
    simp [Value.isStrings, Value.out]
  · have hns : v.isStrings = false := by
      cases v <;> first | rfl | exact absurd ⟨_, rfl⟩ hs
    have e : ∀ f, optValue cfg last o f = if f.inCompact then
        (if last then v.lineEnd cfg f else lineEnd? cfg (optSemi o.semi) (v.write cfg f)) else lineEnd? cfg o.semi (v.write cfg f) := by
      intro f; unfold optValue; rw [hv]
      cases v <;> first | rfl | exact absurd ⟨_, rfl⟩ hs
    cases b with
    | false =>
      have hsome := h1 rfl
      have e' : ∀ f : F, f.inCompact = false → optValue cfg last o f = lineEnd? cfg o.semi (v.write cfg f) := by
        intro f hf; rw [e, hf]; rfl
      refine ⟨?_, fun f hf => by rw [e' f hf]; exact lineEnd?_last hsome _⟩
      intro f ts hf
      rw [e' f hf.flag]
      have := ((emits_value (cfg := cfg) v hok).comp (emits_lineEnd? (cfg := cfg) h.semi hsome rfl)) f ts hf
      rw [hv]; exact this
    | true =>
      have hsep : cellSep true last o = if last then [] else [[',']] := by
        unfold cellSep optSep; rw [hv]; simp [hns]
      rw [hsep, hv]
      cases last with
      | true =>
        have e' : ∀ f : F, f.inCompact = true → optValue cfg true o f = v.lineEnd cfg f := by
          intro f hf; rw [e, hf]; rfl
        refine ⟨?_, fun f hf => by rw [e' f hf]; exact lineEndWith_last _ _ _⟩
        intro f ts hf
        rw [e' f hf.flag]
        have := (emits_lineEndWith (cfg := cfg) hok (emits_value (cfg := cfg) v hok)) f ts hf
        simp only [Option.map_some, Option.getD_some, if_true, List.append_nil]
        exact this
      | false =>
        obtain ⟨s1, s2, s3⟩ := optSemi_ok h.semi (h2 rfl rfl)
        have e' : ∀ f : F, f.inCompact = true → optValue cfg false o f = lineEnd? cfg (optSemi o.semi) (v.write cfg f) := by
          intro f hf; rw [e, hf]; rfl
        refine ⟨?_, fun f hf => by rw [e' f hf]; exact lineEnd?_last s2 _⟩
        intro f ts hf
        rw [e' f hf.flag]
        have := ((emits_value (cfg := cfg) v hok).comp (emits_lineEnd? (cfg := cfg) s1 s2 rfl)) f ts hf
        rw [s3] at this
        exact this

/-- An option in cells. -/
theorem cells_opt {o : Opt} {last : Bool} (h : OptOk o) (h1 : b = false → o.semi.isSome = true)
    (h2 : b = true → last = false → o.semi.isSome = true)
    (h3 : ∀ v, o.val = some v → v.isStrings = true → o.semi.isSome = true) :
    CellsOk b (o.cells cfg last) (o.core ++ cellSep b last o) := by
  intro c ts0 hc
  obtain ⟨n, hn, hnok⟩ := h.name
  obtain ⟨v, hv, hok⟩ := h.val
  obtain ⟨hval, hlast⟩ := emits_optValue (cfg := cfg) h h1 h2 h3
  obtain ⟨cf, hfirst⟩ := optFirst_ok hnok
  obtain ⟨cl, hlastn⟩ := optLast_ok n hnok
  -- the end: the sign and the value
  have fin : ∀ (ctx kw nm : Str) (s : F) (t1 t2 : List Str), Good b s [] .idle → lexFrom .idle ctx = (ts0, .idle) →
      Piece kw t1 → Piece nm t2 → t1 = str? o.kw → t2 = n.flatMap Part.out →
      (let eq : Str × F := match o.eq with | some t => drain (inl t s) | none => ([], s)
       let v := drain (optValue cfg last o eq.2)
       let r : F × Field := (v.2, { ctx := ctx, typeName := kw, fieldName := nm, equalsTag := eq.1, lineEnd := v.1 })
       Good b r.1 [] .idle ∧ r.1.w.out = [] ∧ r.1.w.last = '\n' ∧ FieldLexes r.2 (ts0 ++ (o.core ++ cellSep b last o))) := by
    intro ctx kw nm s t1 t2 hs hctx hkw hnm e1 e2
    have heq : ∃ eq : Str × F, eq = (match o.eq with | some t => drain (inl t s) | none => ([], s)) ∧ Piece eq.1 (str? o.eq) ∧
        Good b eq.2 [] .idle := by
      cases he : o.eq with
      | none => exact ⟨_, rfl, piece_nil, hs⟩
      | some t =>
        have := emits_inl_hard (h.eq t he) rfl s [] hs
        exact ⟨_, rfl, drain_piece this rfl⟩
    obtain ⟨eq, he1, he2, he3⟩ := heq
    rw [← he1]
    have hg := hval _ _ (he3.idle .free)
    rw [List.nil_append] at hg
    have hl := hlast _ he3.flag
    refine ⟨(drain_piece hg rfl).2, rfl, hl, ts0, t1, t2, str? o.eq, _, ?_, hctx, hkw, hnm, he2, drain_text hg, ?_⟩
    · unfold Opt.core; rw [e1, e2, hn]; simp
    · refine drain_lineEnd hg hl ?_
      rw [hv]
      have := value_out_ne hok
      intro e
      exact this (List.append_eq_nil_iff.1 e).1
  cases hk : o.kw with
  | none =>
    have g1 := good_nil (emits_startPre (b := b) (cfg := cfg) (k := .idle) rfl hfirst.leading false (optFirst n).ws none) hc
    have g2 := (drain_piece g1 rfl).2
    have g3 := ((emits_optName hnok).comp (emits_startPost rfl hlastn.trailing none)) _ _ (g2.idle .free)
    rw [List.nil_append, List.append_nil] at g3
    have g4 := drain_piece g3 rfl
    have := fin _ [] _ _ [] _ g4.2 (drain_text g1) piece_nil g4.1 (by rw [hk]; rfl) rfl
    unfold Opt.cells
    rw [hk, hn]
    exact this
  | some t =>
    have ht := h.kw t hk
    have g1 := good_nil (emits_startPre (b := b) (cfg := cfg) (k := .idle) rfl ht.leading false t.ws t.rune?) hc
    have g2 := (drain_piece g1 rfl).2
    have g3 := ((emits_write ht.term rfl).comp (emits_startPost (after_calm (by simp)) ht.trailing t.rune?)) _ _ g2
    rw [List.nil_append, List.append_nil] at g3
    have g4 := drain_piece g3 rfl
    have g5 := emits_optName hnok _ _ (g4.2.idle .free)
    rw [List.nil_append] at g5
    have g6 := drain_piece g5 rfl
    have := fin _ _ _ _ _ _ g6.2 (drain_text g1) g4.1 g6.1 (by rw [hk]; rfl) rfl
    unfold Opt.cells
    rw [hk, hn]
    exact this

theorem writers_opts (os : List Opt) (h : OptsOk true os) : ∃ tss, List.Forall₂ (fun (p : Elem × Writer) ts => WriterOk true p.1 p.2 ts)
    (optWriters cfg os) tss ∧ tss.flatten = optsOut true os := by
  induction os with
  | nil => exact ⟨[], .nil, rfl⟩
  | cons o os ih =>
    obtain ⟨h1, h2, h3, h4, h5⟩ := h
    obtain ⟨tss, h6, h7⟩ := ih h5
    refine ⟨(o.core ++ optSep true os.isEmpty o) :: tss, .cons ⟨by simp [Opt.elem], Emits.id _, ?_⟩ h6, ?_⟩
    · exact cells_opt (b := true) h1 (by simp) (fun _ e => h3 (by rintro rfl; simp at e)) (fun v hv hs => by
        have := h4 v hv hs; simpa using this)
    · rw [List.flatten_cons, h7]; rfl

theorem writers_fileOpts (os : List Opt) (h : ∀ o ∈ os, OptOk o ∧ o.semi.isSome = true) :
    ∃ tss, List.Forall₂ (fun (p : Elem × Writer) ts => WriterOk false p.1 p.2 ts)
    (optWriters cfg os) tss ∧ tss.flatten = os.flatMap Opt.out := by
  induction os with
  | nil => exact ⟨[], .nil, rfl⟩
  | cons o os ih =>
    obtain ⟨h1, h2⟩ := h o List.mem_cons_self
    obtain ⟨tss, h6, h7⟩ := ih (fun x hx => h x (List.mem_cons_of_mem _ hx))
    refine ⟨o.out :: tss, .cons ⟨by simp [Opt.elem], Emits.id _, ?_⟩ h6, ?_⟩
    · exact cells_opt (b := false) h1 (fun _ => h2) (by simp) (fun _ _ _ => h2)
    · rw [List.flatten_cons, h7]; rfl

/-! ### Option lists -/

theorem emits_eq {eq : Option Tok} (h : Is? .hard eq) : Emits b (inl? eq) .free (str? eq) .free := emits_inl?_hard h rfl

/-- The comma between two options. -/
def between (semi : Option Tok) (os : List Opt) (h : F) : F :=
  match semi, os with
  | some s, _ :: _ => space (inl { s with term := .rune ',' } h)
  | _, _ => h

theorem emits_compactLoop {cl : Tok} (hcl : Is .hard cl) (os : List Opt) (h : OptsOk false os) :
    Emits b (compactLoop cfg cl os) .free (optsOut false os ++ [cl.str]) .idle := by
  induction os with
  | nil => exact (emits_inl_hard hcl rfl).fn (fun f => rfl)
  | cons o os ih =>
    obtain ⟨h1, h2, h3, h4, h5⟩ := h
    obtain ⟨n, hn, hnok⟩ := h1.name
    obtain ⟨v, hv, hok⟩ := h1.val
    have hd : ¬ (o.name.isNone ∧ o.eq.isNone ∧ o.val.isNone ∧ o.semi.isSome) := by rw [hn]; simp
    have hg := ((((emits_setInline (b := b) true .free).comp (emits_optName hnok)).comp (emits_setInline false _)).comp
      (emits_space_free (by simp) (by simp))).comp (emits_eq h1.eq)
    by_cases hs : ∃ ps, v = .strings ps
    · obtain ⟨ps, rfl⟩ := hs
      have hnil : os = [] := by have := h4 _ hv rfl; simpa using this
      subst hnil
      rw [Value.Ok] at hok
      have := (hg.comp (emits_compoundStrings (cfg := cfg) (by simp) false true ps hok.1 hok.2)).comp (emits_inl_hard hcl rfl)
      refine (this.toks ?_).fn (fun f => ?_)
      · unfold optsOut Opt.core optSep; rw [h2, hn, hv]; simp [str?, strs, optsOut, Value.out]
      · unfold compactLoop; rw [if_neg hd, hv, hn]; rfl
    · have e : ∀ f, compactLoop cfg cl (o :: os) f = compactLoop cfg cl os (between o.semi os
          (v.inl cfg (space (inl? o.eq (space (setInline false (optNameWrite n (setInline true f)))))))) := by
        intro f
        conv => lhs; unfold compactLoop
        rw [if_neg hd]
        simp only [hn, hv]
        cases v <;> first | rfl | exact absurd ⟨_, rfl⟩ hs
      have hsep : Emits b (between o.semi os) .any (optSep false os.isEmpty o) (if os = [] then .any else .free) := by
        cases os with
        | nil => exact (Emits.id _).fn (fun f => by cases o.semi <;> rfl)
        | cons o' os =>
          obtain ⟨s, hsm⟩ := Option.isSome_iff_exists.1 (h3 (by simp))
          have hs' := (h1.semi s hsm).is
          have : Is .hard { s with term := .rune ',' } := ⟨(by decide : punct ',' = true), hs'.leading, hs'.trailing⟩
          rw [hsm]
          exact (((emits_inl_hard this rfl).comp (emits_space_free (by simp) (by simp))).toks (by simp [optSep, Tok.str])).fn (fun f => rfl)
      have h6 := (hg.comp (emits_space_free (by simp) (by simp))).comp (emits_valueInl (cfg := cfg) hok)
      have h7 : Emits b (compactLoop cfg cl os) (if os = [] then .any else .free) (optsOut false os ++ [cl.str]) .idle := by
        split
        · rename_i he; subst he; exact (emits_inl_hard hcl rfl).fn (fun f => rfl)
        · exact ih h5
      refine (((h6.comp hsep).comp h7).toks ?_).fn e
      conv => rhs; unfold optsOut Opt.core
      rw [h2, hn, hv]; simp [str?, strs]

theorem expanded_interior {c : Compact} (h : c.expanded = false) : interior c.opts = false := by
  unfold Compact.expanded at h
  split at h
  · rename_i e; rw [e]; rfl
  · simp only [Bool.or_eq_false_iff] at h; exact h.2

theorem emits_compactOpts {c : Compact} (h : CompactOk c) : Emits false (c.write cfg) .free c.out .any := by
  intro f ts hf
  have hf' := good_setCompact hf true
  have key : ∀ g : F → F, Emits true g .free c.out .any → Good false (setCompact false (g (setCompact true f))) (ts ++ c.out) .any :=
    fun g hg => good_setCompact (hg _ _ hf') false
  by_cases he : c.expanded = true
  · have hne : c.opts ≠ [] := by intro e; unfold Compact.expanded at he; rw [e] at he; cases he
    have ho := h.opts
    rw [he] at ho
    obtain ⟨tss, h1, h2⟩ := writers_opts (cfg := cfg) c.opts ho
    have := emits_body (b := true) (semi := c.semi) (closeW := bodyEndInline cfg) (openW := openBrace cfg) (k := .free) (k' := .any)
      h.op rfl (emits_openBrace h.op rfl) (emits_close h.cl h.semi) (elems := some (columns cfg (optWriters cfg c.opts)))
      (ts := tss.flatten)
      (fun e he => ⟨.idle, rfl, by obtain rfl := (Option.some.inj he).symm; exact emits_columns h1⟩) (by intro e; cases e)
    have e : c.write cfg f = setCompact false (body c.op c.cl c.semi (some (columns cfg (optWriters cfg c.opts)))
      (openBrace cfg) (bodyEndInline cfg) (setCompact true f)) := by
      unfold Compact.write; rw [he]; simp [hne]
    rw [e]
    refine key _ (this.toks ?_)
    unfold Compact.out; rw [if_neg hne, he, h2]
  · have he : c.expanded = false := Bool.eq_false_iff.2 he
    have hi := expanded_interior he
    have e : c.write cfg f = setCompact false (if c.opts = [] then setCompact true f else
        compactLoop cfg c.cl c.opts (inl c.op (setCompact true f))) := by
      unfold Compact.write; rw [he, hi]; simp
    rw [e]
    by_cases hne : c.opts = []
    · rw [if_pos hne]
      refine key (fun f => f) (((Emits.id .free).mono rfl rfl).toks ?_)
      unfold Compact.out; rw [if_pos hne]
    · rw [if_neg hne]
      have ho := h.opts
      rw [he] at ho
      have := (emits_inl_hard (b := true) (k := .free) h.op rfl).comp ((emits_compactLoop (cfg := cfg) h.cl c.opts ho).from)
      refine key (fun f => compactLoop cfg c.cl c.opts (inl c.op f)) (this.to.toks ?_)
      unfold Compact.out; rw [if_neg hne, he]; simp

theorem emits_tight? {c : Option Compact} (h : CompactOk? c) : Emits false (tight? cfg c) .free (compactOut c) .any := by
  cases c with
  | none => exact ((Emits.id .free).mono rfl rfl).fn (fun f => rfl)
  | some c => exact (emits_compactOpts (h c rfl)).fn (fun f => rfl)

theorem emits_compact? {c : Option Compact} (h : CompactOk? c) : Emits false (compact? cfg c) .any (compactOut c) .any := by
  cases c with
  | none => exact (Emits.id .any).fn (fun f => rfl)
  | some c => exact ((emits_space_free (by simp) (by simp)).comp (emits_compactOpts (h c rfl))).fn (fun f => rfl)

/-! ### Declared options -/

theorem emits_opt {o : Opt} (h : OptOk o) (hs : o.semi.isSome = true) : Emits b (o.write cfg) .idle o.out .idle := by
  obtain ⟨n, hn, hnok⟩ := h.name
  obtain ⟨v, hv, hok⟩ := h.val
  obtain ⟨s, hsm⟩ := Option.isSome_iff_exists.1 hs
  have hsemi := (h.semi s hsm).is
  obtain ⟨cf, hfirst⟩ := optFirst_ok hnok
  obtain ⟨cl, hlastn⟩ := optLast_ok n hnok
  have hp : Emits b (optPrefix cfg o) .idle (str? o.kw ++ (n.flatMap Part.out ++ str? o.eq)) .free := by
    cases hk : o.kw with
    | none =>
      have := (((((emits_startPre (b := b) (cfg := cfg) (k := .idle) rfl hfirst.leading false (optFirst n).ws none).comp
        ((emits_optName hnok).from)).comp (emits_startPost rfl hlastn.trailing none)).comp
        (emits_space_free (by simp) (by simp))).comp (emits_eq h.eq)).comp (emits_space_free (by simp) (by simp))
      refine (this.toks (by simp [str?, strs])).fn (fun f => ?_)
      unfold optPrefix; rw [hk, hn]; rfl
    | some t =>
      have := (((((emits_start (b := b) (cfg := cfg) (k := .idle) (h.kw t hk) rfl (by simp) (by simp)).comp
        (emits_space_free (by simp [after]) (by simp [after]))).comp (emits_optName hnok)).comp
        (emits_space_free (by simp) (by simp))).comp (emits_eq h.eq)).comp (emits_space_free (by simp) (by simp))
      refine (this.toks (by simp [str?, strs])).fn (fun f => ?_)
      unfold optPrefix; rw [hk, hn]; rfl
  have hle : Emits b (lineEnd cfg s) .any [s.str] .idle := emits_lineEnd hsemi rfl (by simp) (by simp)
  have hout : o.out = str? o.kw ++ (n.flatMap Part.out ++ str? o.eq) ++ v.out ++ [s.str] := by
    unfold Opt.out Opt.core; rw [hn, hv, hsm]; simp [str?, strs]
  by_cases hst : ∃ ps, v = .strings ps
  · obtain ⟨ps, rfl⟩ := hst
    rw [Value.Ok] at hok
    have := (hp.comp (emits_compoundStrings (cfg := cfg) (by simp) true true ps hok.1 hok.2)).comp hle.from
    refine (this.toks ?_).fn (fun f => ?_)
    · rw [hout, Value.out]
    · unfold Opt.write; rw [hsm, hv]
  · have := (hp.comp (emits_valueInl (cfg := cfg) hok)).comp hle
    refine (this.toks hout.symm).fn (fun f => ?_)
    unfold Opt.write; rw [hsm, hv]
    cases v <;> first | rfl | exact absurd ⟨_, rfl⟩ hst

end Verif.Formatter
