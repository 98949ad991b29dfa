import Verif.Lemmas.FormatOptions
/-! The rules for declarations and files. -/
namespace Verif.Formatter
open Verif.Lexer Verif.Comment
open Verif.InlineComment (Comment)
open Verif.ColumnFormat (Field Elem)

variable {b : Bool} {cfg : Cfg}

theorem endOk_parts {semi : Option Tok} (h : EndOk semi) : SemiOk semi ∧ semi.isSome = true := by
  obtain ⟨s, rfl, hs⟩ := h
  exact ⟨fun t ht => by obtain rfl := Option.some.inj ht; exact hs, rfl⟩

theorem emits_end {semi : Option Tok} {k : K} (h : EndOk semi) (hk : k.calm = true) : Emits b (lineEnd? cfg semi) k (str? semi) .idle :=
  emits_lineEnd? (endOk_parts h).1 (endOk_parts h).2 hk

/-! ### Cells -/

theorem cells_tail {ctx type : Str} {name eq tag : F → F} {opts : Option Compact} {semi : Option Tok} {f : F} {t0 t1 t2 t3 t4 : List Str}
    (hf : Good false f [] .idle) (hctx : lexFrom .idle ctx = (t0, .idle)) (htype : Piece type t1)
    (hname : Emits false name .idle t2 .any) (heq : Emits false eq .idle t3 .any) (htag : Emits false tag .free t4 .any)
    (hopts : CompactOk? opts) (hsemi : EndOk semi) :
    Good false (tailCells cfg ctx type name eq tag opts semi f).1 [] .idle ∧
    (tailCells cfg ctx type name eq tag opts semi f).1.w.out = [] ∧
    (tailCells cfg ctx type name eq tag opts semi f).1.w.last = '\n' ∧
    FieldLexes (tailCells cfg ctx type name eq tag opts semi f).2 (t0 ++ (t1 ++ (t2 ++ (t3 ++ t4 ++ (compactOut opts ++ str? semi))))) := by
  have g1 := hname _ _ hf
  rw [List.nil_append] at g1
  have g2 := drain_piece g1 rfl
  have g3 := ((heq.comp (emits_space_free (by simp) (by simp))).comp htag) _ _ g2.2
  rw [List.nil_append, List.append_nil] at g3
  have g4 := drain_piece g3 rfl
  have g5 := ((emits_tight? (cfg := cfg) hopts).comp (emits_end (cfg := cfg) hsemi rfl)) _ _ (g4.2.idle .free)
  rw [List.nil_append] at g5
  have hl := lineEnd?_last (cfg := cfg) (endOk_parts hsemi).2 (tight? cfg opts (drain (tag (space (eq (drain (name f)).2)))).2)
  refine ⟨(drain_piece g5 rfl).2, rfl, hl, t0, t1, t2, t3 ++ t4, _, ?_, hctx, htype, g2.1, g4.1, drain_text g5, ?_⟩
  · simp
  · refine drain_lineEnd g5 hl ?_
    obtain ⟨s, rfl, _⟩ := hsemi
    simp [str?, strs]

theorem rune_ident {t : Tok} (h : Is .ident t) : t.rune? = none := by
  have := h.term
  unfold Tok.rune?
  cases ht : t.term with
  | rune c => rw [ht] at this; exact absurd this id
  | _ => rfl

theorem nameOk_tail {t : Tok} {ts : List Tok} (h : NameOk (t :: ts)) : Is .ident t ∧ Emits b (inls ts) .ident (strs ts) .ident := by
  cases ts with
  | nil => exact ⟨h, (Emits.id _).fn (fun f => rfl)⟩
  | cons d ts =>
    obtain ⟨h1, h2, h3⟩ := h
    exact ⟨h1, ((emits_inl h2 (by rfl) (by simp) (by simp)).comp (emits_inls h3 (by rfl) (by simp [after]))).fn (fun f => rfl)⟩

theorem cells_type {x : FieldDecl} (h : FieldOk x) {c : F} {ts0 : List Str} (hc : Good b c ts0 .idle) :
    lexFrom .idle (typeCells cfg x c).1 = (ts0, .idle) ∧ Piece (typeCells cfg x c).2.1 (str? x.label ++ strs x.type) ∧
    Good b (typeCells cfg x c).2.2 [] .idle := by
  have ht := h.type
  cases hl : x.label with
  | some l =>
    rw [hl] at ht
    have hlab := h.label l hl
    have g1 := good_nil (emits_startPre (b := b) (cfg := cfg) (k := .idle) rfl hlab.leading false l.ws l.rune?) hc
    have g2 := (drain_piece g1 rfl).2
    have g3 := ((((emits_write hlab.term rfl).comp (emits_startPost (after_calm (by simp)) hlab.trailing l.rune?)).comp
      (emits_space_free (by simp [after]) (by simp [after]))).comp (emits_inlsDot (n := x.type) ht (.inr rfl))) _ _ g2
    have g4 := drain_piece g3 rfl
    unfold typeCells
    rw [hl]
    refine ⟨drain_text g1, ?_, g4.2⟩
    have := g4.1
    simpa [str?, strs, inlName] using this
  | none =>
    rw [hl] at ht
    cases hx : x.type with
    | nil => rw [hx] at ht; exact absurd ht id
    | cons t ts =>
      rw [hx] at ht
      obtain ⟨h1, h2⟩ := nameOk_tail (b := b) (show NameOk (t :: ts) from ht)
      have g1 := good_nil (emits_startPre (b := b) (cfg := cfg) (k := .idle) rfl h1.leading false t.ws t.rune?) hc
      have g2 := (drain_piece g1 rfl).2
      have g3 := (((emits_write h1.term rfl).comp (emits_startPost (after_calm (by simp)) h1.trailing t.rune?)).comp h2) _ _ g2
      have g4 := drain_piece g3 rfl
      have hr : ¬ (ts ≠ [] ∧ t.rune?.isSome = true) := by rw [rune_ident h1]; simp
      have e : typeCells cfg x c = ((drain (startPre cfg false t.ws t.leading t.rune? c)).1,
          (drain (inls ts (startPost t.trailing t.rune? (t.write (drain (startPre cfg false t.ws t.leading t.rune? c)).2)))).1,
          (drain (inls ts (startPost t.trailing t.rune? (t.write (drain (startPre cfg false t.ws t.leading t.rune? c)).2)))).2) := by
        unfold typeCells
        rw [hl, hx]
        simp only [if_neg hr]
      rw [e]
      refine ⟨drain_text g1, ?_, g4.2⟩
      have := g4.1
      simpa [str?, strs] using this

theorem emits_need {t : Option Tok} {c : Cls} {k k' : K} (h : Is? c t) (hs : t.isSome = true) (hk : Accept k c = true) (hks : k ≠ .slash)
    (hc : c ≠ .slash) (ha : (after c).le k' = true) : Emits b (need t) k (str? t) k' := by
  obtain ⟨s, rfl⟩ := Option.isSome_iff_exists.1 hs
  exact ((emits_inl (h s rfl) hk (fun e => absurd e hks) (fun e => absurd e hc)).mono (by cases k <;> simp_all [K.le]) ha).fn (fun f => rfl)

theorem cells_fieldDecl {x : FieldDecl} (h : FieldOk x) (hi : x.incomplete = false) : CellsOk false (x.cells cfg) x.out := by
  intro c ts0 hc
  obtain ⟨h1, h2, h3⟩ := cells_type (cfg := cfg) h hc
  obtain ⟨c1, c2, c3⟩ := h.complete hi
  have := cells_tail (cfg := cfg) h3 h1 h2 (emits_need (k := .idle) h.name c1 rfl (by simp) (by simp) rfl) (emits_need (k := .idle) h.eq c2 rfl (by simp) (by simp) rfl)
    (emits_need (k := .free) h.tag c3 rfl (by simp) (by simp) rfl) h.opts h.semi
  unfold FieldDecl.cells FieldDecl.out
  simpa using this

theorem cells_map {x : MapDecl} (h : MapOk x) : CellsOk false (x.cells cfg) x.out := by
  intro c ts0 hc
  have g1 := good_nil (emits_startPre (b := false) (cfg := cfg) (k := .idle) rfl h.kw.leading false x.kw.ws x.kw.rune?) hc
  have g2 := (drain_piece g1 rfl).2
  have hr : Emits false (mapRest x) .ident ([x.op.str] ++ [x.key.str] ++ [x.comma.str] ++ strs x.type ++ [x.cl.str]) .idle :=
    ((((((emits_inl_hard h.op rfl).comp (emits_inl (k := .idle) h.key rfl (by simp) (by simp))).comp (emits_inl_hard h.comma rfl)).comp
      (emits_space_free (by simp) (by simp))).comp (emits_inlsDot h.type (.inr rfl))).comp (emits_inl_hard h.cl rfl)).toks (by simp)
  have g3 := (((emits_write h.kw.term rfl).comp (emits_startPost (after_calm (by simp)) h.kw.trailing x.kw.rune?)).comp hr) _ _ g2
  have g4 := drain_piece g3 rfl
  have := cells_tail (cfg := cfg) g4.2 (drain_text g1) g4.1 ((emits_inl (k := .idle) h.name rfl (by simp) (by simp)).mono (k0 := .idle) (k1 := .any) rfl rfl)
    ((emits_inl (k := .idle) h.eq rfl (by simp) (by simp)).mono (k0 := .idle) (k1 := .any) rfl rfl)
    ((emits_inl (k := .free) h.tag rfl (by simp) (by simp)).mono (k0 := .free) (k1 := .any) rfl rfl) h.opts h.semi
  unfold MapDecl.cells MapDecl.out
  simpa [strs] using this

theorem emits_mapComments {x : MapDecl} {k : K} (h : MapOk x) (hk : k.calm = true) : Emits b (mapComments x) k [] k := by
  unfold mapComments
  cases hs : x.typeSemi with
  | none => exact Emits.id _
  | some s =>
    simp only
    split
    · exact emits_trailing hk (h.typeSemi s hs).is.trailing
    · exact Emits.id _

theorem cells_enum {x : EnumVal} (h : EnumValOk x) : CellsOk false (x.cells cfg) x.out := by
  intro c ts0 hc
  have g1 := good_nil (emits_startPre (b := false) (cfg := cfg) (k := .idle) rfl h.name.leading false x.name.ws x.name.rune?) hc
  have g2 := (drain_piece g1 rfl).2
  have hs : EndOk (x.semi.map fun t => { t with term := .rune ';' }) ∧
      str? (x.semi.map fun t => { t with term := .rune ';' }) = [[';']] := by
    obtain ⟨s, e, hs⟩ := h.semi
    rw [e]
    exact ⟨⟨_, rfl, ⟨(by decide : punct ';' = true), hs.is.leading, hs.is.trailing⟩, .inl rfl⟩, rfl⟩
  have hn : Emits false (fun g => startPost x.name.trailing x.name.rune? (x.name.write g)) .idle [x.name.str] .any :=
    (((emits_write (k := .idle) h.name.term rfl).comp (emits_startPost (after_calm (by simp)) h.name.trailing x.name.rune?)).mono (k0 := .idle) (k1 := .any)
      rfl rfl).toks (by simp)
  have := cells_tail (cfg := cfg) g2 (drain_text g1) piece_nil hn
    ((emits_inl (k := .idle) h.eq rfl (by simp) (by simp)).mono (k0 := .idle) (k1 := .any) rfl rfl)
    (emits_valueInl (cfg := cfg) h.num) h.opts hs.1
  rw [hs.2] at this
  unfold EnumVal.cells EnumVal.out
  simpa [strs] using this

/-! ### Fields as a whole -/

theorem emits_spaced? {t : Option Tok} {c : Cls} (h : Is? c t) (hc : c ≠ .slash) (ha : (after c).le .any = true) :
    Emits b (spaced? t) .any (str? t) .any := by
  cases t with
  | none => exact (Emits.id _).fn (fun f => rfl)
  | some t =>
    exact (((emits_space_free (k := .any) (by simp) (by simp)).comp ((emits_inl (k := .free) (h t rfl) rfl (by simp) (fun e => absurd e hc)))).mono
      (k0 := .any) (k1 := .any) rfl ha).fn (fun f => rfl)

theorem emits_fieldDecl {x : FieldDecl} (h : FieldOk x) : Emits false (x.write cfg) .idle x.out .idle := by
  have ht : Emits false (fun f => match x.label with
      | some l => inlName x.type (space (start cfg l f))
      | none => typeStart cfg x.type id f) .idle (str? x.label ++ strs x.type) .any := by
    have hty := h.type
    cases hl : x.label with
    | some l =>
      rw [hl] at hty
      exact ((((emits_start (k := .idle) (h.label l hl) rfl (by simp) (by simp)).comp (emits_space_free (by simp [after]) (by simp [after]))).comp
        (emits_inlsDot (n := x.type) hty (.inr rfl))).mono (k0 := .idle) (k1 := .any) rfl rfl).toks (by simp [str?, strs])
    | none =>
      rw [hl] at hty
      have hty : NameOk x.type := hty
      cases hx : x.type with
      | nil => rw [hx] at hty; exact absurd hty id
      | cons t ts =>
        rw [hx] at hty
        obtain ⟨h1, h2⟩ := nameOk_tail (b := false) hty
        have hs := (emits_start (b := false) (cfg := cfg) (k := .idle) h1 rfl (by simp) (by simp)).comp h2
        have hs := (hs.mono (k0 := .idle) (k1 := .any) rfl rfl).toks (a' := str? none ++ strs (t :: ts)) (by simp [str?, strs])
        refine hs.fn (fun f => ?_)
        cases ts with
        | nil => rfl
        | cons d ts =>
          show (if t.rune?.isSome then inls (t :: d :: ts) (start cfg t f) else inls (d :: ts) (start cfg t f)) = _
          rw [rune_ident h1]; rfl
  have := ((((ht.comp (emits_spaced? h.name (by simp) rfl)).comp (emits_spaced? h.eq (by simp) rfl)).comp
    (emits_spaced? h.tag (by simp) rfl)).comp (emits_compact? (cfg := cfg) h.opts)).comp (emits_end (cfg := cfg) h.semi rfl)
  refine (this.toks ?_).fn (fun f => rfl)
  unfold FieldDecl.out; simp

theorem fieldOut_ne {x : FieldDecl} (h : FieldOk x) : x.out ≠ [] := by
  obtain ⟨s, hs, _⟩ := h.semi
  unfold FieldDecl.out; rw [hs]; simp [str?, strs]

theorem writer_fieldDecl {x : FieldDecl} (h : FieldOk x) : WriterOk false x.elem (x.writer cfg) x.out := by
  unfold FieldDecl.writer
  by_cases hi : x.incomplete = true
  · rw [if_pos hi]
    exact ⟨by simp [FieldDecl.elem], hi, emits_fieldDecl h, fieldOut_ne h⟩
  · rw [if_neg hi]
    exact ⟨by simp [FieldDecl.elem], Emits.id _, cells_fieldDecl h (Bool.eq_false_iff.2 hi)⟩

theorem emits_mapDecl {x : MapDecl} (h : MapOk x) : Emits false (x.write cfg) .idle x.out .idle := by
  have hr : Emits false (mapRest x) .ident ([x.op.str] ++ [x.key.str] ++ [x.comma.str] ++ strs x.type ++ [x.cl.str]) .idle :=
    ((((((emits_inl_hard h.op rfl).comp (emits_inl (k := .idle) h.key rfl (by simp) (by simp))).comp (emits_inl_hard h.comma rfl)).comp
      (emits_space_free (by simp) (by simp))).comp (emits_inlsDot h.type (.inr rfl))).comp (emits_inl_hard h.cl rfl)).toks (by simp)
  have h1 := (((emits_start (b := false) (cfg := cfg) (k := .idle) h.kw rfl (by simp) (by simp)).comp hr).comp (emits_mapComments h rfl)).comp
    (emits_space_free (by simp) (by simp))
  have h2 := ((((h1.comp (emits_inl (k := .free) h.name rfl (by simp) (by simp))).comp (emits_space_free (by simp [after]) (by simp [after]))).comp
    (emits_inl_hard h.eq rfl)).comp (emits_space_free (by simp) (by simp))).comp ((emits_inl (k := .free) h.tag rfl (by simp) (by simp)))
  have h3 := (h2.comp (emits_compact? (cfg := cfg) h.opts)).comp (emits_end (cfg := cfg) h.semi rfl)
  refine (h3.toks ?_).fn (fun f => rfl)
  unfold MapDecl.out; simp [strs]

/-! ### Ranges -/

theorem emits_rangeElem {e : RangeElem} (h : e.Ok) : Emits b (e.write cfg) .any e.out .any := by
  cases e with
  | comma t => exact ((emits_inl_hard h rfl).to).fn (fun f => rfl)
  | range s mid stop =>
    obtain ⟨h1, h2, h3⟩ := h
    have hs : Emits b (fun g => match (generalizing := false) stop with | some v => v.inl cfg (space g) | none => g) .any ((stop.map Value.out).getD []) .any := by
      cases stop with
      | none => exact Emits.id _
      | some v => exact ((emits_space_free (by simp) (by simp)).comp (emits_valueInl (cfg := cfg) (h3 v rfl))).toks (by simp)
    have := ((((((emits_space_free (b := b) (k := .any) (by simp) (by simp)).comp (emits_setInline true _)).comp
      (emits_valueInl (cfg := cfg) h1)).comp (emits_spaced? h2 (by simp) rfl)).comp hs).comp (emits_setInline false _))
    refine (this.toks ?_).fn (fun f => rfl)
    simp [RangeElem.out]
  | name v => exact ((emits_space_free (by simp) (by simp)).comp (emits_valueInl (cfg := cfg) h)).fn (fun f => rfl)

theorem emits_ranges (es : List RangeElem) (h : ∀ e ∈ es, e.Ok) :
    Emits b (fun f => es.foldl (fun f e => RangeElem.write cfg e f) f) .any (es.flatMap RangeElem.out) .any := by
  induction es with
  | nil => exact Emits.id _
  | cons e es ih =>
    exact ((emits_rangeElem (h e List.mem_cons_self)).comp (ih (fun x hx => h x (List.mem_cons_of_mem _ hx)))).toks (by simp)

/-! ### Declarations -/

theorem emits_rpcType {x : RPCType} {k : K} (h : RPCTypeOk x) (hk : k.calm = true) : Emits b x.write k x.out .idle := by
  have hs : Emits b (fun g => match x.stream with | some s => space (inl s g) | none => g) .idle (str? x.stream) .free := by
    cases hs : x.stream with
    | none => exact (Emits.id .idle).mono rfl rfl
    | some s => exact ((emits_inl (k := .idle) (h.stream s hs) rfl (by simp) (by simp)).comp (emits_space_free (by simp [after]) (by simp [after]))).toks (by simp [str?, strs])
  have := (((((emits_setInline (b := b) true k).comp (emits_inl_hard h.op hk)).comp hs).comp (emits_inlsDot h.type (.inr rfl))).comp
    (emits_inl_hard h.cl rfl)).comp (emits_setInline false _)
  refine (this.toks ?_).fn (fun f => rfl)
  unfold RPCType.out; simp

theorem emits_typeBody {op cl : Tok} {semi : Option Tok} {elems : Option (F → F)} {ts : List Str} (hop : Is .hard op) (hcl : Is .hard cl)
    (hs : SemiOk semi) (he : ∀ e, elems = some e → Emits b e .idle ts .idle) (hn : elems = none → ts = []) :
    Emits b (typeBody cfg op cl semi elems) .free ([op.str] ++ ts ++ [cl.str]) .idle := by
  refine (emits_body (k := .free) (k' := .idle) hop rfl (emits_openBrace hop rfl) ?_ (fun e h => ⟨.idle, rfl, he e h⟩) hn).fn (fun f => rfl)
  intro k0 hk i
  exact emits_bodyEnd hcl (accept_hard hk) (K.calm_ne hk).1 (by simp) hs i

theorem emits_groupHead {label : Option Tok} {kw name eq tag : Tok} {opts : Option Compact} (h1 : Is? .ident label) (h2 : Is .ident kw)
    (h3 : Is .ident name) (h4 : Is .hard eq) (h5 : Is .num tag) (h6 : CompactOk? opts) :
    Emits false (groupHead cfg label kw name eq tag opts) .idle (str? label ++ strs [kw, name, eq, tag] ++ compactOut opts) .free := by
  have hg : Emits false (fun f => match (generalizing := false) label with
      | some l => inl kw (space (start cfg l f))
      | none => start cfg kw f) .idle (str? label ++ [kw.str]) .ident := by
    cases label with
    | none => exact (emits_start (k := .idle) h2 rfl (by simp) (by simp)).toks (by simp [str?, strs])
    | some l =>
      exact (((emits_start (k := .idle) (h1 l rfl) rfl (by simp) (by simp)).comp (emits_space_free (by simp [after]) (by simp [after]))).comp
        (emits_inl (k := .free) h2 rfl (by simp) (by simp))).toks (by simp [str?, strs])
  have := ((((((((hg.comp (emits_space_free (by simp) (by simp))).comp (emits_inl (k := .free) h3 rfl (by simp) (by simp))).comp
    (emits_space_free (by simp [after]) (by simp [after]))).comp (emits_inl_hard h4 rfl)).comp (emits_space_free (by simp) (by simp))).comp
    (emits_inl (k := .free) h5 rfl (by simp) (by simp))).comp (emits_compact? (cfg := cfg) h6))).comp (emits_space_free (by simp) (by simp))
  refine (this.toks ?_).fn (fun f => rfl)
  simp [strs]

theorem emits_kw {kw : Tok} (h : Is .ident kw) : Emits b (fun f => space (start cfg kw f)) .idle [kw.str] .free :=
  ((emits_start (k := .idle) h rfl (by simp) (by simp)).comp (emits_space_free (by simp [after]) (by simp [after]))).toks (by simp)

mutual
theorem emits_decl {column : Bool} (d : Decl) (h : d.Ok column) (hne : ∀ x, d ≠ .enumValue x) : Emits false (d.write cfg) .idle d.out .idle := by
  cases d with
  | empty t => exact ((Emits.id _).toks (by rw [Decl.out])).fn (fun f => by rw [Decl.write])
  | option o =>
    rw [Decl.Ok] at h
    exact ((emits_opt h.1 h.2).toks (by rw [Decl.out])).fn (fun f => by rw [Decl.write])
  | field x =>
    rw [Decl.Ok] at h
    exact ((emits_fieldDecl h).toks (by rw [Decl.out])).fn (fun f => by rw [Decl.write])
  | mapField x =>
    rw [Decl.Ok] at h
    exact ((emits_mapDecl h).toks (by rw [Decl.out])).fn (fun f => by rw [Decl.write])
  | enumValue x => exact absurd rfl (hne x)
  | extensions kw es opts semi =>
    rw [Decl.Ok] at h
    obtain ⟨h1, h2, h3, h4⟩ := h
    have := (((emits_kw (b := false) (cfg := cfg) h1).mono (k0 := .idle) (k1 := .any) rfl rfl).comp (emits_ranges (cfg := cfg) es h2)).comp
      (emits_compact? (cfg := cfg) h3)
    have := this.comp (emits_end (cfg := cfg) h4 rfl)
    exact (this.toks (by rw [Decl.out]; simp)).fn (fun f => by rw [Decl.write])
  | reserved kw es semi =>
    rw [Decl.Ok] at h
    obtain ⟨h1, h2, h4⟩ := h
    have := (((emits_start (b := false) (cfg := cfg) (k := .idle) h1 rfl (by simp) (by simp)).mono (k0 := .idle) (k1 := .any) rfl rfl).comp
      (emits_ranges (cfg := cfg) es h2)).comp (emits_end (cfg := cfg) h4 rfl)
    exact (this.toks (by rw [Decl.out])).fn (fun f => by rw [Decl.write])
  | block kw name column op ds cl semi =>
    rw [Decl.Ok] at h
    obtain ⟨h1, h2, h3, h4, h5, h6⟩ := h
    have hb : Emits false (typeBody cfg op cl semi (match ds with
       | .nil => none
       | .cons .. => some (if column then columns cfg (Decls.writers cfg ds) else Decls.write cfg ds))) .free
        ([op.str] ++ Decls.out ds ++ [cl.str]) .idle := by
      refine emits_typeBody h3 h5 h6 ?_ ?_
      · intro e he
        cases ds with
        | nil => cases he
        | cons d ds =>
          obtain rfl := (Option.some.inj he).symm
          cases column with
          | true =>
            obtain ⟨tss, h7, h8⟩ := writers_decls _ h4
            rw [← h8]
            exact emits_columns h7
          | false => exact emits_decls _ h4
      · intro e
        cases ds with
        | nil => rw [Decls.out]
        | cons d ds => cases e
    have := (((emits_kw (b := false) (cfg := cfg) h1).comp (emits_inlsDot h2 (.inr rfl))).comp (emits_space_free (by simp) (by simp))).comp hb
    refine (this.toks (by rw [Decl.out]; simp)).fn (fun f => ?_)
    cases ds <;> (simp only [Decl.write]; rfl)
  | group label kw name eq tag opts op ds cl semi =>
    rw [Decl.Ok] at h
    obtain ⟨h1, h2, h3, h4, h5, h6, h7, h8, h9, h10⟩ := h
    have hb : Emits false (typeBody cfg op cl semi (match ds with | .nil => none | .cons .. => some (Decls.write cfg ds))) .free
        ([op.str] ++ Decls.out ds ++ [cl.str]) .idle := by
      refine emits_typeBody h7 h9 h10 ?_ ?_
      · intro e he
        cases ds with
        | nil => cases he
        | cons d ds =>
          obtain rfl := (Option.some.inj he).symm
          exact emits_decls _ h8
      · intro e
        cases ds with
        | nil => rw [Decls.out]
        | cons d ds => cases e
    have := (emits_groupHead (cfg := cfg) h1 h2 h3 h4 h5 h6).comp hb
    refine (this.toks (by rw [Decl.out])).fn (fun f => ?_)
    cases ds <;> simp only [Decl.write]
  | rpc kw name input ret output op ds cl semi =>
    rw [Decl.Ok] at h
    obtain ⟨h1, h2, h3, h4, h5, h6, h7, h8, h9, h10⟩ := h
    have hg := ((((((emits_kw (b := false) (cfg := cfg) h1).comp (emits_inl (k := .free) h2 rfl (by simp) (by simp))).comp
      (emits_rpcType h3 rfl)).comp (emits_space_free (by simp) (by simp))).comp (emits_inl (k := .free) h4 rfl (by simp) (by simp))).comp
      (emits_space_free (by simp [after]) (by simp [after]))).comp (emits_rpcType h5 rfl)
    cases ds with
    | nil =>
      have := hg.comp (emits_lineEnd (cfg := cfg) (k := .idle) (is_new (c := ';') (by decide)) rfl (by simp) (by simp))
      refine (this.toks (by rw [Decl.out]; simp [Decls.isNil, Tok.str, Tok.new])).fn (fun f => ?_)
      rw [Decl.write]
    | cons d ds =>
      rcases h10 with ⟨_, _, h10⟩ | ⟨x, y, rfl, rfl, _, _⟩
      · cases h10
      · have hb := emits_typeBody (cfg := cfg) (h6 x rfl) (h8 y rfl) h9 (elems := some (Decls.write cfg (.cons d ds)))
          (ts := Decls.out (.cons d ds)) (b := false) (fun e he => by obtain rfl := (Option.some.inj he).symm; exact emits_decls _ h7) (by intro e; cases e)
        have := (hg.comp (emits_space_free (by simp) (by simp))).comp hb
        refine (this.toks (by rw [Decl.out]; simp [Decls.isNil, str?, strs])).fn (fun f => ?_)
        rw [Decl.write]
theorem emits_decls (ds : Decls) (h : ds.Ok false) : Emits false (ds.write cfg) .idle ds.out .idle := by
  cases ds with
  | nil => exact ((Emits.id _).toks (by rw [Decls.out])).fn (fun f => by rw [Decls.write])
  | cons d ds =>
    rw [Decls.Ok] at h
    have hne : ∀ x, d ≠ .enumValue x := by rintro x rfl; rw [Decl.Ok] at h; exact absurd h.1.1 (by simp)
    exact (((emits_decl d h.1 hne).comp (emits_decls ds h.2)).toks (by rw [Decls.out])).fn (fun f => by rw [Decls.write])
theorem writers_decls {column : Bool} (ds : Decls) (h : ds.Ok column) :
    ∃ tss, List.Forall₂ (fun (p : Elem × Writer) ts => WriterOk false p.1 p.2 ts) (ds.writers cfg) tss ∧ tss.flatten = ds.out := by
  cases ds with
  | nil => exact ⟨[], by rw [Decls.writers]; exact .nil, by rw [Decls.out]; rfl⟩
  | cons d ds =>
    rw [Decls.Ok] at h
    obtain ⟨tss, h1, h2⟩ := writers_decls ds h.2
    refine ⟨d.out :: tss, ?_, by rw [List.flatten_cons, h2, Decls.out]⟩
    have hd := h.1
    cases d with
    | option o =>
      rw [Decl.Ok] at hd
      rw [Decls.writers.eq_def, Decl.out]
      exact .cons ⟨by simp [Opt.elem], Emits.id _, cells_opt (b := false) hd.1 (fun _ => hd.2) (by simp) (fun _ _ _ => hd.2)⟩ h1
    | field x =>
      rw [Decl.Ok] at hd
      rw [Decls.writers.eq_def, Decl.out]
      exact .cons (writer_fieldDecl hd) h1
    | mapField x =>
      rw [Decl.Ok] at hd
      rw [Decls.writers.eq_def, Decl.out]
      exact .cons ⟨by simp [MapDecl.elem], emits_mapComments hd rfl, cells_map hd⟩ h1
    | enumValue x =>
      rw [Decl.Ok] at hd
      rw [Decls.writers.eq_def, Decl.out]
      exact .cons ⟨by simp [EnumVal.elem], Emits.id _, cells_enum hd.2⟩ h1
    | empty t =>
      rw [Decls.writers.eq_def]
      exact .cons ⟨rfl, emits_decl _ hd (by intro x e; cases e)⟩ h1
    | extensions kw es opts semi =>
      rw [Decls.writers.eq_def]
      exact .cons ⟨rfl, emits_decl _ hd (by intro x e; cases e)⟩ h1
    | reserved kw es semi =>
      rw [Decls.writers.eq_def]
      exact .cons ⟨rfl, emits_decl _ hd (by intro x e; cases e)⟩ h1
    | block kw name column op ds cl semi =>
      rw [Decls.writers.eq_def]
      exact .cons ⟨rfl, emits_decl _ hd (by intro x e; cases e)⟩ h1
    | group label kw name eq tag opts op ds cl semi =>
      rw [Decls.writers.eq_def]
      exact .cons ⟨rfl, emits_decl _ hd (by intro x e; cases e)⟩ h1
    | rpc kw name input ret output op ds cl semi =>
      rw [Decls.writers.eq_def]
      exact .cons ⟨rfl, emits_decl _ hd (by intro x e; cases e)⟩ h1
end

/-! ### Files -/

theorem emits_separate (t : Tok) : Emits b (separate t) .idle [] .idle := by
  intro f ts hf
  unfold separate
  split
  · exact emits_newline (by simp) f ts hf
  · rw [List.append_nil]; exact hf

theorem emits_import {i : Import} (h : ImportOk i) (force : Bool) : Emits b (i.write cfg force) .idle i.out .idle := by
  have hm : Emits b (fun g => match i.modifier with | some m => space (inl m g) | none => g) .free (str? i.modifier) .free := by
    cases hm : i.modifier with
    | none => exact Emits.id _
    | some m => exact ((emits_inl (k := .free) (h.modifier m hm) rfl (by simp) (by simp)).comp (emits_space_free (by simp [after]) (by simp [after]))).toks (by simp [str?, strs])
  have := ((((emits_startMaybe (b := b) (cfg := cfg) (k := .idle) h.kw rfl (by simp) (by simp) force).comp
    (emits_space_free (by simp [after]) (by simp [after]))).comp hm).comp (emits_valueInl (cfg := cfg) h.name)).comp
    (emits_end (cfg := cfg) h.semi rfl)
  refine (this.toks ?_).fn (fun f => rfl)
  unfold Import.out; simp

theorem emits_importsRest (is : List Import) (h : ∀ i ∈ is, ImportOk i) (path : Str) :
    Emits b (importsRest cfg path is) .idle ((distinct.go path is).flatMap Import.out) .idle := by
  induction is generalizing path with
  | nil => exact (Emits.id _).fn (fun f => rfl)
  | cons i is ih =>
    have hi := h i List.mem_cons_self
    have ih := ih (fun x hx => h x (List.mem_cons_of_mem _ hx)) i.path
    unfold distinct.go
    by_cases hc : i.path = path ∧ i.commented = false
    · rw [if_pos hc]
      refine ih.fn (fun f => ?_)
      conv => lhs; rw [importsRest, if_pos hc]
    · rw [if_neg hc]
      refine (((emits_import (cfg := cfg) hi true).comp ih).toks (by simp)).fn (fun f => ?_)
      conv => lhs; rw [importsRest, if_neg hc]

theorem emits_imports (is : List Import) (h : ∀ i ∈ is, ImportOk i) :
    Emits b (importsWrite cfg is) .idle ((distinct is).flatMap Import.out) .idle := by
  cases is with
  | nil => exact (Emits.id _).fn (fun f => rfl)
  | cons i is =>
    have := ((emits_separate (b := b) i.kw).comp (emits_import (cfg := cfg) (h i List.mem_cons_self) false)).comp
      (emits_importsRest (cfg := cfg) is (fun x hx => h x (List.mem_cons_of_mem _ hx)) i.path)
    exact (this.toks (by simp [distinct])).fn (fun f => rfl)

theorem emits_fileOptions (os : List Opt) (h : ∀ o ∈ os, OptOk o ∧ o.semi.isSome = true) :
    Emits false (fileOptions cfg os) .idle (os.flatMap Opt.out) .idle := by
  cases os with
  | nil => exact (Emits.id _).fn (fun f => rfl)
  | cons o os =>
    obtain ⟨tss, h1, h2⟩ := writers_fileOpts (cfg := cfg) (o :: os) h
    have := (emits_separate (b := false) o.first).comp (emits_columns (cfg := cfg) h1)
    exact (this.toks (by rw [h2]; rfl)).fn (fun f => rfl)

theorem emits_type {d : Decl} (h : d.Ok false) : Emits false (typeWrite cfg d) .idle d.out .idle := by
  by_cases he : ∃ t, d = .empty t
  · obtain ⟨t, rfl⟩ := he
    exact ((Emits.id _).toks (by rw [Decl.out])).fn (fun f => rfl)
  · have hne : ∀ x, d ≠ .enumValue x := by rintro x rfl; rw [Decl.Ok] at h; exact absurd h.1 (by simp)
    have := (emits_separate (b := false) d.first).comp (emits_decl (cfg := cfg) d h hne)
    refine (this.toks (by simp)).fn (fun f => ?_)
    cases d <;> first | rfl | exact absurd ⟨_, rfl⟩ he

theorem emits_file {x : File} (h : FileOk x) : Emits false (x.write cfg) .idle x.out .idle := by
  have h1 : Emits false (fun f => match x.syntax with | some s => s.write cfg f | none => f) .idle ((x.syntax.map Syntax.out).getD []) .idle := by
    cases hs : x.syntax with
    | none => exact Emits.id _
    | some s =>
      have hok := h.syntax s hs
      have := ((((emits_kw (b := false) (cfg := cfg) hok.kw).comp (emits_inl_hard hok.eq rfl)).comp (emits_space_free (by simp) (by simp))).comp
        (emits_valueInl (cfg := cfg) hok.val)).comp (emits_end (cfg := cfg) hok.semi rfl)
      refine (this.toks ?_).fn (fun f => rfl)
      simp [Syntax.out]
  have h2 : Emits false (fun f => match x.package with | some p => p.write cfg f | none => f) .idle ((x.package.map Package.out).getD []) .idle := by
    cases hs : x.package with
    | none => exact Emits.id _
    | some p =>
      have hok := h.package p hs
      have hn : Emits false (inlName (p.name.getD [])) .free (strs (p.name.getD [])) .any := by
        cases hn : p.name with
        | none => exact ((Emits.id .free).mono rfl rfl).fn (fun f => rfl)
        | some n => exact ((emits_inls (k := .free) (hok.name n hn) rfl (by simp)).mono (k0 := .free) (k1 := .any) rfl rfl)
      have := ((emits_kw (b := false) (cfg := cfg) hok.kw).comp hn).comp (emits_end (cfg := cfg) hok.semi rfl)
      refine (this.toks ?_).fn (fun f => rfl)
      simp [Package.out]
  have h3 := ((h1.comp h2).comp (emits_imports (cfg := cfg) x.imports h.imports)).comp (emits_fileOptions (cfg := cfg) x.options h.options)
  have h4 := emits_foldl (b := false) (fun f d => typeWrite cfg d f) Decl.out x.decls (fun d hd => emits_type (h.decls d hd))
  have h5 := (h3.comp h4).comp (emits_multiline (cfg := cfg) rfl h.eof false)
  have h6 : ∀ (g : F → F) ts, Emits false g .idle ts .idle →
      Emits false (fun f => if (g f).w.last ≠ '\x00' ∧ (g f).w.last ≠ '\n' then newline (g f) else g f) .idle ts .idle := by
    intro g ts hg f toks hf
    beta_reduce
    split
    · have := emits_newline (b := false) (k := .idle) (by simp) _ _ (hg f toks hf)
      rwa [List.append_nil] at this
    · exact hg f toks hf
  refine ((h6 _ _ h5).toks ?_).fn (fun f => rfl)
  unfold File.out; simp

end Verif.Formatter
