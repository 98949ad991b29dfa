import Verif.Lemmas.FormatKeepsOptions
import Verif.Lemmas.FormatDecls
/-! The rules for declarations and files, for comments. -/
namespace Verif.Formatter
open Verif.Lexer Verif.Comment
open Verif.InlineComment (Comment)
open Verif.ColumnFormat (Field Elem)

variable {b : Bool} {cfg : Cfg}

theorem keeps_end {semi : Option Tok} {k : K} (h : EndOk semi) (hv : ∀ t ∈ semi.toList, Seen t) (hk : k.calm = true) :
    Keeps b (lineEnd? cfg semi) k (told semi.toList) .idle := keeps_lineEnd? (endOk_parts h).1 (endOk_parts h).2 hv hk

/-! ### Cells -/

theorem told_tail {ctx type : Str} {name eq tag : F → F} {opts : Option Compact} {semi : Option Tok} {f : F} {c2 c3 c4 : List (List Str)}
    (hf : Fine false f .idle) (ho : f.w.out = []) (hname : Keeps false name .idle c2 .any) (heq : Keeps false eq .idle c3 .any)
    (htag : Keeps false tag .free c4 .any) (hopts : CompactOk? opts) (hp : CompactPlain? opts) (vo : ∀ t ∈ compactNodes opts, Seen t)
    (hsemi : EndOk semi) (vs : ∀ t ∈ semi.toList, Seen t) :
    fieldTold (tailCells cfg ctx type name eq tag opts semi f).2 = said ctx ++ (said type ++ (c2 ++ (c3 ++ c4 ++
      (told (compactNodes opts) ++ told semi.toList)))) := by
  obtain ⟨g1, g2⟩ := hname _ hf
  obtain ⟨g3, g4⟩ := ((heq.comp (keeps_space_free (by simp) (by simp))).comp htag) _ (fine_drain (k' := .idle) g1)
  obtain ⟨g5, g6⟩ := ((keeps_tight? (cfg := cfg) hopts hp vo).comp (keeps_end (cfg := cfg) hsemi vs rfl)) _ (fine_drain (k' := .free) g3)
  have e : fieldTold (tailCells cfg ctx type name eq tag opts semi f).2 = said ctx ++ (said type ++ (said (name f).w.out ++
      (said (tag (space (eq (drain (name f)).2))).w.out ++
      said (lineEnd? cfg semi (tight? cfg opts (drain (tag (space (eq (drain (name f)).2)))).2)).w.out))) := rfl
  have dr : ∀ g : F, said (drain g).2.w.out = [] := fun _ => rfl
  rw [e, g2, g4, g6, ho, dr, dr]
  simp [said_nil]

theorem name_tail {t : Tok} {ts : List Tok} (h : NameOk (t :: ts)) (hv : ∀ x ∈ ts, Seen x) : Keeps b (inls ts) .ident (told ts) .ident := by
  cases ts with
  | nil => exact (Keeps.id _).fn (fun f => rfl)
  | cons d ts =>
    obtain ⟨h1, h2, h3⟩ := h
    simp only [List.forall_mem_cons] at hv
    exact ((keeps_inl h2 hv.1 (by rfl) (by simp) (by simp)).comp (keeps_inls h3 hv.2 (by rfl) (by simp [after]))).fn (fun f => rfl)

theorem type_told {x : FieldDecl} (h : FieldOk x) (vl : ∀ t ∈ x.label.toList, Seen t) (vt : ∀ t ∈ x.type, Seen t) {c : F}
    (hc : Fine b c .idle) :
    said (typeCells cfg x c).1 ++ said (typeCells cfg x c).2.1 = said c.w.out ++ (told x.label.toList ++ told x.type) ∧
    Fine b (typeCells cfg x c).2.2 .idle ∧ (typeCells cfg x c).2.2.w.out = [] := by
  have ht := h.type
  have dr : ∀ g : F, said (drain g).2.w.out = [] := fun _ => rfl
  cases hl : x.label with
  | some l =>
    rw [hl] at ht
    have hlab := h.label l hl
    have hsl := seen_some vl hl
    obtain ⟨a1, a2⟩ := keeps_startPre (b := b) (cfg := cfg) (k := .idle) rfl hlab.leading false l.ws l.rune? c hc
    obtain ⟨b1, b2⟩ := ((((keeps_write hlab.term rfl).comp (keeps_startPost (after_calm (by simp)) hlab.trailing hsl.2 l.rune?)).comp
      (keeps_space_free (by simp [after]) (by simp [after]))).comp (keeps_inlsDot (n := x.type) ht vt (.inr rfl))) _ (fine_drain (k' := .idle) a1)
    unfold typeCells
    rw [hl]
    refine ⟨?_, fine_drain b1, rfl⟩
    show said (startPre cfg false l.ws l.leading l.rune? c).w.out ++ said (inls x.type (space (startPost l.trailing l.rune? (l.write
      (drain (startPre cfg false l.ws l.leading l.rune? c)).2)))).w.out = _
    rw [a2, b2, dr]
    simp [told_cons, told_nil, Tok.told]
  | none =>
    rw [hl] at ht
    cases hx : x.type with
    | nil => rw [hx] at ht; exact absurd ht id
    | cons t ts =>
      rw [hx] at ht vt
      simp only [List.forall_mem_cons] at vt
      obtain ⟨h1, _⟩ := nameOk_tail (b := b) (show NameOk (t :: ts) from ht)
      have h2 := name_tail (b := b) (show NameOk (t :: ts) from ht) vt.2
      obtain ⟨a1, a2⟩ := keeps_startPre (b := b) (cfg := cfg) (k := .idle) rfl h1.leading false t.ws t.rune? c hc
      obtain ⟨b1, b2⟩ := (((keeps_write h1.term rfl).comp (keeps_startPost (after_calm (by simp)) h1.trailing vt.1.2 t.rune?)).comp h2) _
        (fine_drain (k' := .idle) a1)
      have hr : ¬ (ts ≠ [] ∧ t.rune?.isSome = true) := by rw [rune_ident h1]; simp
      have e : typeCells cfg x c = ((drain (startPre cfg false t.ws t.leading t.rune? c)).1,
          (drain (inls ts (startPost t.trailing t.rune? (t.write (drain (startPre cfg false t.ws t.leading t.rune? c)).2)))).1,
          (drain (inls ts (startPost t.trailing t.rune? (t.write (drain (startPre cfg false t.ws t.leading t.rune? c)).2)))).2) := by
        unfold typeCells
        rw [hl, hx]
        simp only [if_neg hr]
      rw [e]
      refine ⟨?_, fine_drain b1, rfl⟩
      show said (startPre cfg false t.ws t.leading t.rune? c).w.out ++ said (inls ts (startPost t.trailing t.rune? (t.write
        (drain (startPre cfg false t.ws t.leading t.rune? c)).2))).w.out = _
      rw [a2, b2, dr]
      simp [told_cons, told_nil, Tok.told]

theorem keeps_need {t : Option Tok} {c : Cls} {k k' : K} (h : Is? c t) (hs : t.isSome = true) (hv : ∀ s ∈ t.toList, Seen s)
    (hk : Accept k c = true) (hks : k ≠ .slash) (hc : c ≠ .slash) (ha : (after c).le k' = true) : Keeps b (need t) k (told t.toList) k' := by
  obtain ⟨s, rfl⟩ := Option.isSome_iff_exists.1 hs
  exact (((keeps_inl (h s rfl) (hv s (by simp)) hk (fun e => absurd e hks) (fun e => absurd e hc)).mono (by cases k <;> simp_all [K.le]) ha).told
    (told_one s).symm).fn (fun f => rfl)

theorem cellsKeep_fieldDecl {x : FieldDecl} (h : FieldOk x) (hi : x.incomplete = false) (hp : CompactPlain? x.opts)
    (hv : ∀ t ∈ x.nodes, Seen t) : CellsKeep false (x.cells cfg) (told x.nodes) := by
  refine (cells_fieldDecl h hi).keep ?_
  intro c hc
  simp only [FieldDecl.nodes, List.forall_mem_append] at hv
  obtain ⟨v1, v2, v3, v4, v5, v6, v7⟩ := hv
  obtain ⟨h1, h2, h3⟩ := type_told (cfg := cfg) h v1 v2 hc
  obtain ⟨c1, c2, c3⟩ := h.complete hi
  have := told_tail (cfg := cfg) (ctx := (typeCells cfg x c).1) (type := (typeCells cfg x c).2.1) h2 h3
    (keeps_need (k := .idle) h.name c1 v3 rfl (by simp) (by simp) rfl)
    (keeps_need (k := .idle) h.eq c2 v4 rfl (by simp) (by simp) rfl) (keeps_need (k := .free) h.tag c3 v5 rfl (by simp) (by simp) rfl)
    h.opts hp v6 h.semi v7
  rw [← List.append_assoc (said (typeCells cfg x c).1), h1] at this
  unfold FieldDecl.cells FieldDecl.nodes
  simpa [told_append] using this

theorem keeps_mapRest {x : MapDecl} (h : MapOk x) (v1 : Seen x.op) (v2 : Seen x.key) (v3 : Seen x.comma) (v4 : ∀ t ∈ x.type, Seen t)
    (v5 : Seen x.cl) : Keeps false (mapRest x) .ident (x.op.told ++ x.key.told ++ x.comma.told ++ told x.type ++ x.cl.told) .idle :=
  ((((((keeps_inl_hard h.op v1 rfl).comp (keeps_inl (k := .idle) h.key v2 rfl (by simp) (by simp))).comp (keeps_inl_hard h.comma v3 rfl)).comp
    (keeps_space_free (by simp) (by simp))).comp (keeps_inlsDot h.type v4 (.inr rfl))).comp (keeps_inl_hard h.cl v5 rfl)).told (by simp)

theorem cellsKeep_map {x : MapDecl} (h : MapOk x) (hp : CompactPlain? x.opts) (hq : Silent? x.typeSemi) (hv : ∀ t ∈ x.nodes, Seen t) :
    CellsKeep false (x.cells cfg) (told x.nodes) := by
  refine (cells_map h).keep ?_
  intro c hc
  simp only [MapDecl.nodes, List.forall_mem_append, List.forall_mem_cons] at hv
  obtain ⟨⟨v1, v2, v3, v4, _⟩, v5, v6, _, ⟨v8, v9, v10, _⟩, v11, v12⟩ := hv
  obtain ⟨a1, a2⟩ := keeps_startPre (b := false) (cfg := cfg) (k := .idle) rfl h.kw.leading false x.kw.ws x.kw.rune? c hc
  obtain ⟨b1, b2⟩ := (((keeps_write h.kw.term rfl).comp (keeps_startPost (after_calm (by simp)) h.kw.trailing v1.2 x.kw.rune?)).comp
    (keeps_mapRest h v2 v3 v4 v5 v6)) _ (fine_drain (k' := .idle) a1)
  have := told_tail (cfg := cfg) (ctx := (drain (startPre cfg false x.kw.ws x.kw.leading x.kw.rune? c)).1)
    (type := (drain (mapRest x (startPost x.kw.trailing x.kw.rune? (x.kw.write
      (drain (startPre cfg false x.kw.ws x.kw.leading x.kw.rune? c)).2)))).1)
    (fine_drain b1) rfl ((keeps_inl (k := .idle) h.name v8 rfl (by simp) (by simp)).mono (k0 := .idle) (k1 := .any) rfl rfl)
    ((keeps_inl (k := .idle) h.eq v9 rfl (by simp) (by simp)).mono (k0 := .idle) (k1 := .any) rfl rfl)
    ((keeps_inl (k := .free) h.tag v10 rfl (by simp) (by simp)).mono (k0 := .free) (k1 := .any) rfl rfl) h.opts hp v11 h.semi v12
  have e1 : said (drain (startPre cfg false x.kw.ws x.kw.leading x.kw.rune? c)).1 = said c.w.out ++ conts x.kw.leading := a2
  have e2 := b2
  have dr : ∀ g : F, said (drain g).2.w.out = [] := fun _ => rfl
  rw [dr] at e2
  have e3 : ∀ g : F, said (drain g).1 = said g.w.out := fun _ => rfl
  rw [e1, e3, e2] at this
  unfold MapDecl.cells
  refine this.trans ?_
  unfold MapDecl.nodes
  simp [told_append, told_cons, hq.told, Tok.told]

theorem keeps_mapComments {x : MapDecl} {k : K} (hq : Silent? x.typeSemi) : Keeps b (mapComments x) k [] k := by
  unfold mapComments
  cases hs : x.typeSemi with
  | none => exact Keeps.id _
  | some s =>
    simp only
    rw [(hq s hs).2]
    split
    · exact (Keeps.id _).fn (fun f => rfl)
    · exact Keeps.id _

theorem enum_semi {x : EnumVal} (h : EnumValOk x) (hv : ∀ t ∈ x.semi.toList, Seen t) :
    EndOk (x.semi.map fun t => { t with term := .rune ';' }) ∧
      told (x.semi.map fun t => { t with term := Term.rune ';' }).toList = told x.semi.toList ∧
      ∀ t ∈ (x.semi.map fun t => { t with term := Term.rune ';' }).toList, Seen t := by
  obtain ⟨s, e, hs⟩ := h.semi
  rw [e] at hv ⊢
  refine ⟨⟨_, rfl, ⟨(by decide : punct ';' = true), hs.is.leading, hs.is.trailing⟩, .inl rfl⟩, rfl, ?_⟩
  intro t ht
  have : t = { s with term := .rune ';' } := by simpa using ht
  subst this
  exact hv s (by simp)

theorem cellsKeep_enum {x : EnumVal} (h : EnumValOk x) (hn : x.num.Plain) (hp : CompactPlain? x.opts) (hv : ∀ t ∈ x.nodes, Seen t) :
    CellsKeep false (x.cells cfg) (told x.nodes) := by
  refine (cells_enum h).keep ?_
  intro c hc
  simp only [EnumVal.nodes, List.forall_mem_append, List.forall_mem_cons] at hv
  obtain ⟨⟨v1, v2, _⟩, v3, v4, v5⟩ := hv
  obtain ⟨a1, a2⟩ := keeps_startPre (b := false) (cfg := cfg) (k := .idle) rfl h.name.leading false x.name.ws x.name.rune? c hc
  obtain ⟨s1, s2, s3⟩ := enum_semi h v5
  have hn' : Keeps false (fun g => startPost x.name.trailing x.name.rune? (x.name.write g)) .idle (conts x.name.trailing) .any :=
    (((keeps_write (k := .idle) h.name.term rfl).comp (keeps_startPost (after_calm (by simp)) h.name.trailing v1.2 x.name.rune?)).mono
      (k0 := .idle) (k1 := .any) rfl rfl).told (by simp)
  have := told_tail (cfg := cfg) (ctx := (drain (startPre cfg false x.name.ws x.name.leading x.name.rune? c)).1) (type := [])
    (fine_drain a1) rfl hn' ((keeps_inl (k := .idle) h.eq v2 rfl (by simp) (by simp)).mono (k0 := .idle) (k1 := .any) rfl rfl)
    (keeps_valueInl (cfg := cfg) h.num hn v3) h.opts hp v4 s1 s3
  have e1 : said (drain (startPre cfg false x.name.ws x.name.leading x.name.rune? c)).1 = said c.w.out ++ conts x.name.leading := a2
  rw [s2, e1] at this
  unfold EnumVal.cells
  refine this.trans ?_
  unfold EnumVal.nodes
  simp [told_append, told_cons, Tok.told, said_nil]

/-! ### Fields as a whole -/

theorem keeps_spaced? {t : Option Tok} {c : Cls} (h : Is? c t) (hv : ∀ s ∈ t.toList, Seen s) (hc : c ≠ .slash) (ha : (after c).le .any = true) :
    Keeps b (spaced? t) .any (told t.toList) .any := by
  cases t with
  | none => exact (Keeps.id _).fn (fun f => rfl)
  | some t =>
    exact ((((keeps_space_free (k := .any) (by simp) (by simp)).comp ((keeps_inl (k := .free) (h t rfl) (hv t (by simp)) rfl (by simp)
      (fun e => absurd e hc)))).mono (k0 := .any) (k1 := .any) rfl ha).told (told_one t).symm).fn (fun f => rfl)

theorem keeps_fieldDecl {x : FieldDecl} (h : FieldOk x) (hp : CompactPlain? x.opts) (hv : ∀ t ∈ x.nodes, Seen t) :
    Keeps false (x.write cfg) .idle (told x.nodes) .idle := by
  simp only [FieldDecl.nodes, List.forall_mem_append] at hv
  obtain ⟨v1, v2, v3, v4, v5, v6, v7⟩ := hv
  have ht : Keeps false (fun f => match x.label with
      | some l => inlName x.type (space (start cfg l f))
      | none => typeStart cfg x.type id f) .idle (told x.label.toList ++ told x.type) .any := by
    have hty := h.type
    cases hl : x.label with
    | some l =>
      rw [hl] at hty
      exact ((((keeps_start (k := .idle) (h.label l hl) (seen_some v1 hl) rfl (by simp) (by simp)).comp
        (keeps_space_free (by simp [after]) (by simp [after]))).comp
        (keeps_inlsDot (n := x.type) hty v2 (.inr rfl))).mono (k0 := .idle) (k1 := .any) rfl rfl).told (by simp [told_one])
    | none =>
      rw [hl] at hty
      have hty : NameOk x.type := hty
      cases hx : x.type with
      | nil => rw [hx] at hty; exact absurd hty id
      | cons t ts =>
        rw [hx] at hty v2
        simp only [List.forall_mem_cons] at v2
        obtain ⟨h1, _⟩ := nameOk_tail (b := false) hty
        have h2 := name_tail (b := false) hty v2.2
        have hs := (keeps_start (b := false) (cfg := cfg) (k := .idle) h1 v2.1 rfl (by simp) (by simp)).comp h2
        have hs := (hs.mono (k0 := .idle) (k1 := .any) rfl rfl).told (a' := told (none : Option Tok).toList ++ told (t :: ts))
          (by simp [told_cons, told_nil])
        refine hs.fn (fun f => ?_)
        cases ts with
        | nil => rfl
        | cons d ts =>
          show (if t.rune?.isSome then inls (t :: d :: ts) (start cfg t f) else inls (d :: ts) (start cfg t f)) = _
          rw [rune_ident h1]; rfl
  have := ((((ht.comp (keeps_spaced? h.name v3 (by simp) rfl)).comp (keeps_spaced? h.eq v4 (by simp) rfl)).comp
    (keeps_spaced? h.tag v5 (by simp) rfl)).comp (keeps_compact? (cfg := cfg) h.opts hp v6)).comp (keeps_end (cfg := cfg) h.semi v7 rfl)
  refine (this.told ?_).fn (fun f => rfl)
  unfold FieldDecl.nodes; simp [told_append]

theorem keep_fieldDecl {x : FieldDecl} (h : FieldOk x) (hp : CompactPlain? x.opts) (hv : ∀ t ∈ x.nodes, Seen t) :
    WriterKeep false x.elem (x.writer cfg) (told x.nodes) := by
  unfold FieldDecl.writer
  by_cases hi : x.incomplete = true
  · rw [if_pos hi]
    exact ⟨by simp [FieldDecl.elem], hi, keeps_fieldDecl h hp hv, _, fieldOut_ne h, emits_fieldDecl h⟩
  · rw [if_neg hi]
    exact ⟨by simp [FieldDecl.elem], Keeps.id _, cellsKeep_fieldDecl h (Bool.eq_false_iff.2 hi) hp hv⟩

theorem keeps_mapDecl {x : MapDecl} (h : MapOk x) (hp : CompactPlain? x.opts) (hq : Silent? x.typeSemi) (hv : ∀ t ∈ x.nodes, Seen t) :
    Keeps false (x.write cfg) .idle (told x.nodes) .idle := by
  simp only [MapDecl.nodes, List.forall_mem_append, List.forall_mem_cons] at hv
  obtain ⟨⟨v1, v2, v3, v4, _⟩, v5, v6, _, ⟨v8, v9, v10, _⟩, v11, v12⟩ := hv
  have h1 := (((keeps_start (b := false) (cfg := cfg) (k := .idle) h.kw v1 rfl (by simp) (by simp)).comp
    (keeps_mapRest h v2 v3 v4 v5 v6)).comp (keeps_mapComments hq)).comp (keeps_space_free (by simp) (by simp))
  have h2 := ((((h1.comp (keeps_inl (k := .free) h.name v8 rfl (by simp) (by simp))).comp (keeps_space_free (by simp [after]) (by simp [after]))).comp
    (keeps_inl_hard h.eq v9 rfl)).comp (keeps_space_free (by simp) (by simp))).comp ((keeps_inl (k := .free) h.tag v10 rfl (by simp) (by simp)))
  have h3 := (h2.comp (keeps_compact? (cfg := cfg) h.opts hp v11)).comp (keeps_end (cfg := cfg) h.semi v12 rfl)
  refine (h3.told ?_).fn (fun f => rfl)
  unfold MapDecl.nodes; simp [told_append, told_cons, hq.told]

/-! ### Ranges -/

theorem keeps_rangeElem {e : RangeElem} (h : e.Ok) (hp : e.Plain) (hv : ∀ t ∈ e.nodes, Seen t) :
    Keeps b (e.write cfg) .any (told e.nodes) .any := by
  cases e with
  | comma t => exact (((keeps_inl_hard h (hv t (by simp [RangeElem.nodes])) rfl).to).told (told_one t).symm).fn (fun f => rfl)
  | range s mid stop =>
    obtain ⟨h1, h2, h3⟩ := h
    obtain ⟨p1, p2⟩ := hp
    simp only [RangeElem.nodes, List.forall_mem_append] at hv
    obtain ⟨v1, v2, v3⟩ := hv
    have hs : Keeps b (fun g => match (generalizing := false) stop with | some v => v.inl cfg (space g) | none => g) .any
        (told ((stop.map Value.nodes).getD [])) .any := by
      cases stop with
      | none => exact Keeps.id _
      | some v => exact ((keeps_space_free (by simp) (by simp)).comp (keeps_valueInl (cfg := cfg) (h3 v rfl) (p2 v rfl) v3)).told (by simp)
    have := ((((((keeps_space_free (b := b) (k := .any) (by simp) (by simp)).comp (keeps_setInline true _)).comp
      (keeps_valueInl (cfg := cfg) h1 p1 v1)).comp (keeps_spaced? h2 v2 (by simp) rfl)).comp hs).comp (keeps_setInline false _))
    refine (this.told ?_).fn (fun f => rfl)
    simp [RangeElem.nodes, told_append]
  | name v => exact ((keeps_space_free (by simp) (by simp)).comp (keeps_valueInl (cfg := cfg) h hp hv)).fn (fun f => rfl)

theorem keeps_ranges (es : List RangeElem) (h : ∀ e ∈ es, e.Ok) (hp : ∀ e ∈ es, e.Plain) (hv : ∀ t ∈ es.flatMap RangeElem.nodes, Seen t) :
    Keeps b (fun f => es.foldl (fun f e => RangeElem.write cfg e f) f) .any (told (es.flatMap RangeElem.nodes)) .any := by
  induction es with
  | nil => exact Keeps.id _
  | cons e es ih =>
    simp only [List.flatMap_cons, List.forall_mem_append] at hv
    exact ((keeps_rangeElem (h e List.mem_cons_self) (hp e List.mem_cons_self) hv.1).comp (ih (fun x hx => h x (List.mem_cons_of_mem _ hx))
      (fun x hx => hp x (List.mem_cons_of_mem _ hx)) hv.2)).told (by simp [told_append])

/-! ### Declarations -/

theorem keeps_rpcType {x : RPCType} {k : K} (h : RPCTypeOk x) (hv : ∀ t ∈ x.src, Seen t) (hk : k.calm = true) :
    Keeps b x.write k (told x.src) .idle := by
  simp only [RPCType.src, List.forall_mem_append, List.forall_mem_cons] at hv
  obtain ⟨v1, v2, v3, v4, _⟩ := hv
  have hs : Keeps b (fun g => match x.stream with | some s => space (inl s g) | none => g) .idle (told x.stream.toList) .free := by
    cases hs : x.stream with
    | none => exact (Keeps.id .idle).mono rfl rfl
    | some s =>
      exact ((keeps_inl (k := .idle) (h.stream s hs) (seen_some v2 hs) rfl (by simp) (by simp)).comp
        (keeps_space_free (by simp [after]) (by simp [after]))).told (by simp [told_one])
  have := (((((keeps_setInline (b := b) true k).comp (keeps_inl_hard h.op v1 hk)).comp hs).comp (keeps_inlsDot h.type v3 (.inr rfl))).comp
    (keeps_inl_hard h.cl v4 rfl)).comp (keeps_setInline false _)
  refine (this.told ?_).fn (fun f => rfl)
  unfold RPCType.src; simp [told_append, told_cons, told_nil]

theorem keeps_typeBody {op cl : Tok} {semi : Option Tok} {elems : Option (F → F)} {ts : List (List Str)} (hop : Is .hard op) (hcl : Is .hard cl)
    (hs : SemiOk semi) (vo : Seen op) (vc : Seen cl) (hp : EndPlain cl semi) (he : ∀ e, elems = some e → Keeps b e .idle ts .idle)
    (hn : elems = none → ts = []) :
    Keeps b (typeBody cfg op cl semi elems) .free (op.told ++ ts ++ (cl.told ++ told semi.toList)) .idle := by
  refine (keeps_body (k := .free) (k' := .idle) hop vo rfl (keeps_openBrace hop vo rfl) ?_ (fun e h => ⟨.idle, rfl, he e h⟩) hn).fn (fun f => rfl)
  intro k0 hk i
  exact keeps_bodyEnd hcl vc (accept_hard hk) (K.calm_ne hk).1 (by simp) hs hp i

theorem keeps_groupHead {label : Option Tok} {kw name eq tag : Tok} {opts : Option Compact} (h1 : Is? .ident label) (h2 : Is .ident kw)
    (h3 : Is .ident name) (h4 : Is .hard eq) (h5 : Is .num tag) (h6 : CompactOk? opts) (hp : CompactPlain? opts)
    (v1 : ∀ t ∈ label.toList, Seen t) (v2 : Seen kw) (v3 : Seen name) (v4 : Seen eq) (v5 : Seen tag) (v6 : ∀ t ∈ compactNodes opts, Seen t) :
    Keeps false (groupHead cfg label kw name eq tag opts) .idle (told label.toList ++ told [kw, name, eq, tag] ++ told (compactNodes opts)) .free := by
  have hg : Keeps false (fun f => match (generalizing := false) label with
      | some l => inl kw (space (start cfg l f))
      | none => start cfg kw f) .idle (told label.toList ++ kw.told) .ident := by
    cases label with
    | none => exact (keeps_start (k := .idle) h2 v2 rfl (by simp) (by simp)).told (by simp [told_nil])
    | some l =>
      exact (((keeps_start (k := .idle) (h1 l rfl) (v1 l (by simp)) rfl (by simp) (by simp)).comp
        (keeps_space_free (by simp [after]) (by simp [after]))).comp
        (keeps_inl (k := .free) h2 v2 rfl (by simp) (by simp))).told (by simp [told_one])
  have := ((((((((hg.comp (keeps_space_free (by simp) (by simp))).comp (keeps_inl (k := .free) h3 v3 rfl (by simp) (by simp))).comp
    (keeps_space_free (by simp [after]) (by simp [after]))).comp (keeps_inl_hard h4 v4 rfl)).comp (keeps_space_free (by simp) (by simp))).comp
    (keeps_inl (k := .free) h5 v5 rfl (by simp) (by simp))).comp (keeps_compact? (cfg := cfg) h6 hp v6))).comp (keeps_space_free (by simp) (by simp))
  refine (this.told ?_).fn (fun f => rfl)
  simp [told_cons, told_nil]

theorem keeps_kw {kw : Tok} (h : Is .ident kw) (hv : Seen kw) : Keeps b (fun f => space (start cfg kw f)) .idle kw.told .free :=
  ((keeps_start (k := .idle) h hv rfl (by simp) (by simp)).comp (keeps_space_free (by simp [after]) (by simp [after]))).told (by simp)

mutual
theorem keeps_decl {column : Bool} (d : Decl) (h : d.Ok column) (hne : ∀ x, d ≠ .enumValue x) (hp : d.Plain false)
    (hv : ∀ t ∈ d.nodes, Seen t) : Keeps false (d.write cfg) .idle (told d.nodes) .idle := by
  cases d with
  | empty t =>
    rw [Decl.Plain] at hp
    exact ((Keeps.id _).told (by rw [Decl.nodes, told_one, hp.told])).fn (fun f => by rw [Decl.write])
  | option o =>
    rw [Decl.Ok] at h
    rw [Decl.Plain, if_neg (by simp)] at hp
    rw [Decl.nodes] at hv ⊢
    exact (keeps_opt h.1 h.2 hp hv).fn (fun f => by rw [Decl.write])
  | field x =>
    rw [Decl.Ok] at h
    rw [Decl.Plain] at hp
    rw [Decl.nodes] at hv ⊢
    exact (keeps_fieldDecl h hp hv).fn (fun f => by rw [Decl.write])
  | mapField x =>
    rw [Decl.Ok] at h
    rw [Decl.Plain] at hp
    rw [Decl.nodes] at hv ⊢
    exact (keeps_mapDecl h hp.1 hp.2 hv).fn (fun f => by rw [Decl.write])
  | enumValue x => exact absurd rfl (hne x)
  | extensions kw es opts semi =>
    rw [Decl.Ok] at h
    obtain ⟨h1, h2, h3, h4⟩ := h
    rw [Decl.Plain] at hp
    simp only [Decl.nodes, List.forall_mem_cons, List.forall_mem_append] at hv
    obtain ⟨v1, v2, v3, v4⟩ := hv
    have := (((keeps_kw (b := false) (cfg := cfg) h1 v1).mono (k0 := .idle) (k1 := .any) rfl rfl).comp
      (keeps_ranges (cfg := cfg) es h2 hp.1 v2)).comp (keeps_compact? (cfg := cfg) h3 hp.2 v3)
    have := this.comp (keeps_end (cfg := cfg) h4 v4 rfl)
    exact (this.told (by rw [Decl.nodes]; simp [told_cons, told_append])).fn (fun f => by rw [Decl.write])
  | reserved kw es semi =>
    rw [Decl.Ok] at h
    obtain ⟨h1, h2, h4⟩ := h
    rw [Decl.Plain] at hp
    simp only [Decl.nodes, List.forall_mem_cons, List.forall_mem_append] at hv
    obtain ⟨v1, v2, v4⟩ := hv
    have := (((keeps_start (b := false) (cfg := cfg) (k := .idle) h1 v1 rfl (by simp) (by simp)).mono (k0 := .idle) (k1 := .any) rfl rfl).comp
      (keeps_ranges (cfg := cfg) es h2 hp v2)).comp (keeps_end (cfg := cfg) h4 v4 rfl)
    exact (this.told (by rw [Decl.nodes]; simp [told_cons, told_append])).fn (fun f => by rw [Decl.write])
  | block kw name column op ds cl semi =>
    rw [Decl.Ok] at h
    obtain ⟨h1, h2, h3, h4, h5, h6⟩ := h
    rw [Decl.Plain] at hp
    obtain ⟨p1, p2⟩ := hp
    simp only [Decl.nodes, List.forall_mem_cons, List.forall_mem_append] at hv
    obtain ⟨v1, v2, v3, v4, v5, v6⟩ := hv
    have hb : Keeps false (typeBody cfg op cl semi (match ds with
       | .nil => none
       | .cons .. => some (if column then columns cfg (Decls.writers cfg ds) else Decls.write cfg ds))) .free
        (op.told ++ told (Decls.nodes ds) ++ (cl.told ++ told semi.toList)) .idle := by
      refine keeps_typeBody h3 h5 h6 v3 v5 p2 ?_ ?_
      · intro e he
        cases ds with
        | nil => cases he
        | cons d ds =>
          obtain rfl := (Option.some.inj he).symm
          cases column with
          | true =>
            obtain ⟨tss, h7, h8⟩ := keep_decls _ h4 p1 v4
            rw [← h8]
            exact keeps_columns h7
          | false => exact keeps_decls _ h4 p1 v4
      · intro e
        cases ds with
        | nil => rw [Decls.nodes]; rfl
        | cons d ds => cases e
    have := (((keeps_kw (b := false) (cfg := cfg) h1 v1).comp (keeps_inlsDot h2 v2 (.inr rfl))).comp (keeps_space_free (by simp) (by simp))).comp hb
    refine (this.told (by rw [Decl.nodes]; simp [told_cons, told_append])).fn (fun f => ?_)
    cases ds <;> (simp only [Decl.write]; rfl)
  | group label kw name eq tag opts op ds cl semi =>
    rw [Decl.Ok] at h
    obtain ⟨h1, h2, h3, h4, h5, h6, h7, h8, h9, h10⟩ := h
    rw [Decl.Plain] at hp
    obtain ⟨p1, p2, p3⟩ := hp
    simp only [Decl.nodes, List.forall_mem_cons, List.forall_mem_append] at hv
    obtain ⟨v1, ⟨v2, v3, v4, v5, _⟩, v6, v7, v8, v9, v10⟩ := hv
    have hb : Keeps false (typeBody cfg op cl semi (match ds with | .nil => none | .cons .. => some (Decls.write cfg ds))) .free
        (op.told ++ told (Decls.nodes ds) ++ (cl.told ++ told semi.toList)) .idle := by
      refine keeps_typeBody h7 h9 h10 v7 v9 p3 ?_ ?_
      · intro e he
        cases ds with
        | nil => cases he
        | cons d ds =>
          obtain rfl := (Option.some.inj he).symm
          exact keeps_decls _ h8 p2 v8
      · intro e
        cases ds with
        | nil => rw [Decls.nodes]; rfl
        | cons d ds => cases e
    have := (keeps_groupHead (cfg := cfg) h1 h2 h3 h4 h5 h6 p1 v1 v2 v3 v4 v5 v6).comp hb
    refine (this.told (by rw [Decl.nodes]; simp [told_cons, told_nil, told_append])).fn (fun f => ?_)
    cases ds <;> simp only [Decl.write]
  | rpc kw name input ret output op ds cl semi =>
    rw [Decl.Ok] at h
    obtain ⟨h1, h2, h3, h4, h5, h6, h7, h8, h9, h10⟩ := h
    rw [Decl.Plain] at hp
    obtain ⟨p1, p2⟩ := hp
    simp only [Decl.nodes, List.forall_mem_cons, List.forall_mem_append] at hv
    obtain ⟨v1, v2, v3, v4, v5, v6, v7, v8, v9⟩ := hv
    have hg := ((((((keeps_kw (b := false) (cfg := cfg) h1 v1).comp (keeps_inl (k := .free) h2 v2 rfl (by simp) (by simp))).comp
      (keeps_rpcType h3 v3 rfl)).comp (keeps_space_free (by simp) (by simp))).comp (keeps_inl (k := .free) h4 v4 rfl (by simp) (by simp))).comp
      (keeps_space_free (by simp [after]) (by simp [after]))).comp (keeps_rpcType h5 v5 rfl)
    cases ds with
    | nil =>
      have := hg.comp (keeps_lineEnd (cfg := cfg) (k := .idle) (is_new (c := ';') (by decide)) (seen_new _) rfl (by simp) (by simp))
      have p2 : Silent? op ∧ Silent? cl ∧ Silent? semi := p2
      obtain ⟨q1, q2, q3⟩ := p2
      refine (this.told ?_).fn (fun f => ?_)
      · rw [Decl.nodes]; simp [Decls.nodes, told_cons, told_append, q1.told, q2.told, q3.told, (silent_new ';').told]
      · rw [Decl.write]
    | cons d ds =>
      rcases h10 with ⟨_, _, h10⟩ | ⟨x, y, rfl, rfl, _, _⟩
      · cases h10
      · have p2 : ∀ z, some y = some z → EndPlain z semi := p2
        have hb := keeps_typeBody (cfg := cfg) (h6 x rfl) (h8 y rfl) h9 (v6 x (by simp)) (v8 y (by simp)) (p2 y rfl)
          (elems := some (Decls.write cfg (.cons d ds)))
          (ts := told (Decls.nodes (.cons d ds))) (b := false) (fun e he => by
            obtain rfl := (Option.some.inj he).symm; exact keeps_decls _ h7 p1 v7) (by intro e; cases e)
        have := (hg.comp (keeps_space_free (by simp) (by simp))).comp hb
        refine (this.told ?_).fn (fun f => ?_)
        · conv => rhs; rw [Decl.nodes]
          simp [told_cons, told_append]
        · rw [Decl.write]
theorem keeps_decls (ds : Decls) (h : ds.Ok false) (hp : ds.Plain false) (hv : ∀ t ∈ ds.nodes, Seen t) :
    Keeps false (ds.write cfg) .idle (told ds.nodes) .idle := by
  cases ds with
  | nil => exact ((Keeps.id _).told (by rw [Decls.nodes]; rfl)).fn (fun f => by rw [Decls.write])
  | cons d ds =>
    rw [Decls.Ok] at h
    rw [Decls.Plain] at hp
    simp only [Decls.nodes, List.forall_mem_append] at hv
    have hne : ∀ x, d ≠ .enumValue x := by rintro x rfl; rw [Decl.Ok] at h; exact absurd h.1.1 (by simp)
    exact (((keeps_decl d h.1 hne hp.1 hv.1).comp (keeps_decls ds h.2 hp.2 hv.2)).told (by rw [Decls.nodes, told_append])).fn
      (fun f => by rw [Decls.write])
theorem keep_decls {column : Bool} (ds : Decls) (h : ds.Ok column) (hp : ds.Plain true) (hv : ∀ t ∈ ds.nodes, Seen t) :
    ∃ tss, List.Forall₂ (fun (p : Elem × Writer) ts => WriterKeep false p.1 p.2 ts) (ds.writers cfg) tss ∧ tss.flatten = told ds.nodes := by
  cases ds with
  | nil => exact ⟨[], by rw [Decls.writers]; exact .nil, by rw [Decls.nodes]; rfl⟩
  | cons d ds =>
    rw [Decls.Ok] at h
    rw [Decls.Plain] at hp
    simp only [Decls.nodes, List.forall_mem_append] at hv
    obtain ⟨tss, h1, h2⟩ := keep_decls ds h.2 hp.2 hv.2
    refine ⟨told d.nodes :: tss, ?_, by rw [List.flatten_cons, h2, Decls.nodes, told_append]⟩
    have hd := h.1
    have hpd := hp.1
    have hvd := hv.1
    cases d with
    | option o =>
      rw [Decl.Ok] at hd
      rw [Decl.Plain, if_pos rfl] at hpd
      rw [Decls.writers.eq_def]
      rw [Decl.nodes] at hvd ⊢
      exact .cons ⟨by simp [Opt.elem], Keeps.id _, cellsKeep_opt hd.1 hd.2 hpd hvd⟩ h1
    | field x =>
      rw [Decl.Ok] at hd
      rw [Decl.Plain] at hpd
      rw [Decls.writers.eq_def]
      rw [Decl.nodes] at hvd ⊢
      exact .cons (keep_fieldDecl hd hpd hvd) h1
    | mapField x =>
      rw [Decl.Ok] at hd
      rw [Decl.Plain] at hpd
      rw [Decls.writers.eq_def]
      rw [Decl.nodes] at hvd ⊢
      exact .cons ⟨by simp [MapDecl.elem], keeps_mapComments hpd.2, cellsKeep_map hd hpd.1 hpd.2 hvd⟩ h1
    | enumValue x =>
      rw [Decl.Ok] at hd
      rw [Decl.Plain] at hpd
      rw [Decls.writers.eq_def]
      rw [Decl.nodes] at hvd ⊢
      exact .cons ⟨by simp [EnumVal.elem], Keeps.id _, cellsKeep_enum hd.2 hpd.1 hpd.2 hvd⟩ h1
    | empty t =>
      rw [Decls.writers.eq_def]
      exact .cons ⟨rfl, keeps_decl _ hd (by intro x e; cases e) (by rw [Decl.Plain] at hpd ⊢; exact hpd) hvd⟩ h1
    | extensions kw es opts semi =>
      rw [Decls.writers.eq_def]
      exact .cons ⟨rfl, keeps_decl _ hd (by intro x e; cases e) (by rw [Decl.Plain] at hpd ⊢; exact hpd) hvd⟩ h1
    | reserved kw es semi =>
      rw [Decls.writers.eq_def]
      exact .cons ⟨rfl, keeps_decl _ hd (by intro x e; cases e) (by rw [Decl.Plain] at hpd ⊢; exact hpd) hvd⟩ h1
    | block kw name column op ds cl semi =>
      rw [Decls.writers.eq_def]
      exact .cons ⟨rfl, keeps_decl _ hd (by intro x e; cases e) (by rw [Decl.Plain] at hpd ⊢; exact hpd) hvd⟩ h1
    | group label kw name eq tag opts op ds cl semi =>
      rw [Decls.writers.eq_def]
      exact .cons ⟨rfl, keeps_decl _ hd (by intro x e; cases e) (by rw [Decl.Plain] at hpd ⊢; exact hpd) hvd⟩ h1
    | rpc kw name input ret output op ds cl semi =>
      rw [Decls.writers.eq_def]
      exact .cons ⟨rfl, keeps_decl _ hd (by intro x e; cases e) (by rw [Decl.Plain] at hpd ⊢; exact hpd) hvd⟩ h1
end

/-! ### Files -/

theorem keeps_separate (t : Tok) : Keeps b (separate t) .idle [] .idle := by
  intro f hf
  unfold separate
  split
  · exact keeps_newline (by simp) f hf
  · rw [List.append_nil]; exact ⟨hf, rfl⟩

theorem keeps_import {i : Import} (h : ImportOk i) (hp : i.name.Plain) (hv : ∀ t ∈ i.nodes, Seen t) (force : Bool) :
    Keeps b (i.write cfg force) .idle (told i.nodes) .idle := by
  simp only [Import.nodes, List.forall_mem_cons, List.forall_mem_append] at hv
  obtain ⟨v1, v2, v3, v4⟩ := hv
  have hm : Keeps b (fun g => match i.modifier with | some m => space (inl m g) | none => g) .free (told i.modifier.toList) .free := by
    cases hm : i.modifier with
    | none => exact Keeps.id _
    | some m =>
      exact ((keeps_inl (k := .free) (h.modifier m hm) (seen_some v2 hm) rfl (by simp) (by simp)).comp
        (keeps_space_free (by simp [after]) (by simp [after]))).told (by simp [told_one])
  have := ((((keeps_startMaybe (b := b) (cfg := cfg) (k := .idle) h.kw v1 rfl (by simp) (by simp) force).comp
    (keeps_space_free (by simp [after]) (by simp [after]))).comp hm).comp (keeps_valueInl (cfg := cfg) h.name hp v3)).comp
    (keeps_end (cfg := cfg) h.semi v4 rfl)
  refine (this.told ?_).fn (fun f => rfl)
  unfold Import.nodes; simp [told_cons, told_append]

theorem told_silent {ts : List Tok} (h : ∀ t ∈ ts, Silent t) : told ts = [] := by
  induction ts with
  | nil => rfl
  | cons t ts ih =>
    rw [told_cons, (h t List.mem_cons_self).told, ih (fun x hx => h x (List.mem_cons_of_mem _ hx))]; rfl

theorem keeps_importsRest (is : List Import) (h : ∀ i ∈ is, ImportOk i)
    (hp : ∀ i ∈ is, i.name.Plain ∧ (i.commented = false → ∀ t ∈ i.nodes, Silent t)) (hv : ∀ t ∈ is.flatMap Import.nodes, Seen t) (path : Str) :
    Keeps b (importsRest cfg path is) .idle (told (is.flatMap Import.nodes)) .idle := by
  induction is generalizing path with
  | nil => exact (Keeps.id _).fn (fun f => rfl)
  | cons i is ih =>
    have hi := h i List.mem_cons_self
    obtain ⟨p1, p2⟩ := hp i List.mem_cons_self
    simp only [List.flatMap_cons, List.forall_mem_append] at hv
    have ih := ih (fun x hx => h x (List.mem_cons_of_mem _ hx)) (fun x hx => hp x (List.mem_cons_of_mem _ hx)) hv.2 i.path
    rw [List.flatMap_cons, told_append]
    by_cases hc : i.path = path ∧ i.commented = false
    · rw [told_silent (p2 hc.2)]
      refine ih.fn (fun f => ?_)
      conv => lhs; rw [importsRest, if_pos hc]
    · refine ((keeps_import (cfg := cfg) hi p1 hv.1 true).comp ih).fn (fun f => ?_)
      conv => lhs; rw [importsRest, if_neg hc]

theorem keeps_imports (is : List Import) (h : ∀ i ∈ is, ImportOk i)
    (hp : ∀ i ∈ is, i.name.Plain ∧ (i.commented = false → ∀ t ∈ i.nodes, Silent t)) (hv : ∀ t ∈ is.flatMap Import.nodes, Seen t) :
    Keeps b (importsWrite cfg is) .idle (told (is.flatMap Import.nodes)) .idle := by
  cases is with
  | nil => exact (Keeps.id _).fn (fun f => rfl)
  | cons i is =>
    simp only [List.flatMap_cons, List.forall_mem_append] at hv
    have := ((keeps_separate (b := b) i.kw).comp (keeps_import (cfg := cfg) (h i List.mem_cons_self) (hp i List.mem_cons_self).1 hv.1 false)).comp
      (keeps_importsRest (cfg := cfg) is (fun x hx => h x (List.mem_cons_of_mem _ hx)) (fun x hx => hp x (List.mem_cons_of_mem _ hx)) hv.2 i.path)
    exact (this.told (by simp [told_append])).fn (fun f => rfl)

theorem keeps_fileOptions (os : List Opt) (h : ∀ o ∈ os, OptOk o ∧ o.semi.isSome = true) (hp : ∀ o ∈ os, o.Plain .column)
    (hv : ∀ t ∈ os.flatMap Opt.nodes, Seen t) : Keeps false (fileOptions cfg os) .idle (told (os.flatMap Opt.nodes)) .idle := by
  cases os with
  | nil => exact (Keeps.id _).fn (fun f => rfl)
  | cons o os =>
    obtain ⟨tss, h1, h2⟩ := keep_fileOpts (cfg := cfg) (o :: os) h hp hv
    have := (keeps_separate (b := false) o.first).comp (keeps_columns (cfg := cfg) h1)
    exact (this.told (by rw [h2]; rfl)).fn (fun f => rfl)

theorem keeps_type {d : Decl} (h : d.Ok false) (hp : d.Plain false) (hv : ∀ t ∈ d.nodes, Seen t) :
    Keeps false (typeWrite cfg d) .idle (told d.nodes) .idle := by
  by_cases he : ∃ t, d = .empty t
  · obtain ⟨t, rfl⟩ := he
    rw [Decl.Plain] at hp
    exact ((Keeps.id _).told (by rw [Decl.nodes, told_one, hp.told])).fn (fun f => rfl)
  · have hne : ∀ x, d ≠ .enumValue x := by rintro x rfl; rw [Decl.Ok] at h; exact absurd h.1 (by simp)
    have := (keeps_separate (b := false) d.first).comp (keeps_decl (cfg := cfg) d h hne hp hv)
    refine (this.told (by simp)).fn (fun f => ?_)
    cases d <;> first | rfl | exact absurd ⟨_, rfl⟩ he

theorem keeps_file {x : File} (h : FileOk x) (hp : x.Plain) : Keeps false (x.write cfg) .idle x.told .idle := by
  have hv := hp.seen
  simp only [File.nodes, List.forall_mem_append] at hv
  obtain ⟨v1, v2, v3, v4, v5⟩ := hv
  have h1 : Keeps false (fun f => match x.syntax with | some s => s.write cfg f | none => f) .idle
      (told ((x.syntax.map Syntax.nodes).getD [])) .idle := by
    cases hs : x.syntax with
    | none => exact Keeps.id _
    | some s =>
      have hok := h.syntax s hs
      rw [hs] at v1
      simp only [Option.map_some, Option.getD_some, Syntax.nodes, List.forall_mem_cons, List.forall_mem_append] at v1
      obtain ⟨w1, w2, w3, w4⟩ := v1
      have := ((((keeps_kw (b := false) (cfg := cfg) hok.kw w1).comp (keeps_inl_hard hok.eq w2 rfl)).comp (keeps_space_free (by simp) (by simp))).comp
        (keeps_valueInl (cfg := cfg) hok.val (hp.syntax s hs) w3)).comp (keeps_end (cfg := cfg) hok.semi w4 rfl)
      refine (this.told ?_).fn (fun f => rfl)
      simp [Syntax.nodes, told_cons, told_append]
  have h2 : Keeps false (fun f => match x.package with | some p => p.write cfg f | none => f) .idle
      (told ((x.package.map Package.nodes).getD [])) .idle := by
    cases hs : x.package with
    | none => exact Keeps.id _
    | some p =>
      have hok := h.package p hs
      rw [hs] at v2
      simp only [Option.map_some, Option.getD_some, Package.nodes, List.forall_mem_cons, List.forall_mem_append] at v2
      obtain ⟨w1, w2, w3⟩ := v2
      have hn : Keeps false (inlName (p.name.getD [])) .free (told (p.name.getD [])) .any := by
        cases hn : p.name with
        | none => exact ((Keeps.id .free).mono rfl rfl).fn (fun f => rfl)
        | some n =>
          rw [hn] at w2
          exact ((keeps_inls (k := .free) (hok.name n hn) w2 rfl (by simp)).mono (k0 := .free) (k1 := .any) rfl rfl)
      have := ((keeps_kw (b := false) (cfg := cfg) hok.kw w1).comp hn).comp (keeps_end (cfg := cfg) hok.semi w3 rfl)
      refine (this.told ?_).fn (fun f => rfl)
      simp [Package.nodes, told_cons, told_append]
  have h3 := ((h1.comp h2).comp (keeps_imports (cfg := cfg) x.imports h.imports hp.imports v3)).comp
    (keeps_fileOptions (cfg := cfg) x.options h.options hp.options v4)
  have h4 := keeps_foldl (b := false) (fun f d => typeWrite cfg d f) (fun d => told d.nodes) x.decls (fun d hd =>
    keeps_type (h.decls d hd) (hp.decls d hd) (fun t ht => v5 t (List.mem_flatMap.2 ⟨d, hd, ht⟩)))
  have h5 := (h3.comp h4).comp (keeps_multiline (cfg := cfg) rfl h.eof false)
  have h6 : ∀ (g : F → F) cs, Keeps false g .idle cs .idle →
      Keeps false (fun f => if (g f).w.last ≠ '\x00' ∧ (g f).w.last ≠ '\n' then newline (g f) else g f) .idle cs .idle := by
    intro g cs hg f hf
    beta_reduce
    split
    · obtain ⟨a1, a2⟩ := hg f hf
      obtain ⟨b1, b2⟩ := keeps_newline (b := false) (k := .idle) (by simp) _ a1
      exact ⟨b1, by rw [b2, a2, List.append_nil]⟩
    · exact hg f hf
  refine ((h6 _ _ h5).told ?_).fn (fun f => rfl)
  have e : ∀ ds : List Decl, ds.flatMap (fun d => told d.nodes) = told (ds.flatMap Decl.nodes) := by
    intro ds
    induction ds with
    | nil => rfl
    | cons d ds ih => rw [List.flatMap_cons, List.flatMap_cons, told_append, ih]
  unfold File.told File.nodes
  rw [e]
  simp [told_append]

end Verif.Formatter
