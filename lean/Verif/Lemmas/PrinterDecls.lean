import Verif.Lemmas.PrinterOpts
/-! The declarations that the descriptor printer writes. -/
namespace Verif.Printer
open Verif.Lexer Verif.PrintWriter Verif.Decls Verif.Literal

variable {c : Cfg} {si : SI}

/-! ### Fields -/

/-- How a message is printed, and what it means. -/
structure KidOk (k : Kid) (m : KidMeans) : Prop where
  name : k.name = m.name
  ident : Ident k.name
  body : ∀ path ind, 2 ≤ path.length → ∃ ds, m.body ds ∧ Emits (k.body path ind) .idle (Decl.toksAll ds) .idle

theorem ScOk.snoc {pk sc : QName} (h : ScOk pk sc) {n : Str} (hn : Ident n) : ScOk pk (sc ++ [n]) := by
  refine ⟨h.idp, ?_, h.pre.trans (List.prefix_append _ _)⟩
  intro s hs
  rcases List.mem_append.1 hs with hs | hs
  · exact h.ids s hs
  · rw [List.mem_singleton] at hs; subst hs; exact hn

theorem scalar_text (k : Scalar) : k.text = k.keyword.toList := by cases k <;> rfl

theorem scalar_ident (k : Scalar) : Ident k.keyword.toList := by cases k <;> exact ident_kw (by decide)

theorem vtype_ref {pk sc : QName} (hs : ScOk pk sc) {t : VType} (h : t.Ok) : ∃ r : Ref, t.text c pk sc = refText r ∧ RefOk r ∧ t.Means sc r := by
  match t, h with
  | .scalar k, _ =>
    refine ⟨⟨false, [k.keyword.toList]⟩, ?_, ⟨by simp, ?_⟩, rfl⟩
    · simp only [VType.text, scalar_text]; rfl
    · intro s hs
      rw [List.mem_singleton] at hs
      subst hs; exact scalar_ident k
  | .enum q, h => exact qual_type hs.idp hs.ids hs.pre h
  | .message q, h => exact qual_type hs.idp hs.ids hs.pre h

theorem Txt.mapType {k : Scalar} {r : Ref} (h : RefOk r) :
    Txt (kw "map<" ++ k.text ++ [',', ' '] ++ refText r ++ ['>']) (DType.map k.keyword.toList r).toks := by
  have h1 : Lx .idle (['m', 'a', 'p'] ++ ['<']) ([['m', 'a', 'p']] ++ [['<']]) .idle :=
    (Txt.ident (s := ['m', 'a', 'p']) (by simp [Ident]; decide)).lx_punct (by decide)
  have h2 := (Txt.ident (scalar_ident k)).lx_punct (c := ',') (by decide)
  have h3 := (Txt.ref h).lx_punct (c := '>') (by decide)
  have hx := ((h1.append h2).append (Lx.space (m := .idle) trivial)).append h3
  have e : kw "map<" ++ k.text ++ [',', ' '] ++ refText r ++ ['>'] = 'm' :: (['a', 'p', '<'] ++ k.text ++ [',', ' '] ++ refText r) ++ ['>'] := by
    simp [kw]
  rw [e]
  refine Txt.bracket ((hx.toks (by simp [DType.toks])).text ?_) (by decide) (by decide)
  rw [scalar_text]; simp

/-- The label of a field. -/
theorem emits_label (e : Env c si) {n : Nat} {f : Field} (h : f.Ok n) (path : Path) (ind : Int) : ∃ l, LabelMeans f l ∧
    Emits (fun w => if shouldEmitLabel f then elementString c (si.get path) ind (labelText f ++ [' ']) w else w) .idle (labelToks l) .sep := by
  have hput : ∀ (s : String) (hk : (match s.toList with | [] => false | x :: t => letter x && t.all (fun d => letter d || digit d)) = true),
      Emits (elementString c (si.get path) ind (s.toList ++ [' '])) .idle [s.toList] .sep := fun s hk =>
    emits_elementString e.indent (e.loc _) ind (emits_kw s hk (by simp))
  have hnone : Emits (elementString c (si.get path) ind ([] ++ [' '])) .idle [] .sep :=
    emits_elementString e.indent (e.loc _) ind (Emits.put_space .idle)
  refine ⟨_, rfl, ?_⟩
  by_cases hmap : ∃ k v i, f.type = .map k v i
  · obtain ⟨k, v, i, hm⟩ := hmap
    have : shouldEmitLabel f = false := by
      unfold shouldEmitLabel
      rw [h.map k v i hm, hm]; rfl
    simp only [this, hm, labelToks]
    exact (Emits.id .idle).to
  · have hlab : f.card ≠ .optional → shouldEmitLabel f = true := by
      intro hc
      have ho : f.oneof = none := h.card hc
      unfold shouldEmitLabel
      cases ht : f.type with
      | map k v i => exact absurd ⟨k, v, i, ht⟩ hmap
      | _ => simp [ho, hc]
    cases hc : f.card with
    | repeated =>
      have : shouldEmitLabel f = true := hlab (by rw [hc]; simp)
      have hl : labelText f = "repeated".toList := by unfold labelText; rw [hc]; rfl
      simp only [this, hl, if_true]
      have := hput "repeated" (by decide)
      cases ht : f.type with
      | map k v i => exact absurd ⟨k, v, i, ht⟩ hmap
      | _ => exact this
    | required =>
      have : shouldEmitLabel f = true := hlab (by rw [hc]; simp)
      have hl : labelText f = "required".toList := by unfold labelText; rw [hc]; rfl
      simp only [this, hl, if_true]
      have := hput "required" (by decide)
      cases ht : f.type with
      | map k v i => exact absurd ⟨k, v, i, ht⟩ hmap
      | _ => exact this
    | optional =>
      cases hk : f.optionalKeyword with
      | true =>
        have : shouldEmitLabel f = true := by unfold shouldEmitLabel; rw [hk]; simp
        have hl : labelText f = "optional".toList := by unfold labelText; rw [hc, hk]; rfl
        simp only [this, hl, if_true]
        have := hput "optional" (by decide)
        cases ht : f.type with
        | map k v i => exact absurd ⟨k, v, i, ht⟩ hmap
        | _ => exact this
      | false =>
        have hl : labelText f = [] := by unfold labelText; rw [hc, hk]; rfl
        have : Emits (fun w => if shouldEmitLabel f then elementString c (si.get path) ind (labelText f ++ [' ']) w else w) .idle [] .sep := by
          rw [hl]
          cases shouldEmitLabel f
          · exact (Emits.id .idle).to
          · exact hnone
        cases ht : f.type with
        | map k v i => exact absurd ⟨k, v, i, ht⟩ hmap
        | _ => exact this

theorem fieldOpts_eq (isExt : Bool) {n : Nat} {f : Field} (h : f.Ok n) : fieldOpts isExt f = f.allOpts isExt := by
  unfold fieldOpts Field.allOpts
  congr 1
  · congr 1
    cases hd : f.default with
    | none => rfl
    | some v =>
      cases hp : f.proto3 with
      | false => rfl
      | true => have := h.proto3 hp; rw [hd] at this; cases this
  · cases f.jsonName <;> cases isExt <;> rfl

theorem ident_json : Ident "json_name".toList := ident_kw (by decide)
theorem ident_default : Ident "default".toList := ident_kw (by decide)

theorem allOpts_ok (isExt : Bool) {n : Nat} {f : Field} (h : f.Ok n) : (f.allOpts isExt).Ok := by
  have hd : ∀ g ∈ (match f.default with | some v => [((-7 : Int), [(⟨.plain "default".toList, some (.scalar v)⟩ : Opt)])] | none => [] : Opts),
      g.1 = -7 ∧ g.2 ≠ [] ∧ ∀ o ∈ g.2, o.Ok := by
    intro g hg
    cases hf : f.default with
    | none => rw [hf] at hg; cases hg
    | some v =>
      rw [hf] at hg
      rw [List.mem_singleton] at hg
      subst hg
      refine ⟨rfl, by simp, fun o ho => ?_⟩
      rw [List.mem_singleton] at ho
      subst ho
      exact ⟨ident_default, _, rfl, h.default v hf⟩
  have hj : ∀ g ∈ (match f.jsonName, isExt with
      | some j, false => [((-10 : Int), [(⟨.plain "json_name".toList, some (.scalar (.str j))⟩ : Opt)])] | _, _ => [] : Opts),
      g.1 = -10 ∧ g.2 ≠ [] ∧ ∀ o ∈ g.2, o.Ok := by
    intro g hg
    cases hf : f.jsonName with
    | none => rw [hf] at hg; cases hg
    | some j =>
      cases isExt with
      | true => rw [hf] at hg; cases hg
      | false =>
        rw [hf] at hg
        rw [List.mem_singleton] at hg
        subst hg
        refine ⟨rfl, by simp, fun o ho => ?_⟩
        rw [List.mem_singleton] at ho
        subst ho
        exact ⟨ident_json, _, rfl, h.json j hf⟩
  constructor
  · intro g hg
    unfold Field.allOpts at hg
    rcases List.mem_append.1 hg with hg | hg
    · rcases List.mem_append.1 hg with hg | hg
      · exact h.opts.each g hg
      · exact (hd g hg).2
    · exact (hj g hg).2
  · unfold Field.allOpts
    rw [List.map_append, List.map_append]
    have h1 := h.opts.distinct
    have hn1 : ∀ x ∈ (f.opts.map Prod.fst), 0 < x := by
      intro x hx
      obtain ⟨g, hg, rfl⟩ := List.mem_map.1 hx
      exact h.tags g hg
    cases hf : f.default <;> cases hf2 : f.jsonName <;> cases isExt <;>
      simp [List.nodup_append, h1] <;> (try constructor) <;> intro a b hb <;> have := hn1 a (List.mem_map.2 ⟨(a, b), hb, rfl⟩) <;> omega

theorem emits_open : ∀ k, Emits (put ['{', '\n']) k [['{']] .idle := fun k =>
  Emits.put_idle (((Lx.punct (m := .idle) trivial (c := '{') (by decide)).append (Lx.newline (m := .idle) trivial)).toks (by simp))
    (by simp) (by simp) (.inl ⟨'{', ['\n'], rfl, by decide⟩)

theorem emits_close : ∀ k, Emits (put ['}', '\n']) k [['}']] .idle := fun k =>
  Emits.put_idle (((Lx.punct (m := .idle) trivial (c := '}') (by decide)).append (Lx.newline (m := .idle) trivial)).toks (by simp))
    (by simp) (by simp) (.inl ⟨'}', ['\n'], rfl, by decide⟩)

theorem emits_semi (k : K) : Emits (put [';']) k [[';']] .idle := emits_put_punct (by decide) (by decide) k

theorem emits_semiLine : ∀ k, Emits (put [';', '\n']) k [[';']] .idle := fun k =>
  Emits.put_idle (((Lx.punct (m := .idle) trivial (c := ';') (by decide)).append (Lx.newline (m := .idle) trivial)).toks (by simp))
    (by simp) (by simp) (.inl ⟨';', ['\n'], rfl, by decide⟩)

theorem emits_eq : Emits (put ['=', ' ']) .sep [['=']] .sep :=
  Emits.put_sep (q := ['=']) (Lx.punct (m := .idle) trivial (by decide)) (by simp) (by simp) trivial (.inl ⟨'=', [], rfl, by decide⟩)

theorem emits_numberText (e : Env c si) (n : Nat) (path : Path) (ind : Int) :
    Emits (elementString c (si.get path) ind (dec n ++ [' '])) .sep [dec n] .sep :=
  emits_elementString e.indent (e.loc _) ind ((Txt.number (number_dec n)).emits_sep (by simp))

theorem emits_name (e : Env c si) {s : Str} (h : Ident s) (path : Path) (ind : Int) :
    Emits (elementString c (si.get path) ind (s ++ [' '])) .sep [s] .sep :=
  emits_elementString e.indent (e.loc _) ind ((Txt.ident h).emits_sep (by simp))

theorem forall2_get {α β : Type*} {R : α → β → Prop} {xs : List α} {ys : List β} (h : List.Forall₂ R xs ys) {i : Nat} (hi : i < xs.length) :
    ∃ x y, xs[i]? = some x ∧ ys[i]? = some y ∧ R x y := by
  induction h generalizing i with
  | nil => cases hi
  | cons hr _ ih =>
    cases i with
    | zero => exact ⟨_, _, rfl, rfl, hr⟩
    | succ i => simpa using ih (by simpa using hi)

/-- The group message or map entry or type of a field, and its name. -/
theorem emits_typeText {pk sc : QName} (hs : ScOk pk sc) {t : VType} (h : t.Ok) :
    ∃ r, t.Means sc r ∧ Txt (t.text c pk sc) r.toks ∧ RefOk r ∧ t.text c pk sc = refText r := by
  obtain ⟨r, h1, h2, h3⟩ := vtype_ref (c := c) hs h
  exact ⟨r, h3, h1 ▸ Txt.ref h2, h2, h1⟩

theorem emits_printField (e : Env c si) {pk sc : QName} (hs : ScOk pk sc) {kids : List Kid} {ms : List KidMeans}
    (hk : List.Forall₂ KidOk kids ms) (msgTag : Int) (isExt : Bool) {f : Field} (h : f.Ok kids.length) (path : Path) (ind : Int) :
    ∃ d, f.Means pk sc ms isExt d ∧ d.inOneof = true ∧ asField d = [d] ∧
      Emits (printField c si pk sc kids msgTag isExt f path ind) .idle d.toks .idle := by
  obtain ⟨l, hl, el⟩ := emits_label e h (path ++ [4]) ind
  obtain ⟨os, ho, eo⟩ := emits_optionsShort e (a := ⟨pk, sc ++ [f.name], false⟩) (hs.snoc h.name) (allOpts_ok isExt h) 8 path ind
  rw [← fieldOpts_eq isExt h] at eo
  have enum := emits_numberText e f.number (path ++ [3]) ind
  have ename := emits_name e h.name (path ++ [1]) ind
  have hty := h.type
  -- fields that are not groups
  have plain : ∀ (t : DType) (text : Str), f.group? = none → f.type.text c pk sc (kids.map Kid.name) = text → Txt text t.toks →
      Emits (printField c si pk sc kids msgTag isExt f path ind) .idle (Decl.field l t f.name f.number os).toks .idle := by
    intro t text hg ht htxt
    unfold printField
    simp only [hg, Option.isSome_none, Bool.false_eq_true, if_false]
    refine emits_blockElement e.indent (e.loc _) ind (fun trail htr => ?_)
    have et : Emits (elementString c (si.get (path ++ [5])) ind (f.type.text c pk sc (kids.map Kid.name) ++ [' '])) .sep t.toks .sep := by
      rw [ht]
      exact emits_elementString e.indent (e.loc _) ind (htxt.emits_sep (by simp))
    have := ((((((((emits_indentW e.indent ind .idle).comp el).comp et).comp ename).comp emits_eq).comp enum).comp eo).comp
      (emits_semi .sep)).comp (htr ind false .idle)
    exact this.toks (by simp [Decl.toks, Decls.eq, semi])
  cases ht : f.type with
  | plain t =>
    rw [ht] at hty
    obtain ⟨r, h1, h2, _⟩ := emits_typeText (c := c) hs (t := t) hty
    refine ⟨.field l (.ref r) f.name f.number os, ⟨l, os, hl, ho, ?_⟩, rfl, rfl, plain _ _ (by unfold Field.group?; rw [ht]) (by rw [ht]; rfl) h2⟩
    rw [ht]
    exact ⟨r, rfl, h1⟩
  | map k v i =>
    rw [ht] at hty
    obtain ⟨r, h1, _, h3, h4⟩ := emits_typeText (c := c) hs (t := v) hty
    refine ⟨.field l (.map k.keyword.toList r) f.name f.number os, ⟨l, os, hl, ho, ?_⟩, rfl, rfl,
      plain _ _ (by unfold Field.group?; rw [ht]) rfl ?_⟩
    · rw [ht]; exact ⟨r, rfl, h1⟩
    · rw [ht]
      show Txt (kw "map<" ++ k.text ++ [',', ' '] ++ v.text c pk sc ++ ['>']) _
      rw [h4]
      exact Txt.mapType h3
  | group i =>
    rw [ht] at hty
    obtain ⟨k, m, hk1, hk2, hkm⟩ := forall2_get hk (i := i) hty
    have hg : f.group? = some i := by unfold Field.group?; rw [ht]
    obtain ⟨body, hb, eb⟩ := hkm.body (path.take (path.length - 2) ++ [msgTag, (i : Int)]) (ind + 1) (by simp)
    refine ⟨.group l m.name f.number os body, ⟨l, os, hl, ho, ?_⟩, rfl, rfl, ?_⟩
    · rw [ht]; exact ⟨m, body, hk2, rfl, hb⟩
    · unfold printField
      simp only [hg, Option.isSome_some, if_true, hk1]
      refine emits_blockElement e.indent (e.loc _) ind (fun trail htr => ?_)
      have hn : f.type.text c pk sc (kids.map Kid.name) = k.name := by
        rw [ht]
        show (kids.map Kid.name).getD i [] = k.name
        rw [List.getD_eq_getElem?_getD, List.getElem?_map, hk1]; rfl
      have et : Emits (elementString c (si.get (path ++ [5])) ind (f.type.text c pk sc (kids.map Kid.name) ++ [' '])) .sep [m.name] .sep := by
        rw [hn, ← hkm.name]
        exact emits_elementString e.indent (e.loc _) ind ((Txt.ident hkm.ident).emits_sep (by simp))
      have eg := emits_kw "group" (by decide) (k := .sep) (by simp)
      have := ((((((((((emits_indentW e.indent ind .idle).comp el).comp eg).comp et).comp emits_eq).comp enum).comp eo).comp
        (emits_open .sep)).comp (htr (ind + 1) true .idle)).comp eb).comp
          ((emits_indentW e.indent ind .idle).comp (emits_close .idle))
      exact this.toks (by simp [Decl.toks, Decls.eq])

/-! ### Enum values, ranges, and names -/

theorem emits_printEnumValue (e : Env c si) {pk sc : QName} (hs : ScOk pk sc) {v : EnumValue} (h : v.Ok) (path : Path) (ind : Int) :
    ∃ d, v.Means pk sc d ∧ d.inEnum = true ∧ asValue d = [d] ∧
      Emits (printEnumValue c si pk sc v path ind) .idle d.toks .idle := by
  obtain ⟨os, ho, eo⟩ := emits_optionsShort e (a := ⟨pk, sc ++ [v.name], false⟩) (hs.snoc h.name) h.opts 3 path ind
  refine ⟨.value v.name v.number os, ⟨os, rfl, ho⟩, rfl, rfl, ?_⟩
  have ename := (emits_name e h.name (path ++ [1]) ind).fromIdle
  have enum : Emits (elementString c (si.get (path ++ [2])) ind (Ranges.showInt v.number ++ [' '])) .sep (intToks v.number) .sep :=
    emits_elementString e.indent (e.loc _) ind ((Txt.int _).emits_sep (by simp))
  unfold printEnumValue
  refine emits_element e.indent (e.loc _) true ind ?_
  have := (((((emits_indentW e.indent ind .idle).comp ename).comp emits_eq).comp enum).comp eo).comp (emits_semi .sep)
  exact this.toks (by simp [Decl.toks, Decls.eq, semi])

theorem emits_comma : Emits (put [',', ' ']) .sep [[',']] .sep :=
  Emits.put_sep (q := [',']) (Lx.punct (m := .idle) trivial (by decide)) (by simp) (by simp) trivial (.inl ⟨',', [], rfl, by decide⟩)

/-- Items with commas between them. -/
theorem emits_items {α β : Type*} {print : α → W → W} {R : α → β → Prop} {toks : β → List Str} (xs : List α)
    (h : ∀ x ∈ xs, ∃ y, R x y ∧ Emits (print x) .sep (toks y) .sep) :
    ∃ ys, List.Forall₂ R xs ys ∧ ∀ first, Emits (items print first xs) .sep
      (if first || xs.isEmpty then commas (ys.map toks) else [','] :: commas (ys.map toks)) .sep := by
  induction xs with
  | nil => exact ⟨[], .nil, fun first => by cases first <;> exact Emits.id _⟩
  | cons x xs ih =>
    obtain ⟨y, h1, h2⟩ := h x List.mem_cons_self
    obtain ⟨ys, h3, h4⟩ := ih (fun z hz => h z (List.mem_cons_of_mem _ hz))
    refine ⟨y :: ys, .cons h1 h3, fun first => ?_⟩
    have hrest : toks y ++ (if false || xs.isEmpty then commas (ys.map toks) else [','] :: commas (ys.map toks))
        = commas ((y :: ys).map toks) := by
      cases h3 with
      | nil => simp [commas]
      | cons _ _ => rfl
    cases first
    · exact ((emits_comma.comp h2).comp (h4 false)).toks (by rw [← hrest]; simp)
    · exact (h2.comp (h4 false)).toks (by rw [← hrest]; simp)

theorem Txt.rangeTo (lo : Int) {s : Str} {ts : List Str} (h : Txt s ts) :
    Txt (Ranges.showInt lo ++ Ranges.kwTo ++ s) (intToks lo ++ [['t', 'o']] ++ ts) := by
  obtain ⟨m1, h1, hc1⟩ := (Txt.int lo).lex
  obtain ⟨m2, h2, hc2⟩ := h.lex
  have hto := Lx.ident (s := ['t', 'o']) (by simp [Ident]; decide)
  have := (((h1.append (Lx.space hc1)).append hto).append (Lx.space (m := .ident ['t', 'o']) trivial)).append h2
  have hlo := Txt.int lo
  refine ⟨⟨m2, (this.toks (by simp)).text (by simp [Ranges.kwTo]), hc2⟩, by simp [hlo.ne], ?_, ?_⟩
  · rw [List.getLast?_append]
    cases hl : s.getLast? with
    | none => exact absurd (List.getLast?_eq_none_iff.1 hl) h.ne
    | some x => have := h.last; rw [hl] at this; simpa using this
  · obtain ⟨x, r, hx⟩ := List.exists_cons_of_ne_nil hlo.ne
    have := hlo.head
    rw [hx] at this ⊢
    simpa using this

theorem Txt.max : Txt Ranges.kwMax [['m', 'a', 'x']] := Txt.ident (by simp [Ident, Ranges.kwMax]; decide)

/-- A reserved or extension range of a message. -/
theorem txt_range (messageSet : Bool) {r : Ranges.Range} (h : r.start < r.stop) : ∃ d, RangeMeans messageSet r d ∧
    Txt (Ranges.extensionItem (Ranges.getMaxTag messageSet) r) d.toks ∧ Txt (Ranges.reservedItem (Ranges.getMaxTag messageSet) r) d.toks := by
  have hne : ¬ r.start = r.stop := by omega
  have hres : Ranges.reservedItem (Ranges.getMaxTag messageSet) r = Ranges.extensionItem (Ranges.getMaxTag messageSet) r := by
    unfold Ranges.reservedItem Ranges.extensionItem
    simp [hne]
  rw [hres]
  have hmax : Ranges.getMaxTag messageSet = maxNumber messageSet := by cases messageSet <;> rfl
  unfold Ranges.extensionItem
  split
  · rename_i h1
    exact ⟨⟨r.start, .same⟩, by unfold RangeMeans Decls.Range.value; simp [h1], by simpa [Decls.Range.toks] using Txt.int r.start,
      by simpa [Decls.Range.toks] using Txt.int r.start⟩
  · split
    · rename_i h1
      have ht := Txt.rangeTo r.start Txt.max
      refine ⟨⟨r.start, .max⟩, by unfold RangeMeans Decls.Range.value; simp [h1, hmax], ?_, ?_⟩ <;> exact ht.toks (by simp [Decls.Range.toks])
    · have ht := Txt.rangeTo r.start (Txt.int (r.stop - 1))
      refine ⟨⟨r.start, .upto (r.stop - 1)⟩, by unfold RangeMeans Decls.Range.value; simp, ?_, ?_⟩ <;> exact ht.toks (by simp [Decls.Range.toks])

/-- A reserved range of an enum with one number. -/
theorem txt_enumRange {r : Ranges.Range} (h : r.start = r.stop) : ∃ d, EnumRangeMeans r d ∧
    Txt (Ranges.reservedItem 2147483647 r) d.toks := by
  refine ⟨⟨r.start, .same⟩, by unfold EnumRangeMeans Decls.Range.value; simp [h], ?_⟩
  unfold Ranges.reservedItem
  rw [if_pos (.inr h)]
  simpa [Decls.Range.toks] using Txt.int r.start

theorem emits_reservedRanges (e : Env c si) {R : Ranges.Range → Decls.Range → Prop} (maxVal : Int) (rs : List (Ranges.Range × Path))
    (h : ∀ r ∈ rs, ∃ d, R r.1 d ∧ Txt (Ranges.reservedItem maxVal r.1) d.toks) (ind : Int) :
    ∃ ds, List.Forall₂ R (rs.map Prod.fst) ds ∧ Emits (printReservedRanges c si maxVal rs ind) .idle (Decl.reservedRanges ds).toks .idle := by
  obtain ⟨ys, h1, h2⟩ := emits_items (R := fun (r : Ranges.Range × Path) d => R r.1 d) (toks := Decls.Range.toks)
    (print := fun r => element c false (si.get r.2) (inline ind) (put (Ranges.reservedItem maxVal r.1 ++ [' ']))) rs (by
      intro r hr
      obtain ⟨d, h1, h2⟩ := h r hr
      exact ⟨d, h1, emits_element e.indent (e.loc _) false _ (h2.emits_sep (by simp))⟩)
  refine ⟨ys, List.forall₂_map_left_iff.2 h1, ?_⟩
  have hk := emits_kw "reserved" (by decide) (k := .idle) (by simp)
  have := ((((emits_indentW e.indent ind .idle).comp hk).comp (h2 true))).comp (emits_semiLine .sep)
  exact this.toks (by simp [Decl.toks, semi])

theorem emits_reservedNames (e : Env c si) (ns : List (Bytes × Path)) (h : ∀ r ∈ ns, StrOk r.1) (ind : Int) :
    ∃ ts, List.Forall₂ NameMeans (ns.map Prod.fst) ts ∧ Emits (printReservedNames c si ns ind) .idle (Decl.reservedNames ts).toks .idle := by
  obtain ⟨ys, h1, h2⟩ := emits_items (R := fun (r : Bytes × Path) t => NameMeans r.1 t) (toks := fun t => [t])
    (print := fun r => elementString c (si.get r.2) ind (chars (Quote.quotedString c.isPrint r.1) ++ [' '])) ns (by
      intro r hr
      obtain ⟨h1, h2⟩ := Txt.quotedString (c := c) e.noNul (h r hr)
      exact ⟨_, h2, emits_elementString e.indent (e.loc _) _ (h1.emits_sep (by simp))⟩)
  refine ⟨ys, List.forall₂_map_left_iff.2 h1, ?_⟩
  have hk := emits_kw "reserved" (by decide) (k := .idle) (by simp)
  have := ((((emits_indentW e.indent ind .idle).comp hk).comp (h2 true))).comp (emits_semiLine .sep)
  exact this.toks (by simp [Decl.toks, semi])

end Verif.Printer
