import Verif.Lemmas.PrinterComments
/-! The comments of the elements that the descriptor printer writes. -/
namespace Verif.Printer
open Verif.Lexer Verif.PrintWriter Verif.Decls Verif.Literal

variable {c : Cfg} {si : SI}

/-! ### Tokens inside a statement -/

theorem Inner.nil : Inner [] := by intro t ht; cases ht

theorem Inner.append {as bs : List Str} (h1 : Inner as) (h2 : Inner bs) : Inner (as ++ bs) := fun t ht =>
  (List.mem_append.1 ht).elim (h1 t) (h2 t)

theorem Inner.cons {t : Str} {ts : List Str} (h1 : t ≠ [';'] ∧ t ≠ ['{'] ∧ t ≠ ['}']) (h2 : Inner ts) : Inner (t :: ts) := fun u hu =>
  (List.mem_cons.1 hu).elim (fun e => e ▸ h1) (h2 u)

theorem ident_inner {s : Str} (h : Ident s) : s ≠ [';'] ∧ s ≠ ['{'] ∧ s ≠ ['}'] := by
  refine ⟨?_, ?_, ?_⟩ <;> rintro rfl <;> exact absurd h.1 (by decide)

theorem segToks_inner {q : QName} (h : Idents q) : Inner (segToks q) := by
  induction q with
  | nil => exact Inner.nil
  | cons s q ih =>
    cases q with
    | nil => exact Inner.cons (ident_inner (h s List.mem_cons_self)) Inner.nil
    | cons t q =>
      rw [segToks]
      · exact Inner.cons (ident_inner (h s List.mem_cons_self)) (Inner.cons (by decide) (ih fun x hx => h x (List.mem_cons_of_mem _ hx)))
      · simp

theorem ref_inner {r : Ref} (h : Idents r.segs) : Inner r.toks := by
  unfold Ref.toks
  refine Inner.append ?_ (segToks_inner h)
  split
  · exact Inner.cons (by decide) Inner.nil
  · exact Inner.nil

theorem refMeans_idents {sc q : QName} {r : Ref} (h : RefMeans sc r q) (hq : Idents q) : Idents r.segs := by
  rcases h with ⟨_, e⟩ | ⟨_, _, e, _, h⟩
  · rw [e]; exact hq
  · intro s hs
    exact hq s (h ▸ List.mem_append_right _ hs)

theorem label_inner (l : Option Label) : Inner (labelToks l) := by
  cases l with
  | none => exact Inner.nil
  | some l => cases l <;> exact Inner.cons (by decide) Inner.nil

theorem optToks_shape (ds : List Setting) : optToks ds = [] ∨ ∃ o, optToks ds = [['[']] ++ o ++ [[']']] := by
  unfold optToks
  split
  · exact .inl rfl
  · exact .inr ⟨_, rfl⟩

/-! ### Texts that contain something -/

/-- The text contains the statement with its comments. -/
def Keeps (c : Cfg) (l : Loc) (main : List Str) (m : Str) : Prop :=
  ∃ s b s', m = s ++ b ++ s' ∧ Framed ((before c l).flatMap lines) s ∧ lex s = [] ∧ Statement main (lex b) ∧
    Framed ((after c l).flatMap lines) s' ∧ lex s' = []

/-- The function adds a text that contains something with the property. -/
structure Shows (g : W → W) (P : Str → Prop) : Prop where
  ex : ∀ w, ∃ a m r, (g w).w.out = a ++ m ++ r ∧ P m

theorem Local.grows {g : W → W} (h : Local g) (w : W) : ∃ x, (g w).w.out = w.w.out ++ x := by
  obtain ⟨⟨o, sp, n⟩, st⟩ := w
  obtain ⟨x, sp', n', q, e⟩ := h.ex sp n
  exact ⟨x, by rw [e]⟩

theorem Shows.after {g h : W → W} {P : Str → Prop} (hg : Shows g P) (hh : Local h) : Shows (fun w => h (g w)) P := by
  constructor; intro w
  obtain ⟨a, m, r, e, p⟩ := hg.ex w
  obtain ⟨x, e2⟩ := hh.grows (g w)
  exact ⟨a, m, r ++ x, by rw [e2, e]; simp, p⟩

theorem Shows.before {h : W → W} {P : Str → Prop} (g : W → W) (hh : Shows h P) : Shows (fun w => h (g w)) P := ⟨fun w => hh.ex (g w)⟩

theorem shows_runSteps {α : Type} {P : Str → Prop} {one : α → W → W} {ss : List α} (hl : ∀ s ∈ ss, Local (one s)) {s : α} (hs : s ∈ ss)
    (h : Shows (one s) P) (compact : Bool) : ∀ first, Shows (runSteps compact one first ss) P := by
  induction ss with
  | nil => cases hs
  | cons t ss ih =>
    intro first
    rcases List.mem_cons.1 hs with rfl | hs
    · exact (Shows.before (fun w => if first = true then w else newLine compact w) h).after
        (local_runSteps compact ss (fun x hx => hl x (List.mem_cons_of_mem _ hx)) false)
    · exact Shows.before (fun w => one t (if first = true then w else newLine compact w))
        (ih (fun x hx => hl x (List.mem_cons_of_mem _ hx)) hs false)

theorem shows_blockElement {P : Str → Prop} (l : Option Loc) (ind : Int) {el : (Int → Bool → W → W) → W → W}
    (h : ∀ trail, (∀ i b, Local (trail i b)) → Shows (el trail) P) : Shows (blockElement c l ind el) P := by
  unfold blockElement
  cases l with
  | none => exact (h _ fun _ _ => Local.id).after (local_endLine ind)
  | some l => exact (Shows.before (leadingComments c l ind) (h _ fun i b => local_trailer _ i b)).after (local_endLine ind)

/-- A block element with its comments. -/
theorem shows_block (hi : IndentOk c) {l : Loc} (hl : LocOk l) {main ts : List Str} {k : K} {front rest : W → W} (h1 : Local front)
    (h2 : Emits front .idle ts k) (h3 : Local rest) (hs : Statement main ts) (ind ti : Int) (tb : Bool) :
    Shows (blockElement c (some l) ind (fun trail w => rest (trail ti tb (front w)))) (Keeps c l main) := by
  refine Shows.after (h := endLine ind) (g := fun w => rest (trailer c (some l) ti tb (front (leadingComments c l ind w)))) ?_ (local_endLine ind)
  refine Shows.after (g := fun w => trailer c (some l) ti tb (front (leadingComments c l ind w))) ?_ h3
  constructor; intro w
  obtain ⟨x, e1, p1, q1⟩ := ((writes_leading hi hl ind).and (writes_lex (local_leadingComments l ind) (emits_leadingComments hi hl ind .idle))).ex w
  obtain ⟨y, e2, p2⟩ := (writes_lex h1 h2).ex (leadingComments c l ind w)
  obtain ⟨z, e3, p3, q3⟩ := ((writes_trailer hi hl ti tb).and (writes_lex (local_trailer (some l) ti tb)
    (emits_trailer hi (l := some l) (fun l' h' => by cases h'; exact hl) ti tb .idle))).ex (front (leadingComments c l ind w))
  refine ⟨w.w.out, x ++ y ++ z, [], by rw [e3, e2, e1]; simp, x, y, z, rfl, p1, q1, ?_, p3, q3⟩
  rw [p2]; exact hs

/-- An element with its comments. -/
theorem shows_element (hi : IndentOk c) {l : Loc} (hl : LocOk l) {main ts : List Str} {k : K} {el : W → W} (h1 : Local el)
    (h2 : Emits el .idle ts k) (hs : Statement main ts) (ind : Int) {isDesc : Bool} (hd : isDesc = true ∨ c.omitTokens = false) :
    Shows (element c isDesc (some l) ind el) (Keeps c l main) := by
  have he : shown c isDesc (some l) = some l := by
    unfold shown
    rcases hd with h | h <;> simp [h]
  unfold element
  simp only [he]
  refine Shows.after (h := endLine ind) (g := fun w => (trailingComments c l ind (el (leadingComments c l ind w))).1) ?_ (local_endLine ind)
  constructor; intro w
  obtain ⟨x, e1, p1, q1⟩ := ((writes_leading hi hl ind).and (writes_lex (local_leadingComments l ind) (emits_leadingComments hi hl ind .idle))).ex w
  obtain ⟨y, e2, p2⟩ := (writes_lex h1 h2).ex (leadingComments c l ind w)
  obtain ⟨z, e3, p3, q3⟩ := ((writes_trailing hi hl ind).and (writes_lex (local2_trailingComments l ind).fst
    (emits_trailingComments hi hl ind .idle))).ex (el (leadingComments c l ind w))
  refine ⟨w.w.out, x ++ y ++ z, [], by rw [e3, e2, e1]; simp, x, y, z, rfl, p1, q1, ?_, p3, q3⟩
  rw [p2]; exact hs

/-- A declaration with a name and a body. -/
theorem shows_named (e : Env c si) {word : Str} (kwText : Str) (hkw : Emits (put kwText) .idle [word] .sep)
    {name : Str} (hn : Ident name) {path : Path} {l : Loc} (hl : si.get path = some l) (npath : Path) (ind : Int) {body : W → W}
    (hb : Local body) :
    Shows (blockElement c (si.get path) ind (fun trail w =>
      let w := elementString c (si.get npath) ind (name ++ [' ']) (put kwText (indentW c ind w))
      let w := trail (ind + 1) true (put ['{', '\n'] w)
      put ['}', '\n'] (indentW c ind (body w)))) (Keeps c l [word, name]) := by
  rw [hl]
  refine shows_block e.indent (e.loc path l hl)
    ((((local_indentW ind).comp (local_put kwText)).comp (local_elementString (si.get npath) ind (name ++ [' ']))).comp (local_put ['{', '\n']))
    ((((emits_indentW e.indent ind .idle).comp hkw).comp (emits_name e hn npath ind)).comp (emits_open .sep))
    ((hb.comp (local_indentW ind)).comp (local_put ['}', '\n'])) ?_ ind (ind + 1) true
  exact ⟨[], [], [], ['{'], by simp, .inr rfl, Inner.nil, Inner.nil, .inl rfl⟩

/-- What is in the body. -/
theorem shows_inside {P : Str → Prop} (l nl : Option Loc) (kwText name : Str) (ind : Int) {body : W → W} (hb : Shows body P) :
    Shows (blockElement c l ind (fun trail w =>
      let w := elementString c nl ind (name ++ [' ']) (put kwText (indentW c ind w))
      let w := trail (ind + 1) true (put ['{', '\n'] w)
      put ['}', '\n'] (indentW c ind (body w)))) P := by
  refine shows_blockElement l ind fun trail _ => ?_
  exact ((Shows.before (fun w => trail (ind + 1) true (put ['{', '\n'] (elementString c nl ind (name ++ [' ']) (put kwText (indentW c ind w))))) hb).after
    (local_indentW ind)).after (local_put _)

/-! ### Enums -/

theorem shows_enumValue (e : Env c si) {pk sc : QName} (hs : ScOk pk sc) {v : EnumValue} (h : v.Ok) {path : Path} {l : Loc}
    (hl : si.get path = some l) (ind : Int) :
    Shows (printEnumValue c si pk sc v path ind) (Keeps c l ([v.name, ['=']] ++ intToks v.number)) := by
  obtain ⟨os, ho, eo⟩ := emits_optionsShort e (a := ⟨pk, sc ++ [v.name], false⟩) (hs.snoc h.name) h.opts 3 path ind
  have ename := (emits_name e h.name (path ++ [1]) ind).fromIdle
  have enum : Emits (elementString c (si.get (path ++ [2])) ind (Ranges.showInt v.number ++ [' '])) .sep (intToks v.number) .sep :=
    emits_elementString e.indent (e.loc _) ind ((Txt.int _).emits_sep (by simp))
  unfold printEnumValue
  rw [hl]
  refine shows_element e.indent (e.loc path l hl)
    ((((((local_indentW ind).comp (local_elementString ..)).comp (local_put _)).comp (local_elementString ..)).comp
      (local_optionsShort ..)).comp (local_put _))
    ((((((emits_indentW e.indent ind .idle).comp ename).comp emits_eq).comp enum).comp eo).comp (emits_semi .sep)) ?_ ind (.inl rfl)
  exact ⟨[], [], optToks os, [';'], by simp, .inl rfl, Inner.nil, Inner.nil, optToks_shape os⟩

theorem value_step {e : Enum} {ks : List Key} (hp : ks.Perm (enumKeys e)) (h : e.Ok) {i : Nat} (hi : i < e.values.length) :
    EStep.value i ∈ enumSteps e [] [] ks := by
  have hR : (ks.filterMap isResR).Perm (List.range e.resRanges.length) := enumKeys_resR e ▸ hp.filterMap _
  have hN : (ks.filterMap isResN).Perm (List.range e.resNames.length) := enumKeys_resN e ▸ hp.filterMap _
  have hV : (ks.filterMap isValue).Perm (List.range e.values.length) := enumKeys_values e ▸ hp.filterMap _
  have hc := enumSteps_content e ks.length [] [] ks (Nat.le_refl _)
    ((hR.map (enumRng e)).nodup_iff.2 (by rw [show (List.range e.resRanges.length).map (enumRng e) = e.resRanges from range_getD _ _]; exact h.distinctRanges))
    ((hN.map (enumNm e)).nodup_iff.2 (by rw [show (List.range e.resNames.length).map (enumNm e) = e.resNames from range_getD _ _]; exact h.distinctNames))
    (by simp) (by simp)
  have : i ∈ ks.filterMap isValue := hV.symm.subset (List.mem_range.2 hi)
  rw [← hc.values] at this
  obtain ⟨s, hs, hm⟩ := List.mem_flatMap.1 this
  cases s with
  | value j => simp at hm; subst hm; exact hs
  | _ => cases hm

theorem shows_enum (en : Env c si) {pk sc : QName} (hs : ScOk pk sc) {e : Enum} (h : e.Ok) {path q : Path} {ts : List Str} (hq : EnumEl e path q ts)
    {l : Loc} (hl : si.get q = some l) (ind : Int) : Shows (printEnum c si pk sc e path ind) (Keeps c l ts) := by
  unfold printEnum
  cases hq with
  | self =>
    exact shows_named en (kw "enum ") (emits_kw "enum" (by decide) (by simp)) h.name hl _ ind
      (local_runSteps _ _ (fun s _ => local_runEStep pk sc e path (ind + 1) s) true)
  | value i v hv =>
    refine shows_inside _ _ _ _ ind (shows_runSteps (fun s _ => local_runEStep pk sc e path (ind + 1) s) (s := .value i) ?_ ?_ _ true)
    · exact value_step (en.sorted _ _) h (List.getElem?_eq_some_iff.1 hv).1
    · unfold runEStep
      simp only [hv]
      exact shows_enumValue en hs (h.values v (List.mem_of_getElem? hv)) hl (ind + 1)

/-! ### Fields -/

theorem kids_get {pk sc : QName} (ms : List Msg) (i : Nat) : (Msg.kids c si pk sc ms)[i]? = ms[i]?.map (Msg.kid c si pk sc) := by
  induction ms generalizing i with
  | nil => rw [Msg.kids]; simp
  | cons m ms ih =>
    rw [Msg.kids]
    cases i with
    | zero => simp
    | succ i => simpa using ih i

theorem kid_name {pk sc : QName} (m : Msg) : (m.kid c si pk sc).name = m.head.name := by
  cases m; rw [Msg.kid]; rfl

theorem group?_none {f : Field} (h : ∀ j, f.type ≠ .group j) : f.group? = none := by
  unfold Field.group?
  cases ht : f.type with
  | group j => exact absurd ht (h j)
  | _ => rfl

theorem group?_some {f : Field} {j : Nat} (h : f.type = .group j) : f.group? = some j := by unfold Field.group?; rw [h]

/-- What comes before the semicolon or brace of a field. -/
theorem local_fieldHead (f : Field) (t : Str) (path : Path) (ind : Int) (a : At) (os : Opts) :
    Local (fun w => optionsShort c si a os 8 path ind
      (elementString c (si.get (path ++ [3])) ind (dec f.number ++ [' ']) (put ['=', ' ']
        (elementString c (si.get (path ++ [1])) ind (f.name ++ [' ']) (elementString c (si.get (path ++ [5])) ind (t ++ [' '])
          ((fun w => if shouldEmitLabel f then elementString c (si.get (path ++ [4])) ind (labelText f ++ [' ']) w else w) (indentW c ind w))))))) :=
  (((((((local_indentW ind).comp (h := fun w => if shouldEmitLabel f then elementString c (si.get (path ++ [4])) ind (labelText f ++ [' ']) w else w)
    (Local.ite (local_elementString ..) Local.id)).comp (local_elementString ..)).comp (local_elementString ..)).comp (local_put _)).comp
      (local_elementString ..)).comp (local_optionsShort ..))

theorem local_groupHead (f : Field) (t : Str) (path : Path) (ind : Int) (a : At) (os : Opts) :
    Local (fun w => optionsShort c si a os 8 path ind
      (elementString c (si.get (path ++ [3])) ind (dec f.number ++ [' ']) (put ['=', ' ']
        (elementString c (si.get (path ++ [5])) ind (t ++ [' ']) (put (kw "group ")
          ((fun w => if shouldEmitLabel f then elementString c (si.get (path ++ [4])) ind (labelText f ++ [' ']) w else w) (indentW c ind w))))))) :=
  (((((((local_indentW ind).comp (h := fun w => if shouldEmitLabel f then elementString c (si.get (path ++ [4])) ind (labelText f ++ [' ']) w else w)
    (Local.ite (local_elementString ..) Local.id)).comp (local_put _)).comp (local_elementString ..)).comp (local_put _)).comp
      (local_elementString ..)).comp (local_optionsShort ..))

theorem shows_field (e : Env c si) {pk sc : QName} (hs : ScOk pk sc) {ms : List Msg} (hm : Msg.AllOk ms)
    (msgTag : Int) (isExt : Bool) {f : Field} (h : f.Ok ms.length) {path q : Path} {ts : List Str}
    (hq : FieldEl f path ms (fun j => path.take (path.length - 2) ++ [msgTag, j]) q ts) {l : Loc} (hl : si.get q = some l) (ind : Int) :
    Shows (printField c si pk sc (Msg.kids c si pk sc ms) msgTag isExt f path ind) (Keeps c l ts) := by
  have hk := kids_ok e ms hs hm
  have hlen := kids_length (c := c) (si := si) e (pk := pk) ms (sc := sc)
  obtain ⟨lb, hlb, el⟩ := emits_label e h (path ++ [4]) ind
  obtain ⟨os, ho, eo⟩ := emits_optionsShort e (a := ⟨pk, sc ++ [f.name], false⟩) (hs.snoc h.name) (allOpts_ok isExt h) 8 path ind
  rw [← fieldOpts_eq isExt h] at eo
  have enum := emits_numberText e f.number (path ++ [3]) ind
  have ename := emits_name e h.name (path ++ [1]) ind
  have hty := h.type
  cases hq with
  | plain hng =>
    have hg := group?_none hng
    have ht : ∃ t : DType, Txt (f.type.text c pk sc ((Msg.kids c si pk sc ms).map Kid.name)) t.toks ∧ Inner t.toks := by
      cases hft : f.type with
      | plain t =>
        rw [hft] at hty
        obtain ⟨r, h1, h2, h3, _⟩ := emits_typeText (c := c) hs (t := t) hty
        exact ⟨.ref r, h2, ref_inner h3.idents⟩
      | map k v i =>
        rw [hft] at hty
        obtain ⟨r, h1, _, h3, h4⟩ := emits_typeText (c := c) hs (t := v) hty
        refine ⟨.map k.keyword.toList r, ?_, ?_⟩
        · show Txt (kw "map<" ++ k.text ++ [',', ' '] ++ v.text c pk sc ++ ['>']) _
          rw [h4]
          exact Txt.mapType h3
        · exact Inner.append (Inner.append (Inner.cons (by decide) (Inner.cons (by decide) (Inner.cons (ident_inner (scalar_ident k))
            (Inner.cons (by decide) Inner.nil)))) (ref_inner h3.idents)) (Inner.cons (by decide) Inner.nil)
      | group j => exact absurd hft (hng j)
    obtain ⟨t, htxt, hinner⟩ := ht
    have et : Emits (elementString c (si.get (path ++ [5])) ind (f.type.text c pk sc ((Msg.kids c si pk sc ms).map Kid.name) ++ [' '])) .sep t.toks .sep :=
      emits_elementString e.indent (e.loc _) ind (htxt.emits_sep (by simp))
    unfold printField
    simp only [hg, Option.isSome_none, Bool.false_eq_true, if_false, hl]
    refine shows_block e.indent (e.loc path l hl) (rest := fun w => w)
      ((local_fieldHead f (f.type.text c pk sc ((Msg.kids c si pk sc ms).map Kid.name)) path ind ⟨pk, sc ++ [f.name], false⟩ (fieldOpts isExt f)).comp
        (local_put [';']))
      ((((((((emits_indentW e.indent ind .idle).comp el).comp et).comp ename).comp emits_eq).comp enum).comp eo).comp (emits_semi .sep))
      Local.id ?_ ind ind false
    exact ⟨labelToks lb ++ t.toks, [], optToks os, [';'], by simp, .inl rfl, (label_inner lb).append hinner, Inner.nil, optToks_shape os⟩
  | group j m hft hj =>
    have hg := group?_some hft
    have hkj : (Msg.kids c si pk sc ms)[j]? = some (m.kid c si pk sc) := by rw [kids_get, hj]; rfl
    obtain ⟨k, km, hk1, hk2, hkm⟩ := forall2_get hk (i := j) (by rw [hlen]; exact (List.getElem?_eq_some_iff.1 hj).1)
    rw [hkj] at hk1
    cases hk1
    have hn : f.type.text c pk sc ((Msg.kids c si pk sc ms).map Kid.name) = m.head.name := by
      rw [hft]
      show ((Msg.kids c si pk sc ms).map Kid.name).getD j [] = _
      rw [List.getD_eq_getElem?_getD, List.getElem?_map, hkj, ← kid_name (c := c) (si := si) (pk := pk) (sc := sc) m]; rfl
    have hid := hkm.ident
    rw [kid_name] at hid
    have et : Emits (elementString c (si.get (path ++ [5])) ind (m.head.name ++ [' '])) .sep [m.head.name] .sep :=
      emits_elementString e.indent (e.loc _) ind ((Txt.ident hid).emits_sep (by simp))
    have eg := emits_kw "group" (by decide) (k := .sep) (by simp)
    have hll : si.get (path.take (path.length - 2) ++ [msgTag, (j : Int)]) = some l := hl
    unfold printField
    simp only [hg, Option.isSome_some, if_true, hkj, hn, hll]
    refine shows_block e.indent (e.loc _ l hll)
      ((local_groupHead f m.head.name path ind ⟨pk, sc ++ [f.name], false⟩ (fieldOpts isExt f)).comp (local_put ['{', '\n']))
      ((((((((emits_indentW e.indent ind .idle).comp el).comp eg).comp et).comp emits_eq).comp enum).comp eo).comp (emits_open .sep))
      ((Local.comp (local_kid pk m sc _ (ind + 1)) (local_indentW ind)).comp (local_put ['}', '\n'])) ?_ ind (ind + 1) true
    exact ⟨labelToks lb, [], optToks os, ['{'], by simp, .inr rfl, label_inner lb, Inner.nil, optToks_shape os⟩

/-- What is in a group. -/
theorem shows_inGroup {pk sc : QName} {kids : List Kid} {msgTag : Int} {isExt : Bool} {f : Field} {j : Nat} (hf : f.type = .group j) {k : Kid}
    (hk : kids[j]? = some k) {P : Str → Prop} {path : Path} {ind : Int}
    (h : Shows (k.body (path.take (path.length - 2) ++ [msgTag, (j : Int)]) (ind + 1)) P) :
    Shows (printField c si pk sc kids msgTag isExt f path ind) P := by
  have hg := group?_some hf
  unfold printField
  simp only [hg, hk]
  refine shows_blockElement _ ind fun trail _ => ?_
  exact ((Shows.before _ h).after (local_indentW ind)).after (local_put _)

end Verif.Printer
