import Verif.Lemmas.FormatKeepsValues
import Verif.Lemmas.FormatOptions
/-! The rules for options, for comments. -/
namespace Verif.Formatter
open Verif.Lexer Verif.Comment
open Verif.InlineComment (Comment)
open Verif.ColumnFormat (Field Elem)

variable {b : Bool} {cfg : Cfg}

/-! ### Option names -/

theorem keeps_parts (n : OptName) : OptNameOk n → (∀ d, Part.dot d ∈ n → Silent d) → (∀ t ∈ n.flatMap Part.src, Seen t) →
    ∀ {k : K}, Accept k .ident = true → k ≠ .slash →
    Keeps b (fun f => n.foldl (fun f p => Part.write p f) f) k (told (n.flatMap Part.src)) .ident := by
  fun_induction OptNameOk n with
  | case1 r =>
    intro h _ hv k h1 h2
    simp only [List.flatMap_cons, List.flatMap_nil, List.append_nil, Part.src] at hv ⊢
    exact (keeps_ref h.1 hv h1 h2).fn (fun f => rfl)
  | case2 r d ps ih =>
    intro h hd hv k h1 h2
    simp only [List.flatMap_cons, Part.src, List.forall_mem_append] at hv
    obtain ⟨v1, v2, v3⟩ := hv
    have hs := hd d (by simp)
    have := ((keeps_ref (b := b) h.1 v1 h1 h2).comp (keeps_write (t := d) h.2.2.1.term (by rfl))).comp
      (ih h.2.2.2 (fun e he => hd e (by simp [he])) v3 (by rfl) (by simp [after]))
    exact (this.told (by simp [Part.src, told_append, told_cons, hs.told])).fn (fun f => rfl)
  | case3 => intro h; exact absurd h id

theorem keeps_writeFirst {r : Ref} {k : K} (h : RefOk r) (hu : r.url = none) (hp : RefPlain r) (hv : ∀ t ∈ r.src, Seen t)
    (hk : Accept k .ident = true) (hks : k ≠ .slash) :
    ∃ cs, told r.src = conts r.first.leading ++ cs ∧ Keeps b (Part.writeFirst (.ref r)) k cs .ident := by
  have hsl := h.slash hu
  have hcalm := accept_calm hk hks
  simp only [Ref.src, List.forall_mem_append] at hv
  obtain ⟨⟨⟨⟨v1, _⟩, _⟩, v4⟩, v5⟩ := hv
  cases ho : r.op with
  | none =>
    obtain ⟨h1, h2⟩ := h.bare ho
    obtain ⟨t, hone⟩ := List.length_eq_one_iff.1 (hp ho)
    rw [hone] at h1 v4
    have h1 : Is .ident t := h1
    have hst := v4 t List.mem_cons_self
    have := ((keeps_write (b := b) h1.term hk).comp (keeps_inlineComments rfl h1.trailing hst.2)).comp (keeps_closeRef h v5 rfl rfl)
    refine ⟨_, ?_, this.fn (fun f => ?_)⟩
    · unfold Ref.src Ref.first; rw [ho, hu, hsl, hone]
      simp [told_cons, Tok.told, nameFirst]
    · simp only [Part.writeFirst, ho, hone]; rfl
  | some t =>
    have ht := h.op t ho
    have hst := seen_some v1 ho
    have := (((keeps_write (b := b) (k := k) ht.term (accept_hard hcalm)).comp (keeps_inlineComments rfl ht.trailing hst.2)).comp
      (keeps_inlsDot h.name v4 (.inl rfl))).comp (keeps_closeRef h v5 rfl rfl)
    refine ⟨_, ?_, this.fn (fun f => ?_)⟩
    · unfold Ref.src Ref.first; rw [ho, hu, hsl]
      simp [told_append, told_cons, Tok.told]
    · simp only [Part.writeFirst, ho]; rfl

theorem keeps_optName {n : OptName} (h : OptNameOk n) (hd : ∀ d, Part.dot d ∈ n → Silent d) (hv : ∀ t ∈ n.flatMap Part.src, Seen t) :
    Keeps false (optNameWrite n) .free (told (n.flatMap Part.src)) .ident := by
  cases n with
  | nil => unfold OptNameOk at h; exact absurd h id
  | cons p ps =>
    intro f hf
    obtain ⟨ts, hf0⟩ := hf
    have h1 := keeps_parts _ h hd hv (k := .free) rfl (by simp) f ⟨ts, hf0⟩
    have : optNameWrite (p :: ps) f = (p :: ps).foldl (fun f p => Part.write p f) f := by
      unfold optNameWrite; rw [hf0.flag]; rfl
    rw [this]; exact h1

/-- In an option list: without the comments before the name. -/
theorem keeps_optNameIn {n : OptName} (h : OptNameOk n) (hd : ∀ d, Part.dot d ∈ n → Silent d) (hf : FirstPlain n)
    (hv : ∀ t ∈ n.flatMap Part.src, Seen t) :
    ∃ cs, told (n.flatMap Part.src) = conts (optFirst n).leading ++ cs ∧ Keeps true (optNameWrite n) .free cs .ident := by
  have key : ∀ p ps cs, Keeps true (fun f => ps.foldl (fun f p => Part.write p f) (Part.writeFirst p f)) .free cs .ident →
      Keeps true (optNameWrite (p :: ps)) .free cs .ident := by
    intro p ps cs hk f hf
    obtain ⟨ts, hf0⟩ := hf
    have : optNameWrite (p :: ps) f = ps.foldl (fun f p => Part.write p f) (p.writeFirst f) := by
      unfold optNameWrite; rw [hf0.flag]; rfl
    rw [this]; exact hk f ⟨ts, hf0⟩
  match n, h with
  | [.ref r], h =>
    simp only [List.flatMap_cons, List.flatMap_nil, List.append_nil, Part.src] at hv
    obtain ⟨cs, e, hk⟩ := keeps_writeFirst (b := true) (k := .free) h.1 h.2 (hf r [] rfl) hv rfl (by simp)
    refine ⟨cs, ?_, key _ _ _ (hk.fn (fun f => rfl))⟩
    simp only [List.flatMap_cons, List.flatMap_nil, List.append_nil, Part.src]
    exact e
  | .ref r :: .dot d :: ps, h =>
    simp only [List.flatMap_cons, Part.src, List.forall_mem_append] at hv
    obtain ⟨v1, v2, v3⟩ := hv
    have hs := hd d (by simp)
    obtain ⟨cs, e, hk⟩ := keeps_writeFirst (b := true) (k := .free) h.1 h.2.1 (hf r _ rfl) v1 rfl (by simp)
    have := (hk.comp (keeps_write (t := d) h.2.2.1.term (by rfl))).comp
      (keeps_parts ps h.2.2.2 (fun e he => hd e (by simp [he])) v3 (by rfl) (by simp [after]))
    refine ⟨_, ?_, key _ _ _ (this.fn (fun f => rfl))⟩
    have e0 : (optFirst (.ref r :: .dot d :: ps)).leading = r.first.leading := rfl
    simp only [List.flatMap_cons, Part.src, told_append, e, e0, told_one, hs.told]
    simp

/-! ### The ends of lines -/

theorem keeps_lineEnd? {semi : Option Tok} {k : K} (h : SemiOk semi) (hs : semi.isSome = true) (hv : ∀ t ∈ semi.toList, Seen t)
    (hk : k.calm = true) : Keeps b (lineEnd? cfg semi) k (told semi.toList) .idle := by
  obtain ⟨s, rfl⟩ := Option.isSome_iff_exists.1 hs
  exact ((keeps_lineEnd (h s rfl).is (hv s (by simp)) (accept_hard hk) (K.calm_ne hk).1 (by simp)).told (told_one s).symm).fn (fun f => rfl)

theorem writeTold_silent {v : Value} (h : ∀ t, v = .term t → Silent t) : v.writeTold = told v.nodes := by
  rcases value_cases v with ⟨t, rfl⟩ | hn
  · rw [Value.nodes, told_one, (h t rfl).told]; rfl
  · exact writeTold_not hn

theorem optSemi_told {semi : Option Tok} (hs : semi.isSome = true) (hv : ∀ t ∈ semi.toList, Seen t) :
    told (optSemi semi).toList = told semi.toList ∧ ∀ t ∈ (optSemi semi).toList, Seen t := by
  obtain ⟨s, rfl⟩ := Option.isSome_iff_exists.1 hs
  refine ⟨rfl, ?_⟩
  intro t ht
  have : t = { s with term := .rune ',' } := by simpa [optSemi] using ht
  subst this
  exact hv s (by simp)

theorem optValue_strings {o : Opt} {last : Bool} {ps : List Tok} (hv : o.val = some (.strings ps)) (f : F) :
    optValue cfg last o f = lineEnd? cfg o.semi (compoundStrings cfg true true ps f) := by unfold optValue; rw [hv]

theorem optValue_other {o : Opt} {last : Bool} {v : Value} (hv : o.val = some v) (hn : v.isStrings = false) (f : F) :
    optValue cfg last o f = if f.inCompact then
        (if last then v.lineEnd cfg f else lineEnd? cfg (optSemi o.semi) (v.write cfg f)) else lineEnd? cfg o.semi (v.write cfg f) := by
  unfold optValue; rw [hv]
  cases v <;> first | rfl | (cases hn)

/-- The value of an option and its end, in a column. -/
theorem keeps_optValue {o : Opt} {last : Bool} {v : Value} (hv : o.val = some v) (hok : v.Ok) (hp : v.Plain) (hsemi : SemiOk o.semi)
    (hs : o.semi.isSome = true) (hq : ∀ t, v = .term t → Silent t) (vv : ∀ t ∈ v.nodes, Seen t) (vs : ∀ t ∈ o.semi.toList, Seen t) :
    Keeps false (optValue cfg last o) .free (told v.nodes ++ told o.semi.toList) .idle := by
  cases hst : v.isStrings with
  | true =>
    cases v <;> first | (cases hst; done) | skip
    rename_i ps
    rw [Value.Ok] at hok
    rw [Value.nodes] at vv ⊢
    exact ((keeps_compoundStrings (cfg := cfg) (k := .free) (by simp) true true ps hok.1 hok.2 vv).comp
      (keeps_lineEnd? (cfg := cfg) hsemi hs vs rfl)).fn (optValue_strings hv)
  | false =>
    intro f hf
    obtain ⟨ts, hf0⟩ := hf
    have e : optValue cfg last o f = lineEnd? cfg o.semi (v.write cfg f) := by rw [optValue_other hv hst, hf0.flag]; rfl
    rw [e, ← writeTold_silent hq]
    exact ((keeps_value (cfg := cfg) v hok hp vv).comp (keeps_lineEnd? (cfg := cfg) hsemi hs vs rfl)) f ⟨ts, hf0⟩

/-- The value of an option and its end, in an option list on several lines. -/
theorem keeps_optValueIn {o : Opt} {last : Bool} {v : Value} (hv : o.val = some v) (hok : v.Ok) (hp : v.Plain) (hsemi : SemiOk o.semi)
    (h2 : last = false → o.semi.isSome = true) (h3 : v.isStrings = true → o.semi.isSome = true)
    (hq : if last then v.isStrings = false → Silent? o.semi else ∀ t, v = .term t → Silent t)
    (vv : ∀ t ∈ v.nodes, Seen t) (vs : ∀ t ∈ o.semi.toList, Seen t) :
    Keeps true (optValue cfg last o) .free (told v.nodes ++ told o.semi.toList) .idle := by
  cases hst : v.isStrings with
  | true =>
    have hs := h3 hst
    cases v <;> first | (cases hst; done) | skip
    rename_i ps
    rw [Value.Ok] at hok
    rw [Value.nodes] at vv ⊢
    exact ((keeps_compoundStrings (cfg := cfg) (k := .free) (by simp) true true ps hok.1 hok.2 vv).comp
      (keeps_lineEnd? (cfg := cfg) hsemi hs vs rfl)).fn (optValue_strings hv)
  | false =>
    intro f hf
    obtain ⟨ts, hf0⟩ := hf
    have e := optValue_other (cfg := cfg) (last := last) hv hst f
    rw [hf0.flag, if_pos rfl] at e
    rw [e]
    cases last with
    | true =>
      have hq : v.isStrings = false → Silent? o.semi := hq
      rw [(hq hst).told, List.append_nil]
      exact (keeps_lineEndWith (cfg := cfg) hok vv (keeps_value (cfg := cfg) v hok hp vv)) f ⟨ts, hf0⟩
    | false =>
      have hq : ∀ t, v = .term t → Silent t := hq
      obtain ⟨s1, s2, s3⟩ := optSemi_ok hsemi (h2 rfl)
      obtain ⟨t1, t2⟩ := optSemi_told (h2 rfl) vs
      rw [← writeTold_silent hq, ← t1]
      exact ((keeps_value (cfg := cfg) v hok hp vv).comp (keeps_lineEnd? (cfg := cfg) s1 s2 t2 rfl)) f ⟨ts, hf0⟩

/-- The text and the state after the sign. -/
def eqCell (eq : Option Tok) (s : F) : Str × F :=
  match eq with
  | some t => drain (inl t s)
  | none => ([], s)

theorem eqCell_keep {eq : Option Tok} {s : F} (h : Is? .hard eq) (hv : ∀ t ∈ eq.toList, Seen t) (hs : Fine b s .idle) (ho : s.w.out = []) :
    Fine b (eqCell eq s).2 .free ∧ (eqCell eq s).2.w.out = [] ∧ said (eqCell eq s).1 = told eq.toList := by
  unfold eqCell
  cases eq with
  | none => exact ⟨hs.idle _, ho, rfl⟩
  | some t =>
    obtain ⟨h1, h2⟩ := keeps_inl_hard (b := b) (h t rfl) (hv t (by simp)) rfl s hs
    refine ⟨fine_drain h1, rfl, ?_⟩
    show said (inl t s).w.out = _
    rw [h2, ho, Option.toList_some, told_one]; rfl

theorem cellsKeep_opt {o : Opt} {last : Bool} (h : OptOk o) (hs : o.semi.isSome = true) (hp : o.Plain .column) (hv : ∀ t ∈ o.nodes, Seen t) :
    CellsKeep false (o.cells cfg last) (told o.nodes) := by
  refine (cells_opt (b := false) (cfg := cfg) (last := last) h (fun _ => hs) (by simp) (fun _ _ _ => hs)).keep ?_
  intro c hc
  obtain ⟨n, hn, hnok⟩ := h.name
  obtain ⟨v, hval, hok⟩ := h.val
  obtain ⟨hk, hq⟩ := hp.place
  obtain ⟨t, hk⟩ := Option.isSome_iff_exists.1 hk
  simp only [Opt.nodes, hn, hval, hk, Option.toList_some, Option.getD_some, Option.map_some, List.forall_mem_append,
    List.forall_mem_cons] at hv
  obtain ⟨⟨v1, _⟩, v2, v3, v4, v5⟩ := hv
  have ht := h.kw t hk
  obtain ⟨a1, a2⟩ := keeps_startPre (b := false) (cfg := cfg) (k := .idle) rfl ht.leading false t.ws t.rune? c hc
  obtain ⟨b1, b2⟩ := ((keeps_write ht.term rfl).comp (keeps_startPost (after_calm (by simp)) ht.trailing v1.2 t.rune?)) _
    (fine_drain (k' := .idle) a1)
  obtain ⟨c1, c2⟩ := keeps_optName hnok (hp.dots n hn) v2 _ (fine_drain (k' := .free) b1)
  obtain ⟨d1, d2, d3⟩ := eqCell_keep (s := (drain (optNameWrite n (drain (startPost t.trailing t.rune? (t.write
    (drain (startPre cfg false t.ws t.leading t.rune? c)).2))).2)).2) h.eq v3 (fine_drain c1) rfl
  obtain ⟨_, e2⟩ := keeps_optValue (cfg := cfg) (last := last) hval hok (hp.val v hval) h.semi hs (fun t e => hq t (e ▸ hval)) v4 v5 _ d1
  have e : fieldTold (o.cells cfg last c).2 = said (startPre cfg false t.ws t.leading t.rune? c).w.out ++
      (said (startPost t.trailing t.rune? (t.write (drain (startPre cfg false t.ws t.leading t.rune? c)).2)).w.out ++
      (said (optNameWrite n (drain (startPost t.trailing t.rune? (t.write (drain (startPre cfg false t.ws t.leading t.rune? c)).2))).2).w.out ++
      (said (eqCell o.eq (drain (optNameWrite n (drain (startPost t.trailing t.rune? (t.write
        (drain (startPre cfg false t.ws t.leading t.rune? c)).2))).2)).2).1 ++
      said (optValue cfg last o (eqCell o.eq (drain (optNameWrite n (drain (startPost t.trailing t.rune? (t.write
        (drain (startPre cfg false t.ws t.leading t.rune? c)).2))).2)).2).2).w.out))) := by
    unfold fieldTold Opt.cells eqCell; rw [hk, hn]; rfl
  have dr : ∀ g : F, said (drain g).2.w.out = [] := fun _ => rfl
  rw [e, a2, b2, c2, d3, e2, d2, dr, dr]
  unfold Opt.nodes
  rw [hk, hn, hval]
  simp [told_append, told_cons, Tok.told, said_nil]

theorem cellsKeep_optIn {o : Opt} {last : Bool} (h : OptOk o) (hkw : o.kw = none) (h2 : last = false → o.semi.isSome = true)
    (h3 : ∀ v, o.val = some v → v.isStrings = true → o.semi.isSome = true) (hp : o.Plain (.expanded last))
    (hv : ∀ t ∈ o.nodes, Seen t) : CellsKeep true (o.cells cfg last) (told o.nodes) := by
  refine (cells_opt (b := true) (cfg := cfg) (last := last) h (by simp) (fun _ => h2) h3).keep ?_
  intro c hc
  obtain ⟨n, hn, hnok⟩ := h.name
  obtain ⟨v, hval, hok⟩ := h.val
  obtain ⟨hpn, hpv⟩ := hp.place
  obtain ⟨hfp, hlt⟩ := hpn n hn
  simp only [Opt.nodes, hn, hval, hkw, Option.toList_none, Option.getD_some, Option.map_some, List.forall_mem_append] at hv
  obtain ⟨_, v2, v3, v4, v5⟩ := hv
  obtain ⟨cf, hfirst⟩ := optFirst_ok hnok
  obtain ⟨cl, hlastn⟩ := optLast_ok n hnok
  obtain ⟨cs, hcs, hko⟩ := keeps_optNameIn hnok (hp.dots n hn) hfp v2
  obtain ⟨a1, a2⟩ := keeps_startPre (b := true) (cfg := cfg) (k := .idle) rfl hfirst.leading false (optFirst n).ws none c hc
  obtain ⟨b1, b2⟩ := (hko.comp (keeps_startPost rfl hlastn.trailing (by rw [hlt]; simp) none)) _ (fine_drain (k' := .free) a1)
  obtain ⟨d1, d2, d3⟩ := eqCell_keep (s := (drain (startPost (optLast n).trailing none (optNameWrite n
    (drain (startPre cfg false (optFirst n).ws (optFirst n).leading none c)).2))).2) h.eq v3 (fine_drain b1) rfl
  have hq : if last then v.isStrings = false → Silent? o.semi else ∀ t, v = .term t → Silent t := by
    cases last with
    | true => exact hpv v hval
    | false => exact fun t e => hpv t (e ▸ hval)
  obtain ⟨_, e2⟩ := keeps_optValueIn (cfg := cfg) (last := last) hval hok (hp.val v hval) h.semi h2 (h3 v hval) hq v4 v5 _ d1
  have e : fieldTold (o.cells cfg last c).2 = said (startPre cfg false (optFirst n).ws (optFirst n).leading none c).w.out ++ ([] ++
      (said (startPost (optLast n).trailing none (optNameWrite n
        (drain (startPre cfg false (optFirst n).ws (optFirst n).leading none c)).2)).w.out ++
      (said (eqCell o.eq (drain (startPost (optLast n).trailing none (optNameWrite n
        (drain (startPre cfg false (optFirst n).ws (optFirst n).leading none c)).2))).2).1 ++
      said (optValue cfg last o (eqCell o.eq (drain (startPost (optLast n).trailing none (optNameWrite n
        (drain (startPre cfg false (optFirst n).ws (optFirst n).leading none c)).2))).2).2).w.out))) := by
    unfold fieldTold Opt.cells eqCell; rw [hkw, hn]; rfl
  have dr : ∀ g : F, said (drain g).2.w.out = [] := fun _ => rfl
  rw [e, a2, b2, d3, e2, d2, dr, hlt]
  unfold Opt.nodes
  rw [hkw, hn, hval]
  simp [told_append, hcs, said_nil, conts_nil]

theorem keep_opts (os : List Opt) (h : OptsOk true os) (hp : optsPlain true os) (hv : ∀ t ∈ os.flatMap Opt.nodes, Seen t) :
    ∃ tss, List.Forall₂ (fun (p : Elem × Writer) ts => WriterKeep true p.1 p.2 ts) (optWriters cfg os) tss ∧
      tss.flatten = told (os.flatMap Opt.nodes) := by
  induction os with
  | nil => exact ⟨[], .nil, rfl⟩
  | cons o os ih =>
    obtain ⟨h1, h2, h3, h4, h5⟩ := h
    obtain ⟨p1, p2⟩ := hp
    simp only [List.flatMap_cons, List.forall_mem_append] at hv
    obtain ⟨tss, h6, h7⟩ := ih h5 p2 hv.2
    refine ⟨told o.nodes :: tss, .cons ⟨by simp [Opt.elem], Keeps.id _, ?_⟩ h6, ?_⟩
    · exact cellsKeep_optIn h1 h2 (fun e => h3 (by rintro rfl; simp at e)) (fun v hv hs => by
        have := h4 v hv hs; simpa using this) p1 hv.1
    · rw [List.flatten_cons, h7, List.flatMap_cons, told_append]

theorem keep_fileOpts (os : List Opt) (h : ∀ o ∈ os, OptOk o ∧ o.semi.isSome = true) (hp : ∀ o ∈ os, o.Plain .column)
    (hv : ∀ t ∈ os.flatMap Opt.nodes, Seen t) :
    ∃ tss, List.Forall₂ (fun (p : Elem × Writer) ts => WriterKeep false p.1 p.2 ts) (optWriters cfg os) tss ∧
      tss.flatten = told (os.flatMap Opt.nodes) := by
  induction os with
  | nil => exact ⟨[], .nil, rfl⟩
  | cons o os ih =>
    obtain ⟨h1, h2⟩ := h o List.mem_cons_self
    simp only [List.flatMap_cons, List.forall_mem_append] at hv
    obtain ⟨tss, h6, h7⟩ := ih (fun x hx => h x (List.mem_cons_of_mem _ hx)) (fun x hx => hp x (List.mem_cons_of_mem _ hx)) hv.2
    refine ⟨told o.nodes :: tss, .cons ⟨by simp [Opt.elem], Keeps.id _, ?_⟩ h6, ?_⟩
    · exact cellsKeep_opt h1 h2 (hp o List.mem_cons_self) hv.1
    · rw [List.flatten_cons, h7, List.flatMap_cons, told_append]

/-! ### Option lists -/

theorem keeps_eq {eq : Option Tok} (h : Is? .hard eq) (hv : ∀ t ∈ eq.toList, Seen t) : Keeps b (inl? eq) .free (told eq.toList) .free :=
  keeps_inl?_hard h hv rfl

theorem keeps_compactLoop {cl : Tok} (hcl : Is .hard cl) (hcv : Seen cl) (os : List Opt) (h : OptsOk false os) (hp : optsPlain false os)
    (hv : ∀ t ∈ os.flatMap Opt.nodes, Seen t) :
    Keeps true (compactLoop cfg cl os) .free (told (os.flatMap Opt.nodes) ++ cl.told) .idle := by
  induction os with
  | nil => exact (keeps_inl_hard hcl hcv rfl).fn (fun f => rfl)
  | cons o os ih =>
    obtain ⟨h1, h2, h3, h4, h5⟩ := h
    obtain ⟨p1, p2⟩ := hp
    rw [if_neg (by simp)] at p1
    obtain ⟨n, hn, hnok⟩ := h1.name
    obtain ⟨v, hval, hok⟩ := h1.val
    obtain ⟨q1, q2⟩ := p1.place
    obtain ⟨hfp, hfl⟩ := q1 n hn
    simp only [List.flatMap_cons, Opt.nodes, hn, hval, h2, Option.toList_none, Option.getD_some, Option.map_some, List.forall_mem_append] at hv
    obtain ⟨⟨_, v2, v3, v4, v5⟩, v6⟩ := hv
    obtain ⟨cs, hcs, hko⟩ := keeps_optNameIn hnok (p1.dots n hn) hfp v2
    rw [hfl, conts_nil, List.nil_append] at hcs
    have hd : ¬ (o.name.isNone ∧ o.eq.isNone ∧ o.val.isNone ∧ o.semi.isSome) := by rw [hn]; simp
    have hg := ((((keeps_setInline (b := true) true .free).comp hko).comp (keeps_setInline false _)).comp
      (keeps_space_free (by simp) (by simp))).comp (keeps_eq h1.eq v3)
    by_cases hs : ∃ ps, v = .strings ps
    · obtain ⟨ps, rfl⟩ := hs
      have hnil : os = [] := by have := h4 _ hval rfl; simpa using this
      subst hnil
      rw [Value.Ok] at hok
      rw [Value.nodes] at v4
      have := (hg.comp (keeps_compoundStrings (cfg := cfg) (by simp) false true ps hok.1 hok.2 v4)).comp (keeps_inl_hard hcl hcv rfl)
      refine (this.told ?_).fn (fun f => ?_)
      · have hq := (q2 rfl).told
        unfold Opt.nodes
        simp [h2, hn, hval, told_append, hcs, hq, Value.nodes]
      · unfold compactLoop; rw [if_neg hd, hval, hn]; rfl
    · have e : ∀ f, compactLoop cfg cl (o :: os) f = compactLoop cfg cl os (between o.semi os
          (v.inl cfg (space (inl? o.eq (space (setInline false (optNameWrite n (setInline true f)))))))) := by
        intro f
        conv => lhs; unfold compactLoop
        rw [if_neg hd]
        simp only [hn, hval]
        cases v <;> first | rfl | exact absurd ⟨_, rfl⟩ hs
      have hsep : Keeps true (between o.semi os) .any (told o.semi.toList) (if os = [] then .any else .free) := by
        cases os with
        | nil =>
          rw [(q2 rfl).told]
          exact (Keeps.id _).fn (fun f => by cases o.semi <;> rfl)
        | cons o' os =>
          obtain ⟨s, hsm⟩ := Option.isSome_iff_exists.1 (h3 (by simp))
          have hs' := (h1.semi s hsm).is
          have hsv := seen_some v5 hsm
          have : Is .hard { s with term := .rune ',' } := ⟨(by decide : punct ',' = true), hs'.leading, hs'.trailing⟩
          rw [hsm]
          refine (((keeps_inl_hard this hsv rfl).comp (keeps_space_free (by simp) (by simp))).told ?_).fn (fun f => rfl)
          rw [List.append_nil, Option.toList_some, told_one]; rfl
      have h6 := (hg.comp (keeps_space_free (by simp) (by simp))).comp (keeps_valueInl (cfg := cfg) hok (p1.val v hval) v4)
      have h7 : Keeps true (compactLoop cfg cl os) (if os = [] then .any else .free) (told (os.flatMap Opt.nodes) ++ cl.told) .idle := by
        split
        · rename_i he; subst he; exact (keeps_inl_hard hcl hcv rfl).fn (fun f => rfl)
        · exact ih h5 p2 v6
      refine (((h6.comp hsep).comp h7).told ?_).fn e
      conv => rhs; rw [List.flatMap_cons, Opt.nodes]
      simp [h2, hn, hval, told_append, hcs]

theorem keeps_compactOpts {c : Compact} (h : CompactOk c) (hp : c.Plain) (hv : ∀ t ∈ c.nodes, Seen t) :
    Keeps false (c.write cfg) .free (told c.nodes) .any := by
  intro f hf
  have hf' := fine_setCompact hf true
  have key : ∀ g : F → F, Keeps true g .free (told c.nodes) .any → Fine false (setCompact false (g (setCompact true f))) .any ∧
      said (setCompact false (g (setCompact true f))).w.out = said f.w.out ++ told c.nodes :=
    fun g hg => ⟨fine_setCompact (hg _ hf').1 false, (hg _ hf').2⟩
  simp only [Compact.nodes, List.forall_mem_cons, List.forall_mem_append] at hv
  obtain ⟨v1, v2, v3, v4⟩ := hv
  have hnodes : told c.nodes = c.op.told ++ told (c.opts.flatMap Opt.nodes) ++ (c.cl.told ++ told c.semi.toList) := by
    unfold Compact.nodes; simp [told_cons, told_append]
  have hp1 := hp.opts
  have hp2 := hp.semi
  by_cases he : c.expanded = true
  · have hne : c.opts ≠ [] := by intro e; unfold Compact.expanded at he; rw [e] at he; cases he
    have ho := h.opts
    rw [he] at ho hp1
    rw [if_pos he] at hp2
    obtain ⟨tss, h1, h2⟩ := keep_opts (cfg := cfg) c.opts ho hp1 v2
    have := keeps_body (b := true) (semi := c.semi) (closeW := bodyEndInline cfg) (openW := openBrace cfg) (k := .free) (k' := .any)
      h.op v1 rfl (keeps_openBrace h.op v1 rfl) (keeps_close h.cl h.semi v3 v4 hp2) (elems := some (columns cfg (optWriters cfg c.opts)))
      (ts := tss.flatten)
      (fun e he => ⟨.idle, rfl, by obtain rfl := (Option.some.inj he).symm; exact keeps_columns h1⟩) (by intro e; cases e)
    have e : c.write cfg f = setCompact false (body c.op c.cl c.semi (some (columns cfg (optWriters cfg c.opts)))
      (openBrace cfg) (bodyEndInline cfg) (setCompact true f)) := by
      unfold Compact.write; rw [he]; simp [hne]
    rw [e]
    refine key _ (this.told ?_)
    rw [hnodes, h2]
  · have he : c.expanded = false := Bool.eq_false_iff.2 he
    have hi := expanded_interior he
    rw [he] at hp1
    rw [if_neg (by rw [he]; simp)] at hp2
    have e : c.write cfg f = setCompact false (if c.opts = [] then setCompact true f else
        compactLoop cfg c.cl c.opts (inl c.op (setCompact true f))) := by
      unfold Compact.write; rw [he, hi]; simp
    rw [e]
    by_cases hne : c.opts = []
    · rw [if_pos hne]
      refine key (fun f => f) (((Keeps.id .free).mono rfl rfl).told ?_)
      obtain ⟨s1, s2⟩ := hp.empty hne
      rw [hnodes, hne, s1.told, s2.told, hp2.told]; rfl
    · rw [if_neg hne]
      have ho := h.opts
      rw [he] at ho
      have := (keeps_inl_hard (b := true) (k := .free) h.op v1 rfl).comp ((keeps_compactLoop (cfg := cfg) h.cl v3 c.opts ho hp1 v2).from)
      refine key (fun f => compactLoop cfg c.cl c.opts (inl c.op f)) (this.to.told ?_)
      rw [hnodes, hp2.told]; simp

theorem keeps_tight? {c : Option Compact} (h : CompactOk? c) (hp : CompactPlain? c) (hv : ∀ t ∈ compactNodes c, Seen t) :
    Keeps false (tight? cfg c) .free (told (compactNodes c)) .any := by
  cases c with
  | none => exact ((Keeps.id .free).mono rfl rfl).fn (fun f => rfl)
  | some c => exact (keeps_compactOpts (h c rfl) (hp c rfl) hv).fn (fun f => rfl)

theorem keeps_compact? {c : Option Compact} (h : CompactOk? c) (hp : CompactPlain? c) (hv : ∀ t ∈ compactNodes c, Seen t) :
    Keeps false (compact? cfg c) .any (told (compactNodes c)) .any := by
  cases c with
  | none => exact (Keeps.id .any).fn (fun f => rfl)
  | some c => exact ((keeps_space_free (by simp) (by simp)).comp (keeps_compactOpts (h c rfl) (hp c rfl) hv)).fn (fun f => rfl)

/-! ### Declared options -/

theorem keeps_opt {o : Opt} (h : OptOk o) (hs : o.semi.isSome = true) (hp : o.Plain .line) (hv : ∀ t ∈ o.nodes, Seen t) :
    Keeps false (o.write cfg) .idle (told o.nodes) .idle := by
  obtain ⟨n, hn, hnok⟩ := h.name
  obtain ⟨v, hval, hok⟩ := h.val
  obtain ⟨s, hsm⟩ := Option.isSome_iff_exists.1 hs
  have hsemi := (h.semi s hsm).is
  obtain ⟨t, hk⟩ := Option.isSome_iff_exists.1 (show o.kw.isSome = true from hp.place)
  simp only [Opt.nodes, hn, hval, hk, hsm, Option.toList_some, Option.getD_some, Option.map_some, List.forall_mem_append,
    List.forall_mem_cons] at hv
  obtain ⟨⟨v1, _⟩, v2, v3, v4, v5, _⟩ := hv
  have hpre : Keeps false (optPrefix cfg o) .idle (t.told ++ (told (n.flatMap Part.src) ++ told o.eq.toList)) .free := by
    have := (((((keeps_start (b := false) (cfg := cfg) (k := .idle) (h.kw t hk) v1 rfl (by simp) (by simp)).comp
      (keeps_space_free (by simp [after]) (by simp [after]))).comp (keeps_optName hnok (hp.dots n hn) v2)).comp
      (keeps_space_free (by simp) (by simp))).comp (keeps_eq h.eq v3)).comp (keeps_space_free (by simp) (by simp))
    refine (this.told (by simp)).fn (fun f => ?_)
    unfold optPrefix; rw [hk, hn]; rfl
  have hle : Keeps false (lineEnd cfg s) .any s.told .idle := keeps_lineEnd hsemi v5 rfl (by simp) (by simp)
  have hout : told o.nodes = t.told ++ (told (n.flatMap Part.src) ++ told o.eq.toList) ++ told v.nodes ++ s.told := by
    unfold Opt.nodes; rw [hk, hn, hval, hsm]; simp [told_cons, told_append, told_nil]
  by_cases hst : ∃ ps, v = .strings ps
  · obtain ⟨ps, rfl⟩ := hst
    rw [Value.Ok] at hok
    rw [Value.nodes] at v4 hout
    have := (hpre.comp (keeps_compoundStrings (cfg := cfg) (by simp) true true ps hok.1 hok.2 v4)).comp hle.from
    refine (this.told hout.symm).fn (fun f => ?_)
    unfold Opt.write; rw [hsm, hval]
  · have := (hpre.comp (keeps_valueInl (cfg := cfg) hok (hp.val v hval) v4)).comp hle
    refine (this.told hout.symm).fn (fun f => ?_)
    unfold Opt.write; rw [hsm, hval]
    cases v <;> first | rfl | exact absurd ⟨_, rfl⟩ hst

end Verif.Formatter
