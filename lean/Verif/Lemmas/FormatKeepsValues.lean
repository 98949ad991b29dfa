import Verif.Lemmas.FormatKeepsColumns
import Verif.Lemmas.FormatValues
/-! The rules for names and literals, for comments. -/
namespace Verif.Formatter
open Verif.Lexer Verif.Comment
open Verif.InlineComment (Comment)
open Verif.ColumnFormat (Field Elem)

variable {b : Bool} {cfg : Cfg}

/-! ### Names -/

theorem keeps_inls {n : Name} {k : K} (h : NameOk n) (hv : ∀ t ∈ n, Seen t) (hk : Accept k .ident = true)
    (hks : k = .slash → (nameFirst n).leading = []) : Keeps b (inls n) k (told n) .ident := by
  fun_induction NameOk n generalizing k with
  | case1 => exact absurd h id
  | case2 t => exact ((keeps_inl h (hv t List.mem_cons_self) hk hks (by simp)).told (told_one t).symm).fn (fun f => rfl)
  | case3 t d ts ih =>
    obtain ⟨h1, h2, h3⟩ := h
    simp only [List.forall_mem_cons] at hv
    obtain ⟨v1, v2, v3⟩ := hv
    exact ((((keeps_inl h1 v1 hk hks (by simp)).comp (keeps_inl h2 v2 (by rfl) (by simp [after]) (by simp))).comp
      (ih h3 v3 (by rfl) (by simp [after]))).told (by simp [told_cons])).fn (fun f => rfl)

theorem keeps_inlsDot {n : Name} {k : K} (h : DotNameOk n) (hv : ∀ t ∈ n, Seen t) (hk : k = .idle ∨ k = .free) :
    Keeps b (inls n) k (told n) .ident := by
  have ha : ∀ c, Accept k c = true := by rcases hk with rfl | rfl <;> intro c <;> rfl
  have hs : k ≠ .slash := by rcases hk with rfl | rfl <;> simp
  cases n with
  | nil => exact absurd h id
  | cons t ts =>
    rcases h with h | ⟨h1, h2⟩
    · exact keeps_inls h hv (ha _) (fun e => absurd e hs)
    · simp only [List.forall_mem_cons] at hv
      exact ((keeps_inl h1 hv.1 (ha _) (fun e => absurd e hs) (by simp)).comp (keeps_inls h2 hv.2 (by rfl) (by simp [after]))).fn (fun f => rfl)

theorem getD_told (sep : Option Tok) (c : Char) : (sep.getD (Tok.new c)).told = told sep.toList := by
  cases sep with
  | none => exact (silent_new c).told
  | some t => exact (told_one t).symm

theorem getD_seen {sep : Option Tok} (c : Char) (h : ∀ t ∈ sep.toList, Seen t) : Seen (sep.getD (Tok.new c)) := by
  cases sep with
  | none => exact seen_new c
  | some t => exact h t (by simp)

theorem seen_some {sep : Option Tok} {t : Tok} (h : ∀ t ∈ sep.toList, Seen t) (e : sep = some t) : Seen t := h t (by rw [e]; simp)

theorem keeps_inl?_hard {t : Option Tok} {k : K} (h : Is? .hard t) (hv : ∀ s ∈ t.toList, Seen s) (hk : k.calm = true) :
    Keeps b (inl? t) k (told t.toList) k := by
  cases t with
  | none => exact (Keeps.id k).fn (fun f => rfl)
  | some t => exact (((keeps_inl_hard (h t rfl) (seen_some hv rfl) hk).to).told (told_one t).symm).fn (fun f => rfl)

/-! ### References -/

theorem keeps_closeRef {r : Ref} {k : K} (h : RefOk r) (hv : ∀ s ∈ r.cl.toList, Seen s) (hk : k.calm = true) (hi : k.le .ident = true) :
    Keeps b (closeRef r) k (told r.cl.toList) .ident := by
  unfold closeRef
  cases hc : r.cl with
  | some t => exact (((keeps_inl_hard (h.cl t hc) (seen_some hv hc) hk).to).told (told_one t).symm).fn (fun f => rfl)
  | none =>
    simp only
    split
    · exact ((keeps_inl_hard (is_new (by decide)) (seen_new _) hk).to).told (silent_new _).told
    · exact (Keeps.id k).mono (by cases k <;> rfl) hi

/-- The middle of a reference in parentheses or brackets. -/
theorem keeps_inner {r : Ref} (h : RefOk r) (hv : ∀ s ∈ r.src, Seen s) :
    Keeps b (fun f => inlName r.name (inl? r.slash (inlName (r.url.getD []) f))) .idle
      (told (r.url.getD []) ++ (told r.slash.toList ++ told r.name)) .ident := by
  simp only [Ref.src, List.forall_mem_append] at hv
  obtain ⟨⟨⟨⟨_, v2⟩, v3⟩, v4⟩, _⟩ := hv
  cases hu : r.url with
  | none =>
    rw [h.slash hu]
    exact (keeps_inlsDot h.name v4 (.inl rfl)).fn (fun f => rfl)
  | some u =>
    obtain ⟨h1, h2, _, h3, s, h4, h5, h6⟩ := h.url u hu
    rw [hu] at v2
    have v3 := seen_some v3 h4
    rw [h4]
    have := ((keeps_inls (b := b) (k := .idle) h1 v2 rfl (by simp)).comp (keeps_inl h5 v3 (by rfl) (by simp) (fun _ => h6))).comp
      (keeps_inls h2 v4 (by rfl) (fun _ => h3))
    exact (this.told (by simp [told_one])).fn (fun f => rfl)

theorem ref_bare {r : Ref} (h : RefOk r) (ho : r.op = none) : r.url = none := by
  cases hu : r.url with
  | none => rfl
  | some u => have := (h.url u hu).2.2.1; rw [ho] at this; cases this

theorem keeps_ref {r : Ref} {k : K} (h : RefOk r) (hv : ∀ s ∈ r.src, Seen s) (hk : Accept k .ident = true) (hks : k ≠ .slash) :
    Keeps b r.write k (told r.src) .ident := by
  have hcalm := accept_calm hk hks
  have hv' := hv
  simp only [Ref.src, List.forall_mem_append] at hv'
  obtain ⟨⟨⟨⟨v1, _⟩, _⟩, v4⟩, v5⟩ := hv'
  cases ho : r.op with
  | none =>
    obtain ⟨h1, h2⟩ := h.bare ho
    have hu := ref_bare h ho
    have hsl := h.slash hu
    have := (keeps_inls (b := b) h1 v4 hk (fun e => absurd e hks)).comp (keeps_closeRef h v5 rfl rfl)
    refine (this.told ?_).fn (fun f => ?_)
    · unfold Ref.src; rw [ho, hu, hsl]; simp [told_append]
    · unfold Ref.write; rw [ho, hu, hsl]; rfl
  | some t =>
    have := ((keeps_inl_hard (b := b) (h.op t ho) (seen_some v1 ho) hcalm).comp (keeps_inner h hv)).comp (keeps_closeRef h v5 rfl rfl)
    refine (this.told ?_).fn (fun f => ?_)
    · unfold Ref.src; rw [ho]; simp [told_append, told_cons]
    · unfold Ref.write; rw [ho]; rfl

/-! ### Values -/

theorem keeps_stringsLoop {k : K} (hk : k.calm = true) (trailing : Bool) (ps : List Tok) (hne : ps ≠ []) (h : ∀ p ∈ ps, Is .hard p)
    (hv : ∀ p ∈ ps, Seen p) : Keeps b (stringsLoop cfg trailing ps) k (told ps) .idle := by
  induction ps generalizing k with
  | nil => exact absurd rfl hne
  | cons p ps ih =>
    have hp := h p List.mem_cons_self
    have hvp := hv p List.mem_cons_self
    have ha := accept_hard hk
    have hs := (K.calm_ne hk).1
    cases ps with
    | nil =>
      cases trailing with
      | true => exact ((keeps_start hp hvp ha hs (by simp)).told (told_one p).symm).fn (fun f => rfl)
      | false => exact ((keeps_lineElement hp hvp ha hs (by simp)).told (told_one p).symm).fn (fun f => rfl)
    | cons q qs =>
      exact ((keeps_lineElement hp hvp ha hs (by simp)).comp
        (ih rfl (by simp) (fun x hx => h x (List.mem_cons_of_mem _ hx)) (fun x hx => hv x (List.mem_cons_of_mem _ hx)))).fn (fun f => rfl)

theorem keeps_compoundStrings {k : K} (hk : k ≠ .slash) (indent trailing : Bool) (ps : List Tok) (hne : ps ≠ [])
    (h : ∀ p ∈ ps, Is .hard p) (hv : ∀ p ∈ ps, Seen p) : Keeps b (compoundStrings cfg indent trailing ps) k (told ps) .idle := by
  cases indent with
  | true =>
    exact (((((keeps_newline hk).comp (keeps_indentIn _)).comp (keeps_stringsLoop rfl trailing ps hne h hv)).comp (keeps_indentOut _)).told
      (by simp)).fn (fun f => rfl)
  | false => exact (((keeps_newline hk).comp (keeps_stringsLoop rfl trailing ps hne h hv)).told (by simp)).fn (fun f => rfl)

/-- The comments that are written together with a value. -/
def Value.writeTold (v : Value) : List (List Str) :=
  match v with
  | .term _ => []
  | v => told v.nodes

theorem writeTold_not {v : Value} (h : ∀ t, v ≠ .term t) : v.writeTold = told v.nodes := by
  cases v <;> first | rfl | exact absurd rfl (h _)

theorem value_cases (v : Value) : (∃ t, v = .term t) ∨ ∀ t, v ≠ .term t := by
  cases v <;> first | exact .inl ⟨_, rfl⟩ | exact .inr (by intro t e; cases e)

/-- A separator that is written after the value has the comments that are not written yet. -/
theorem fieldSemi_told {v : Value} {semi : Option Tok} (h1 : ∀ s t, semi = some s → v = .term t → Silent t)
    (h2 : semi = none → (∀ t, v ≠ .term t) → Silent v.last) (hv : ∀ t ∈ v.nodes, Seen t) (hs : ∀ t ∈ semi.toList, Seen t) :
    v.writeTold ++ (fieldSemi v semi).told = told v.nodes ++ told semi.toList ∧ Seen (fieldSemi v semi) := by
  rcases value_cases v with ⟨t, rfl⟩ | hn
  · cases semi with
    | none =>
      have : Seen t := hv t (by rw [Value.nodes]; simp)
      refine ⟨?_, this⟩
      rw [Value.nodes, told_one]; exact (List.append_nil _).symm
    | some s =>
      refine ⟨?_, hs s (by simp)⟩
      rw [Value.nodes, told_one, (h1 s t rfl rfl).told, Option.toList_some, told_one]; rfl
  · rw [writeTold_not hn]
    cases semi with
    | none =>
      have hq := h2 rfl hn
      have : (fieldSemi v none).told = v.last.told := rfl
      rw [this, hq.told]
      exact ⟨rfl, hq.seen⟩
    | some s =>
      refine ⟨?_, hs s (by simp)⟩
      rw [Option.toList_some, told_one]; rfl

/-! ### Cells -/

theorem fine_drain {g : F} {k k' : K} (h : Fine b g k) : Fine b (drain g).2 k' := by
  obtain ⟨ts, h⟩ := h
  exact ⟨[], rfl, .inl rfl, .inl rfl, h.ok, h.flag⟩

/-- Only the comments of the cells remain to be shown. -/
theorem CellsOk.keep {w : F → F × Field} {ts : List Str} {cs : List (List Str)} (h : CellsOk b w ts)
    (he : ∀ c, Fine b c .idle → fieldTold (w c).2 = said c.w.out ++ cs) : CellsKeep b w cs := by
  intro c hc
  have e := he c hc
  obtain ⟨ts0, hc⟩ := hc
  obtain ⟨h1, h2, h3, h4⟩ := h c ts0 hc
  exact ⟨⟨_, h1⟩, h2, h3, ⟨_, h4⟩, e⟩

/-- A field of a message literal. -/
theorem cellsKeep_field {name : Ref} {sep : Option Tok} {v : Value} {semi : Option Tok} {w : F → F} {ts : List Str} (hn : RefOk name)
    (hsep : Is? .hard sep) (hv : v.Ok) (hs : SemiOk semi) (hw : Emits b w .free ts .any) (hk : Keeps b w .free v.writeTold .any)
    (hp : RefPlain name) (h1 : ∀ s t, semi = some s → v = .term t → Silent t)
    (h2 : semi = none → (∀ t, v ≠ .term t) → Silent v.last) (vn : ∀ t ∈ name.src, Seen t) (vp : ∀ t ∈ sep.toList, Seen t)
    (vv : ∀ t ∈ v.nodes, Seen t) (vs : ∀ t ∈ semi.toList, Seen t) :
    CellsKeep b (fieldCells cfg name sep v semi w) (told name.src ++ (told sep.toList ++ (told v.nodes ++ told semi.toList))) := by
  refine (cells_field (cfg := cfg) hn hsep hv hs hw).keep ?_
  intro c hc
  obtain ⟨s1, s2⟩ := fieldSemi_ok hv hs
  obtain ⟨t1, t2⟩ := fieldSemi_told h1 h2 vv vs
  have hsepE : Keeps b (inl (sep.getD (Tok.new ':'))) .ident (told sep.toList) .idle :=
    (keeps_inl_hard (sep_ok hsep (by decide)) (getD_seen _ vp) rfl).told (getD_told _ _)
  have hend : ∀ s : F, Fine b s .free → said (lineEnd cfg (fieldSemi v semi) (w s)).w.out = said s.w.out ++
      (told v.nodes ++ told semi.toList) := by
    intro s hs
    rw [← t1]
    exact ((hk.comp (keeps_lineEnd (cfg := cfg) (k := .any) s1 t2 rfl (by simp) (by simp))) s hs).2
  have vn' := vn
  simp only [Ref.src, List.forall_mem_append] at vn'
  obtain ⟨⟨⟨⟨v1, _⟩, _⟩, v4⟩, v5⟩ := vn'
  cases ho : name.op with
  | some t =>
    have ht := hn.op t ho
    have hst := seen_some v1 ho
    have k1 : Keeps b (fun f => startPost t.trailing t.rune? (t.write f)) .idle (conts t.trailing) .idle :=
      ((keeps_write ht.term rfl).comp (keeps_startPost rfl ht.trailing hst.2 t.rune?)).told (by simp)
    have k2 := ((k1.comp (keeps_inner hn vn)).comp (keeps_closeRef hn v5 rfl rfl)).comp hsepE
    obtain ⟨a1, a2⟩ := keeps_startPre (b := b) (cfg := cfg) (k := .idle) rfl ht.leading false t.ws t.rune? c hc
    obtain ⟨b1, b2⟩ := k2 _ (fine_drain (k' := .idle) a1)
    have c2 := hend _ (fine_drain b1)
    have e : fieldTold (fieldCells cfg name sep v semi w c).2 = said (startPre cfg false t.ws t.leading t.rune? c).w.out ++ ([] ++
        (said (inl (sep.getD (Tok.new ':')) (closeRef name (inlName name.name (inl? name.slash (inlName (name.url.getD [])
          (startPost t.trailing t.rune? (t.write (drain (startPre cfg false t.ws t.leading t.rune? c)).2))))))).w.out ++ ([] ++
        said (lineEnd cfg (fieldSemi v semi) (w (drain (inl (sep.getD (Tok.new ':')) (closeRef name (inlName name.name (inl? name.slash
          (inlName (name.url.getD []) (startPost t.trailing t.rune? (t.write
            (drain (startPre cfg false t.ws t.leading t.rune? c)).2)))))))).2)).w.out))) := by
      unfold fieldTold fieldCells fieldHead; rw [ho]; rfl
    rw [e, a2, b2, c2]
    have d1 : ∀ g : F, said (drain g).2.w.out = [] := fun _ => rfl
    have e3 : told name.src = t.told ++ (told (name.url.getD []) ++ (told name.slash.toList ++ (told name.name ++ told name.cl.toList))) := by
      unfold Ref.src; rw [ho]; simp [told_append, told_cons]
    rw [d1, d1, e3]
    simp [Tok.told]
  | none =>
    obtain ⟨hname, hcl⟩ := hn.bare ho
    have hu := ref_bare hn ho
    have hsl := hn.slash hu
    obtain ⟨t, hone⟩ := List.length_eq_one_iff.1 (hp ho)
    rw [hone] at hname v4
    have hname : Is .ident t := hname
    have hst := v4 t List.mem_cons_self
    have k1 : Keeps b (fun f => startPost t.trailing none (t.write f)) .idle (conts t.trailing) .ident :=
      ((keeps_write hname.term rfl).comp (keeps_startPost rfl hname.trailing hst.2 none)).told (by simp)
    have k2 := (k1.comp (keeps_closeRef hn v5 rfl rfl)).comp hsepE
    obtain ⟨a1, a2⟩ := keeps_startPre (b := b) (cfg := cfg) (k := .idle) rfl hname.leading false t.ws none c hc
    obtain ⟨b1, b2⟩ := k2 _ (fine_drain (k' := .idle) a1)
    have c2 := hend _ (fine_drain b1)
    have e : fieldTold (fieldCells cfg name sep v semi w c).2 = said (startPre cfg false t.ws t.leading none c).w.out ++ ([] ++
        (said (inl (sep.getD (Tok.new ':')) (closeRef name
          (startPost t.trailing none (t.write (drain (startPre cfg false t.ws t.leading none c)).2)))).w.out ++ ([] ++
        said (lineEnd cfg (fieldSemi v semi) (w (drain (inl (sep.getD (Tok.new ':')) (closeRef name
          (startPost t.trailing none (t.write (drain (startPre cfg false t.ws t.leading none c)).2))))).2)).w.out))) := by
      unfold fieldTold fieldCells fieldHead; rw [ho]; simp only [hone]; rfl
    rw [e, a2, b2, c2]
    have d1 : ∀ g : F, said (drain g).2.w.out = [] := fun _ => rfl
    have e3 : told name.src = t.told ++ told name.cl.toList := by
      unfold Ref.src; rw [ho, hu, hsl, hone]; simp [told_cons]
    rw [d1, d1, e3]
    simp [Tok.told]

/-! ### Values of all kinds -/

theorem keeps_inlWith {v : Value} {w : F → F} (hv : v.Ok) (hs : ∀ t ∈ v.nodes, Seen t) (hw : Keeps b w .free v.writeTold .any) :
    Keeps b (inlWith v w) .free (told v.nodes) .any := by
  have h : Keeps b (fun f => setInline false (w (setInline true f))) .free v.writeTold .any :=
    (((keeps_setInline true _).comp hw).comp (keeps_setInline false _)).told (by simp)
  cases v with
  | term t =>
    rw [Value.Ok] at hv
    obtain ⟨c, h1, h2, h3⟩ := cls_value hv
    refine ((keeps_inl (k := .free) h1 (hs t (by rw [Value.nodes]; simp)) rfl (by simp) (fun e => absurd e h2)).mono rfl h3).told ?_ |>.fn
      (fun f => rfl)
    rw [Value.nodes, told_one]
  | _ => exact h

theorem keeps_lineEndWith {v : Value} {w : F → F} (hv : v.Ok) (hs : ∀ t ∈ v.nodes, Seen t) (hw : Keeps b w .free v.writeTold .any) :
    Keeps b (lineEndWith cfg v w) .free (told v.nodes) .idle := by
  have h : Keeps b (fun f => if (w f).w.last ≠ '\n' then newline (w f) else w f) .free v.writeTold .idle := by
    intro f hf
    obtain ⟨h1, h2⟩ := hw f hf
    beta_reduce
    split
    · obtain ⟨h3, h4⟩ := keeps_newline (by simp) _ h1
      exact ⟨h3, by rw [h4, h2, List.append_nil]⟩
    · rename_i hl
      obtain ⟨ts, h1⟩ := h1
      exact ⟨⟨ts, { h1 with fit := .inl (h1.at_newline (Decidable.byContradiction hl)) }⟩, h2⟩
  cases v with
  | term t =>
    rw [Value.Ok] at hv
    obtain ⟨c, h1, h2, h3⟩ := cls_value hv
    refine (keeps_lineEnd h1 (hs t (by rw [Value.nodes]; simp)) rfl (by simp) h2).told ?_ |>.fn (fun f => rfl)
    rw [Value.nodes, told_one]
  | _ => exact h

theorem keeps_arraySep {comma : Option Tok} {inlined : Bool} (h : SemiOk comma) (hs : comma.isSome = true)
    (hv : ∀ t ∈ comma.toList, Seen t) : Keeps b (arraySep cfg inlined comma) .any (told comma.toList) .free := by
  obtain ⟨c, rfl⟩ := Option.isSome_iff_exists.1 hs
  have hc := (h c rfl).is
  have hv := seen_some hv rfl
  cases inlined with
  | true => exact (((keeps_inl_hard hc hv rfl).comp (keeps_space_free (by simp) (by simp))).told (by simp [told_one])).fn (fun f => rfl)
  | false => exact ((keeps_lineEnd hc hv rfl (by simp) (by simp)).to.told (told_one c).symm).fn (fun f => rfl)

theorem keeps_close {cl : Tok} {semi : Option Tok} (hcl : Is .hard cl) (hs : SemiOk semi) (hv : Seen cl) (hsv : ∀ t ∈ semi.toList, Seen t)
    (hp : EndPlain cl semi) : ∀ k0 : K, k0.calm = true → ∀ i, Keeps b (bodyEndInline cfg cl semi i) k0 (cl.told ++ told semi.toList) .any :=
  fun k0 hk i => (keeps_bodyEndInline hcl hv (accept_hard hk) (K.calm_ne hk).1 (by simp) hs hsv hp i).to

theorem keeps_close' {cl : Tok} {semi : Option Tok} (hcl : Is .hard cl) (hs : SemiOk semi) (hv : Seen cl)
    (hp : EndPlain cl semi) : ∀ k0 : K, k0.calm = true → ∀ i, Keeps b (bodyEnd cfg cl semi i) k0 (cl.told ++ told semi.toList) .any :=
  fun k0 hk i => (keeps_bodyEnd hcl hv (accept_hard hk) (K.calm_ne hk).1 (by simp) hs hp i).to

mutual
theorem keeps_value (v : Value) (h : v.Ok) (hp : v.Plain) (hv : ∀ t ∈ v.nodes, Seen t) :
    Keeps b (v.write cfg) .free v.writeTold .any := by
  cases v with
  | term t =>
    rw [Value.Ok] at h
    obtain ⟨c, h1, h2, h3⟩ := cls_value h
    exact ((keeps_write (k := .free) h1.term rfl).mono rfl h3).fn (fun f => by rw [Value.write])
  | ident ts =>
    rw [Value.Ok] at h
    rw [Value.nodes] at hv
    refine ((keeps_inlsDot h hv (.inr rfl)).mono rfl rfl).told ?_ |>.fn (fun f => by rw [Value.write])
    show _ = told (Value.ident ts).nodes
    rw [Value.nodes]
  | neg s n =>
    rw [Value.Ok] at h
    obtain ⟨h1, h2⟩ := h
    simp only [Value.nodes, List.forall_mem_cons] at hv
    obtain ⟨v1, v2, _⟩ := hv
    have hn : Keeps b (inl n) .idle n.told .any := by
      rcases h2 with h2 | h2
      · exact (keeps_inl (k := .idle) h2 v2 rfl (by simp) (by simp)).mono rfl rfl
      · exact (keeps_inl (k := .idle) h2 v2 rfl (by simp) (by simp)).mono rfl rfl
    refine ((keeps_inl h1 v1 rfl (by simp) (by simp)).comp hn).told ?_ |>.fn (fun f => by rw [Value.write])
    show _ = told (Value.neg s n).nodes
    rw [Value.nodes]; simp [told_cons, told_nil]
  | strings ps =>
    rw [Value.Ok] at h
    rw [Value.nodes] at hv
    refine (keeps_compoundStrings (by simp) true true ps h.1 h.2 hv).to.told ?_ |>.fn (fun f => by rw [Value.write])
    show _ = told (Value.strings ps).nodes
    rw [Value.nodes]
  | array op vs cl semi =>
    rw [Value.Ok] at h
    obtain ⟨h1, h2, h3, h4⟩ := h
    rw [Value.Plain] at hp
    obtain ⟨p1, p2⟩ := hp
    simp only [Value.nodes, List.forall_mem_cons, List.forall_mem_append] at hv
    obtain ⟨v1, v2, v3, v4⟩ := hv
    have key : Keeps b (body op cl semi (match vs with | .nil => none | .cons .. => some (Values.write cfg (!expandedA vs) vs))
      (if !expandedA vs then openBraceInline else openBrace cfg) (bodyEndInline cfg)) .free
        (op.told ++ told (Values.nodes vs) ++ (cl.told ++ told semi.toList)) .any := by
      refine keeps_body h1 v1 rfl ?_ (keeps_close h3 h4 v3 v4 p2) ?_ ?_
      · split
        · exact keeps_openBraceInline h1 v1 rfl
        · exact keeps_openBrace h1 v1 rfl
      · intro e he
        refine ⟨.any, rfl, ?_⟩
        cases vs with
        | nil => cases he
        | cons v c vs =>
          obtain rfl := (Option.some.inj he).symm
          exact (keeps_values _ _ h2 p1 v2).from
      · intro e
        cases vs with
        | nil => rw [Values.nodes]; rfl
        | cons v c vs => cases e
    refine key.told ?_ |>.fn (fun f => ?_)
    · show _ = told (Value.array op vs cl semi).nodes
      rw [Value.nodes]; simp [told_cons, told_append]
    · cases vs <;> simp only [Value.write]
  | msg op fs cl semi =>
    rw [Value.Ok] at h
    obtain ⟨h1, h2, h3, h4⟩ := h
    rw [Value.Plain] at hp
    obtain ⟨p1, p2⟩ := hp
    simp only [Value.nodes, List.forall_mem_cons, List.forall_mem_append] at hv
    obtain ⟨v1, v2, v3, v4⟩ := hv
    have hn : (Value.msg op fs cl semi).writeTold = op.told ++ told (MFields.nodes fs) ++ (cl.told ++ told semi.toList) := by
      show told (Value.msg op fs cl semi).nodes = _
      rw [Value.nodes]; simp [told_cons, told_append]
    rw [hn]
    by_cases he : expandedM fs = true
    · rw [he] at p1
      rw [if_pos he] at p2
      obtain ⟨tss, h5, h6⟩ := keep_fields fs h2 p1 v2
      have := keeps_body (b := b) (semi := semi) (closeW := bodyEndInline cfg) (openW := openBrace cfg) (k := .free) (k' := .any) h1 v1 rfl
        (keeps_openBrace h1 v1 rfl) (keeps_close h3 h4 v3 v4 p2) (elems := some (columns cfg (MFields.writers cfg fs))) (ts := tss.flatten)
        (fun e he => ⟨.idle, rfl, by obtain rfl := (Option.some.inj he).symm; exact keeps_columns h5⟩) (by intro e; cases e)
      refine this.told ?_ |>.fn (fun f => ?_)
      · rw [h6]
      · rw [Value.write, if_pos he]
    · rw [Bool.eq_false_iff.2 he] at p1
      rw [if_neg he] at p2
      have := ((keeps_inl_hard (b := b) (k := .free) h1 v1 rfl).comp ((keeps_compact fs h2 p1 v2).from)).comp (keeps_inl_hard h3 v3 rfl)
      refine this.to.told ?_ |>.fn (fun f => ?_)
      · rw [p2.told]; simp
      · rw [Value.write, if_neg he]
theorem keeps_values (inlined : Bool) (vs : Values) (h : vs.Ok) (hp : vs.Plain) (hv : ∀ t ∈ vs.nodes, Seen t) :
    Keeps b (vs.write cfg inlined) .free (told vs.nodes) .any := by
  cases vs with
  | nil =>
    refine ((Keeps.id .free).mono rfl rfl).told ?_ |>.fn (fun f => by rw [Values.write])
    rw [Values.nodes]; rfl
  | cons v comma vs =>
    rw [Values.Ok] at h
    obtain ⟨h1, h2, h3, h4, h5⟩ := h
    rw [Values.Plain] at hp
    obtain ⟨p1, p2, p3⟩ := hp
    simp only [Values.nodes, List.forall_mem_append] at hv
    obtain ⟨v1, v2, v3⟩ := hv
    have hsep : vs.isNil = false → Keeps b (fun f => Values.write cfg inlined vs (arraySep cfg inlined comma f)) .any
        (told comma.toList ++ told (Values.nodes vs)) .any := by
      intro hn
      exact (keeps_arraySep h3 (h4 hn) v2).comp (keeps_values inlined vs h5 p3 v3)
    rcases value_cases v with ⟨t, rfl⟩ | hv'
    · rw [Value.Ok] at h2
      obtain ⟨c, h6, h7, h8⟩ := cls_value h2
      have vt : Seen t := v1 t (by rw [Value.nodes]; simp)
      cases vs with
      | nil =>
        have : Keeps b (fun f => if inlined then bodyEndInline cfg t none true f else lineElement cfg t f) .free t.told .any := by
          cases inlined with
          | true =>
            exact ((keeps_bodyEndInline (k := .free) h6 vt rfl (by simp) h7 semiOk_none (by simp) endPlain_none true).mono rfl h8).told
              (by simp [told_nil])
          | false => exact (keeps_lineElement h6 vt rfl (by simp) h7).to
        refine this.told ?_ |>.fn (fun f => by rw [Values.write])
        rw [Values.nodes, Value.nodes, Values.nodes]
        have := (p2 rfl).told
        simp [told_cons, this]
      | cons w d ws =>
        have := ((keeps_startMaybe (cfg := cfg) (k := .free) h6 vt rfl (by simp) h7 inlined).mono (k0 := .free) rfl h8).comp (hsep rfl)
        refine this.told ?_ |>.fn (fun f => ?_)
        · conv => rhs; rw [Values.nodes, Value.nodes]
          simp [told_append, told_cons]
        · conv => lhs; rw [Values.write.eq_3 (x_2 := by intro e; cases e)]
    · cases vs with
      | nil =>
        refine (keeps_forArray (!inlined) v h2 p1 v1 h1 hv').told ?_ |>.fn (fun f => ?_)
        · rw [Values.nodes, Values.nodes]; simp [told_append, (p2 rfl).told]
        · cases v <;> first | exact absurd rfl (hv' _) | simp only [Values.write]
      | cons w d ws =>
        have := (keeps_forArray false v h2 p1 v1 h1 hv').comp (hsep rfl)
        refine this.told ?_ |>.fn (fun f => ?_)
        · conv => rhs; rw [Values.nodes]
          rw [told_append, told_append]
        · cases v <;> first | exact absurd rfl (hv' _) | (conv => lhs; simp only [Values.write])
theorem keeps_forArray (last : Bool) (v : Value) (h : v.Ok) (hp : v.Plain) (hv : ∀ t ∈ v.nodes, Seen t) (ha : v.inArray = true)
    (ht : ∀ t, v ≠ .term t) : Keeps b (v.forArray cfg last) .free (told v.nodes) .any := by
  cases v with
  | term t => exact absurd rfl (ht t)
  | ident ts => cases ha
  | array op vs cl semi => cases ha
  | strings ps =>
    rw [Value.Ok] at h
    rw [Value.nodes] at hv ⊢
    exact (keeps_stringsLoop rfl (!last) ps h.1 h.2 hv).to.fn (fun f => by rw [Value.forArray]; rfl)
  | neg s n =>
    rw [Value.Ok] at h
    obtain ⟨h1, h2⟩ := h
    simp only [Value.nodes, List.forall_mem_cons] at hv
    obtain ⟨v1, v2, _⟩ := hv
    have hn : ∃ c, Is c n ∧ c ≠ .slash ∧ (after c).le .any = true := cls_value (.inr h2.symm)
    obtain ⟨c, h3, h4, h5⟩ := hn
    have : Keeps b (negForArray cfg last s n) .free (s.told ++ n.told) .any := by
      cases last with
      | true => exact ((keeps_start h1 v1 rfl (by simp) (by simp)).comp (keeps_lineEnd h3 v2 rfl (by simp [after]) h4)).to.fn (fun f => rfl)
      | false =>
        exact (((keeps_start (k := .free) h1 v1 rfl (by simp) (by simp)).comp (keeps_inl h3 v2 rfl (by simp [after]) (fun e => absurd e h4))).mono
          rfl h5).fn (fun f => rfl)
    refine this.told ?_ |>.fn (fun f => by rw [Value.forArray])
    rw [Value.nodes]; simp [told_cons, told_nil]
  | msg op fs cl semi =>
    rw [Value.Ok] at h
    obtain ⟨h1, h2, h3, h4⟩ := h
    rw [Value.Plain] at hp
    obtain ⟨p1, p2⟩ := hp
    simp only [Value.nodes, List.forall_mem_cons, List.forall_mem_append] at hv
    obtain ⟨v1, v2, v3, v4⟩ := hv
    have hn : told (Value.msg op fs cl semi).nodes = op.told ++ told (MFields.nodes fs) ++ (cl.told ++ told semi.toList) := by
      rw [Value.nodes]; simp [told_cons, told_append]
    rw [hn]
    by_cases he : expandedM fs = true
    · rw [he] at p1
      rw [if_pos he] at p2
      obtain ⟨tss, h5, h6⟩ := keep_fields fs h2 p1 v2
      have hc : ∀ k0 : K, k0.calm = true → ∀ i, Keeps b ((if last then bodyEnd cfg else bodyEndInline cfg) cl semi i) k0
          (cl.told ++ told semi.toList) .any := by
        intro k0 hk i
        cases last with
        | true => exact keeps_close' h3 h4 v3 p2 k0 hk i
        | false => exact keeps_close h3 h4 v3 v4 p2 k0 hk i
      have := keeps_body (b := b) (semi := semi) (openW := openBraceForArray cfg) (k := .free) (k' := .any) h1 v1 rfl
        (keeps_openBraceForArray h1 rfl) hc (elems := some (columns cfg (MFields.writers cfg fs))) (ts := tss.flatten)
        (fun e he => ⟨.idle, rfl, by obtain rfl := (Option.some.inj he).symm; exact keeps_columns h5⟩) (by intro e; cases e)
      refine this.told ?_ |>.fn (fun f => ?_)
      · rw [h6]
      · rw [Value.forArray, if_pos he]
    · rw [Bool.eq_false_iff.2 he] at p1
      rw [if_neg he] at p2
      have := (((keeps_indentation (b := b) (k := .free) op.rune?).comp (keeps_inl_hard h1 v1 rfl)).comp ((keeps_compact fs h2 p1 v2).from)).comp
        (keeps_inl_hard h3 v3 rfl)
      have h7 : Keeps b (fun f => (if last then newline (inl cl (MFields.compact cfg fs (inl op (indentation op.rune? f)))) else
          (inl cl (MFields.compact cfg fs (inl op (indentation op.rune? f)))))) .free (op.told ++ told (MFields.nodes fs) ++ cl.told) .any := by
        cases last with
        | true => exact (this.comp (keeps_newline (by simp))).to.told (by simp)
        | false => exact this.to.told (by simp)
      refine h7.told ?_ |>.fn (fun f => ?_)
      · rw [p2.told]; simp
      · rw [Value.forArray, if_neg he]
theorem keeps_compact (fs : MFields) (h : fs.Ok) (hp : fs.Plain false) (hv : ∀ t ∈ fs.nodes, Seen t) :
    Keeps b (fs.compact cfg) .free (told fs.nodes) .any := by
  cases fs with
  | nil =>
    refine ((Keeps.id .free).mono rfl rfl).told ?_ |>.fn (fun f => by rw [MFields.compact])
    rw [MFields.nodes]; rfl
  | cons name sep v semi fs =>
    rw [MFields.Ok] at h
    obtain ⟨h1, h2, h3, h4, h5⟩ := h
    simp only [MFields.Plain, Bool.false_eq_true, if_false] at hp
    obtain ⟨p1, p2, p3⟩ := hp
    simp only [MFields.nodes, List.forall_mem_append] at hv
    obtain ⟨v1, v2, v3, v4, v5⟩ := hv
    have h6 := ((((((keeps_setInline (b := b) true .free).comp (keeps_ref h1 v1 rfl (by simp))).comp (keeps_setInline false _)).comp
      (keeps_inl_hard (sep_ok h2 (c := ':') (by decide)) (getD_seen _ v2) rfl)).comp (keeps_space_free (by simp) (by simp))).comp
      (keeps_inlWith h3 v3 (keeps_value v h3 p1 v3)))
    have h6 := h6.told (a' := told name.src ++ (told sep.toList ++ told v.nodes)) (by rw [getD_told]; simp)
    cases fs with
    | nil =>
      refine h6.told ?_ |>.fn (fun f => by rw [MFields.compact])
      have p3 : Silent? semi := p3
      rw [MFields.nodes, MFields.nodes]; simp [told_append, p3.told]
    | cons n' s' v' m' fs =>
      have hsem : Is .hard (semi.getD (Tok.new ',')) := sep_ok (fun s hs => (h4 s hs).is) (by decide)
      have := ((h6.comp (keeps_inl_hard hsem (getD_seen _ v4) rfl)).comp (keeps_space_free (by simp) (by simp))).comp (keeps_compact _ h5 p2 v5)
      refine this.told ?_ |>.fn (fun f => ?_)
      · conv => rhs; rw [MFields.nodes]
        rw [getD_told]; simp [told_append]
      · simp only [MFields.compact]
theorem keep_fields (fs : MFields) (h : fs.Ok) (hp : fs.Plain true) (hv : ∀ t ∈ fs.nodes, Seen t) :
    ∃ tss, List.Forall₂ (fun (p : Elem × Writer) ts => WriterKeep b p.1 p.2 ts) (fs.writers cfg) tss ∧ tss.flatten = told fs.nodes := by
  cases fs with
  | nil => exact ⟨[], by rw [MFields.writers]; exact .nil, by rw [MFields.nodes]; rfl⟩
  | cons name sep v semi fs =>
    rw [MFields.Ok] at h
    obtain ⟨h1, h2, h3, h4, h5⟩ := h
    simp only [MFields.Plain, if_true] at hp
    obtain ⟨p1, p2, p3, p4⟩ := hp
    simp only [MFields.nodes, List.forall_mem_append] at hv
    obtain ⟨v1, v2, v3, v4, v5⟩ := hv
    obtain ⟨tss, h6, h7⟩ := keep_fields fs h5 p2 v5
    refine ⟨(told name.src ++ (told sep.toList ++ (told v.nodes ++ told semi.toList))) :: tss, ?_, ?_⟩
    · rw [MFields.writers]
      refine .cons ⟨by simp [fieldElem], Keeps.id _, ?_⟩ h6
      refine cellsKeep_field h1 h2 h3 h4 (emits_value v h3) (keeps_value v h3 p1 v3) p3 ?_ ?_ v1 v2 v3 v4
      · rintro s t rfl rfl; exact p4
      · rintro rfl hn
        cases v <;> first | exact absurd rfl (hn _) | exact p4
    · rw [List.flatten_cons, h7]
      conv => rhs; rw [MFields.nodes]
      simp [told_append]
end

theorem keeps_valueInl {v : Value} (h : v.Ok) (hp : v.Plain) (hv : ∀ t ∈ v.nodes, Seen t) :
    Keeps b (v.inl cfg) .free (told v.nodes) .any := keeps_inlWith h hv (keeps_value v h hp hv)

end Verif.Formatter
