import Verif.Lemmas.FormatColumns
/-! The rules for names, literals and options. -/
namespace Verif.Formatter
open Verif.Lexer Verif.Comment
open Verif.InlineComment (Comment)
open Verif.ColumnFormat (Field Elem)

variable {b : Bool} {cfg : Cfg}

/-! ### Names -/

theorem nameOk_ne {n : Name} (h : NameOk n) : n ≠ [] := by rintro rfl; exact h

theorem emits_inls {n : Name} {k : K} (h : NameOk n) (hk : Accept k .ident = true)
    (hks : k = .slash → (nameFirst n).leading = []) : Emits b (inls n) k (strs n) .ident := by
  fun_induction NameOk n generalizing k with
  | case1 => exact absurd h id
  | case2 t => exact (emits_inl h hk hks (by simp)).fn (fun f => rfl)
  | case3 t d ts ih =>
    obtain ⟨h1, h2, h3⟩ := h
    exact (((emits_inl h1 hk hks (by simp)).comp (emits_inl h2 (by rfl) (by simp [after]) (by simp))).comp
      (ih h3 (by rfl) (by simp [after]))).fn (fun f => rfl)

theorem emits_inlsDot {n : Name} {k : K} (h : DotNameOk n) (hk : k = .idle ∨ k = .free) : Emits b (inls n) k (strs n) .ident := by
  have ha : ∀ c, Accept k c = true := by rcases hk with rfl | rfl <;> intro c <;> rfl
  have hs : k ≠ .slash := by rcases hk with rfl | rfl <;> simp
  cases n with
  | nil => exact absurd h id
  | cons t ts =>
    rcases h with h | ⟨h1, h2⟩
    · exact emits_inls h (ha _) (fun e => absurd e hs)
    · exact ((emits_inl h1 (ha _) (fun e => absurd e hs) (by simp)).comp (emits_inls h2 (by rfl) (by simp [after]))).fn (fun f => rfl)

theorem emits_nameWrite {n : Name} {k : K} (h : NameOk n) (hk : Accept k .ident = true) (hks : k ≠ .slash) :
    Emits b (nameWrite n) k (strs n) .ident := by
  unfold nameWrite
  split
  · rename_i t
    exact (emits_write h.term hk).toks rfl
  · exact emits_inls h hk (fun e => absurd e hks)

theorem nameOk_first {n : Name} (h : NameOk n) : Is .ident (nameFirst n) := by
  fun_induction NameOk n with
  | case1 => exact absurd h id
  | case2 t => exact h
  | case3 t d ts ih => exact h.1

theorem nameOk_last {n : Name} (h : NameOk n) : Is .ident (nameLast n) := by
  fun_induction NameOk n with
  | case1 => exact absurd h id
  | case2 t => exact h
  | case3 t d ts ih =>
    have := ih h.2.2
    have hne := nameOk_ne h.2.2
    unfold nameLast at this ⊢
    cases ts with
    | nil => exact absurd rfl hne
    | cons x ts => simpa [List.getLastD_cons] using this

theorem dotNameOk_first {n : Name} (h : DotNameOk n) : ∃ c, Is c (nameFirst n) := by
  cases n with
  | nil => exact absurd h id
  | cons t ts =>
    rcases h with h | ⟨h1, _⟩
    · exact ⟨_, nameOk_first h⟩
    · exact ⟨_, h1⟩

theorem dotNameOk_last {n : Name} (h : DotNameOk n) : Is .ident (nameLast n) := by
  cases n with
  | nil => exact absurd h id
  | cons t ts =>
    rcases h with h | ⟨h1, h2⟩
    · exact nameOk_last h
    · have := nameOk_last h2
      have hne := nameOk_ne h2
      unfold nameLast at this ⊢
      cases ts with
      | nil => exact absurd rfl hne
      | cons x ts => simpa [List.getLastD_cons] using this

theorem emits_inl?_hard {t : Option Tok} {k : K} (h : Is? .hard t) (hk : k.calm = true) : Emits b (inl? t) k (str? t) k := by
  cases t with
  | none => exact (Emits.id k).fn (fun f => rfl)
  | some t => exact ((emits_inl_hard (h t rfl) hk).to).fn (fun f => rfl)

/-! ### References -/

theorem emits_closeRef {r : Ref} {k : K} (h : RefOk r) (hk : k.calm = true) (hi : k.le .ident = true) :
    Emits b (closeRef r) k r.close .ident := by
  unfold closeRef Ref.close
  cases hc : r.cl with
  | some t => exact ((emits_inl_hard (h.cl t hc) hk).to).fn (fun f => rfl)
  | none =>
    simp only
    split
    · exact (emits_inl_hard (is_new (by decide)) hk).to
    · exact (Emits.id k).mono (by cases k <;> rfl) hi

/-- The middle of a reference in parentheses or brackets. -/
theorem emits_inner {r : Ref} (h : RefOk r) :
    Emits b (fun f => inlName r.name (inl? r.slash (inlName (r.url.getD []) f))) .idle
      (strs (r.url.getD []) ++ (str? r.slash ++ strs r.name)) .ident := by
  cases hu : r.url with
  | none =>
    rw [h.slash hu]
    exact (emits_inlsDot h.name (.inl rfl)).fn (fun f => rfl)
  | some u =>
    obtain ⟨h1, h2, _, h3, s, h4, h5, h6⟩ := h.url u hu
    rw [h4]
    have := ((emits_inls (b := b) (k := .idle) h1 rfl (by simp)).comp (emits_inl h5 (by rfl) (by simp) (fun _ => h6))).comp
      (emits_inls h2 (by rfl) (fun _ => h3))
    exact (this.toks (by simp [str?, strs])).fn (fun f => rfl)

theorem emits_ref {r : Ref} {k : K} (h : RefOk r) (hk : Accept k .ident = true) (hks : k ≠ .slash) :
    Emits b r.write k r.out .ident := by
  have hcalm := accept_calm hk hks
  cases ho : r.op with
  | none =>
    obtain ⟨h1, h2⟩ := h.bare ho
    have hu : r.url = none := by
      cases hu : r.url with
      | none => rfl
      | some u => have := (h.url u hu).2.2.1; rw [ho] at this; cases this
    have hsl := h.slash hu
    have := (emits_inls (b := b) h1 hk (fun e => absurd e hks)).comp (emits_closeRef h rfl rfl)
    refine (this.toks ?_).fn (fun f => ?_)
    · unfold Ref.out; rw [ho, hu, hsl]; rfl
    · unfold Ref.write; rw [ho, hu, hsl]; rfl
  | some t =>
    have := ((emits_inl_hard (b := b) (h.op t ho) hcalm).comp (emits_inner h)).comp (emits_closeRef h rfl rfl)
    refine (this.toks ?_).fn (fun f => ?_)
    · unfold Ref.out; rw [ho]; simp [str?, strs]
    · unfold Ref.write; rw [ho]; rfl

/-! ### Values -/

theorem cls_value {t : Tok} (h : Is .hard t ∨ Is .ident t ∨ Is .num t) :
    ∃ c, Is c t ∧ c ≠ .slash ∧ (after c).le .any = true := by
  rcases h with h | h | h
  · exact ⟨_, h, by simp, rfl⟩
  · exact ⟨_, h, by simp, rfl⟩
  · exact ⟨_, h, by simp, rfl⟩

theorem accept_hard {k : K} (hk : k.calm = true) : Accept k .hard = true := by cases k <;> simp_all [Accept, K.calm]

theorem emits_stringsLoop {k : K} (hk : k.calm = true) (trailing : Bool) (ps : List Tok) (hne : ps ≠ []) (h : ∀ p ∈ ps, Is .hard p) :
    Emits b (stringsLoop cfg trailing ps) k (strs ps) .idle := by
  induction ps generalizing k with
  | nil => exact absurd rfl hne
  | cons p ps ih =>
    have hp := h p List.mem_cons_self
    have ha := accept_hard hk
    have hs := (K.calm_ne hk).1
    cases ps with
    | nil =>
      cases trailing with
      | true => exact (emits_start hp ha hs (by simp)).fn (fun f => rfl)
      | false => exact (emits_lineElement hp ha hs (by simp)).fn (fun f => rfl)
    | cons q qs =>
      exact ((emits_lineElement hp ha hs (by simp)).comp
        (ih rfl (by simp) (fun x hx => h x (List.mem_cons_of_mem _ hx)))).fn (fun f => rfl)

theorem emits_compoundStrings {k : K} (hk : k ≠ .slash) (indent trailing : Bool) (ps : List Tok) (hne : ps ≠ [])
    (h : ∀ p ∈ ps, Is .hard p) : Emits b (compoundStrings cfg indent trailing ps) k (strs ps) .idle := by
  cases indent with
  | true =>
    exact (((((emits_newline hk).comp (emits_indentIn _)).comp (emits_stringsLoop rfl trailing ps hne h)).comp (emits_indentOut _)).toks
      (by simp)).fn (fun f => rfl)
  | false => exact (((emits_newline hk).comp (emits_stringsLoop rfl trailing ps hne h)).toks (by simp)).fn (fun f => rfl)

theorem value_last {v : Value} (h : v.Ok) : ∃ c, Is c v.last := by
  cases v with
  | term t => rw [Value.Ok] at h; obtain ⟨c, h, _⟩ := cls_value h; exact ⟨c, h⟩
  | ident ts => rw [Value.Ok] at h; exact ⟨_, dotNameOk_last h⟩
  | neg s n => rw [Value.Ok] at h; rcases h.2 with h | h <;> exact ⟨_, h⟩
  | strings ps =>
    rw [Value.Ok] at h
    refine ⟨.hard, h.2 _ ?_⟩
    show nameLast ps ∈ ps
    unfold nameLast
    cases ps with
    | nil => exact absurd rfl h.1
    | cons p ps => rw [List.getLastD_eq_getLast?, List.getLast?_eq_some_getLast (by simp)]; exact List.getLast_mem _
  | array op vs cl semi => rw [Value.Ok] at h; exact ⟨_, h.2.2.1⟩
  | msg op fs cl semi => rw [Value.Ok] at h; exact ⟨_, h.2.2.1⟩

theorem fieldSemi_ok {v : Value} {semi : Option Tok} (hv : v.Ok) (hs : SemiOk semi) : Is .hard (fieldSemi v semi) ∧
    (fieldSemi v semi).str = [','] := by
  unfold fieldSemi
  cases semi with
  | none =>
    obtain ⟨c, h⟩ := value_last hv
    exact ⟨⟨(by decide : punct ',' = true), h.leading, h.trailing⟩, rfl⟩
  | some t => exact ⟨⟨(by decide : punct ',' = true), (hs t rfl).is.leading, (hs t rfl).is.trailing⟩, rfl⟩

theorem sep_ok {sep : Option Tok} (h : Is? .hard sep) {c : Char} (hc : punct c = true) : Is .hard (sep.getD (Tok.new c)) := by
  cases sep with
  | none => exact is_new hc
  | some t => exact h t rfl

/-! ### Cells -/

theorem drain_piece {g : F} {ts : List Str} {k : K} (h : Good b g ts k) (hk : k.calm = true) :
    Piece (drain g).1 ts ∧ Good b (drain g).2 [] .idle :=
  ⟨⟨h.lexed, clean_of_calm hk h.fit⟩, ⟨rfl, .inl rfl, .inl rfl, h.ok, h.flag⟩⟩

theorem drain_text {g : F} {ts : List Str} (h : Good b g ts .idle) : lexFrom .idle (drain g).1 = (ts, .idle) := by
  have h1 := h.lexed
  have h2 := h.mode
  rw [h2] at h1
  simp only [done, List.append_nil] at h1
  exact Prod.ext h1 h2

theorem drain_lineEnd {g : F} {ts : List Str} (h : Good b g ts .idle) (hl : g.w.last = '\n') (hne : ts ≠ []) :
    (drain g).1.getLast? = some '\n' := by
  have : g.w.out ≠ [] := by
    intro e
    have := h.lexed
    rw [e] at this
    exact hne this.symm
  have := h.last.resolve_left this
  rw [hl] at this
  exact this

theorem piece_nil : Piece [] [] := ⟨rfl, trivial⟩

theorem setPrev_last (x : Bool) (f : F) : (setPrev x f).w.last = f.w.last := rfl

/-- A field of a message literal. -/
theorem cells_field {name : Ref} {sep : Option Tok} {v : Value} {semi : Option Tok} {w : F → F} {ts : List Str} (hn : RefOk name)
    (hsep : Is? .hard sep) (hv : v.Ok) (hs : SemiOk semi) (hw : Emits b w .free ts .any) :
    CellsOk b (fieldCells cfg name sep v semi w) (name.out ++ [(sep.getD (Tok.new ':')).str] ++ ts ++ [[',']]) := by
  intro c ts0 hc
  -- the text before the name
  have hctx : ∃ first : Tok, ∃ r, CommentsOk first.leading ∧ (fieldHead cfg name sep c).1 =
      (drain (startPre cfg false first.ws first.leading r c)).1 ∧ ∃ g : F → F, (∀ k : F, True) ∧
      Emits b g .idle (name.out ++ [(sep.getD (Tok.new ':')).str]) .idle ∧
      (fieldHead cfg name sep c).2.1 = (drain (g (drain (startPre cfg false first.ws first.leading r c)).2)).1 ∧
      (fieldHead cfg name sep c).2.2 = (drain (g (drain (startPre cfg false first.ws first.leading r c)).2)).2 := by
    have hsepE : Emits b (inl (sep.getD (Tok.new ':'))) .ident [(sep.getD (Tok.new ':')).str] .idle :=
      emits_inl_hard (sep_ok hsep (by decide)) rfl
    cases ho : name.op with
    | some t =>
      have ht := hn.op t ho
      have h1 : Emits b (fun f => startPost t.trailing t.rune? (t.write f)) .idle [t.str] .idle :=
        ((emits_write ht.term rfl).comp (emits_startPost rfl ht.trailing t.rune?)).toks (by simp)
      have h2 := ((h1.comp (emits_inner hn)).comp (emits_closeRef hn rfl rfl)).comp hsepE
      refine ⟨t, t.rune?, ht.leading, ?_, _, fun _ => trivial, h2.toks ?_, ?_, ?_⟩
      · unfold fieldHead; rw [ho]
      · unfold Ref.out; rw [ho]; simp [str?, strs]
      · unfold fieldHead; rw [ho]
      · unfold fieldHead; rw [ho]
    | none =>
      obtain ⟨hname, hcl⟩ := hn.bare ho
      have hu : name.url = none := by
        cases hu : name.url with
        | none => rfl
        | some u => have := (hn.url u hu).2.2.1; rw [ho] at this; cases this
      have hsl := hn.slash hu
      have h1 : Emits b (fun f => startPost (nameLast name.name).trailing none (nameWrite name.name f)) .idle (strs name.name) .ident :=
        ((emits_nameWrite hname rfl (by simp)).comp (emits_startPost rfl (nameOk_last hname).trailing none)).toks (by simp)
      have h2 := (h1.comp (emits_closeRef hn rfl rfl)).comp hsepE
      refine ⟨nameFirst name.name, none, (nameOk_first hname).leading, ?_, _, fun _ => trivial, h2.toks ?_, ?_, ?_⟩
      · unfold fieldHead; rw [ho]
      · unfold Ref.out; rw [ho, hu, hsl]; simp [str?, strs]
      · unfold fieldHead; rw [ho]; rfl
      · unfold fieldHead; rw [ho]; rfl
  obtain ⟨first, r, hl, e1, g, _, hg, e2, e3⟩ := hctx
  have h0 := good_nil (emits_startPre (cfg := cfg) (k := .idle) rfl hl false first.ws r) hc
  have h1 := (drain_piece h0 rfl).2
  have h2 := hg _ _ h1
  rw [List.nil_append] at h2
  have h3 := drain_piece h2 rfl
  rw [← e3, ← e2] at h3
  obtain ⟨s1, s2⟩ := fieldSemi_ok hv hs
  have hle := (hw.comp (emits_lineEnd (cfg := cfg) (k := .any) s1 rfl (by simp) (by simp))) _ _ (h3.2.idle _)
  rw [s2, List.nil_append] at hle
  refine ⟨(drain_piece hle rfl).2, rfl, lineEnd_last _ _, ts0, [], _, [], _, ?_, ?_, piece_nil, h3.1, piece_nil, drain_text hle,
    drain_lineEnd hle (lineEnd_last _ _) (by simp)⟩
  · simp
  · rw [show (fieldCells cfg name sep v semi w c).2.ctx = (fieldHead cfg name sep c).1 from rfl, e1]
    exact drain_text h0

/-! ### Values of all kinds -/

theorem emits_inlWith {v : Value} {w : F → F} (hv : v.Ok) (hw : Emits b w .free v.out .any) :
    Emits b (inlWith v w) .free v.out .any := by
  have h : Emits b (fun f => setInline false (w (setInline true f))) .free v.out .any :=
    (((emits_setInline true _).comp hw).comp (emits_setInline false _)).toks (by simp)
  cases v with
  | term t =>
    rw [Value.Ok] at hv
    obtain ⟨c, h1, h2, h3⟩ := cls_value hv
    refine ((emits_inl (k := .free) h1 rfl (by simp) (fun e => absurd e h2)).mono rfl h3).toks ?_ |>.fn (fun f => rfl)
    rw [Value.out]
  | _ => exact h

theorem emits_lineEndWith {v : Value} {w : F → F} (hv : v.Ok) (hw : Emits b w .free v.out .any) :
    Emits b (lineEndWith cfg v w) .free v.out .idle := by
  have h : Emits b (fun f => if (w f).w.last ≠ '\n' then newline (w f) else w f) .free v.out .idle := by
    intro f ts hf
    have h1 := hw f ts hf
    beta_reduce
    split
    · exact good_nil (emits_newline (by simp)) h1
    · rename_i hl
      exact { h1 with fit := .inl (h1.at_newline (Decidable.byContradiction hl)) }
  cases v with
  | term t =>
    rw [Value.Ok] at hv
    obtain ⟨c, h1, h2, h3⟩ := cls_value hv
    refine (emits_lineEnd h1 rfl (by simp) h2).toks ?_ |>.fn (fun f => rfl)
    rw [Value.out]
  | _ => exact h

theorem lineEndWith_last (v : Value) (w : F → F) (f : F) : (lineEndWith cfg v w f).w.last = '\n' := by
  unfold lineEndWith
  split
  · exact lineEnd_last _ _
  · simp only
    split
    · exact (newline_parts _).2.1
    · rename_i h; exact Decidable.byContradiction h

theorem emits_arraySep {comma : Option Tok} {inlined : Bool} (h : SemiOk comma) (hs : comma.isSome = true) :
    Emits b (arraySep cfg inlined comma) .any (str? comma) .free := by
  obtain ⟨c, rfl⟩ := Option.isSome_iff_exists.1 hs
  have hc := (h c rfl).is
  cases inlined with
  | true => exact (((emits_inl_hard hc rfl).comp (emits_space_free (by simp) (by simp))).toks (by simp [str?, strs])).fn (fun f => rfl)
  | false => exact (emits_lineEnd hc rfl (by simp) (by simp)).to.fn (fun f => rfl)

theorem emits_close {cl : Tok} {semi : Option Tok} (hcl : Is .hard cl) (hs : SemiOk semi) :
    ∀ k0 : K, k0.calm = true → ∀ i, Emits b (bodyEndInline cfg cl semi i) k0 [cl.str] .any := fun k0 hk i =>
  (emits_bodyEndInline hcl (accept_hard hk) (K.calm_ne hk).1 (by simp) hs i).to

theorem emits_close' {cl : Tok} {semi : Option Tok} (hcl : Is .hard cl) (hs : SemiOk semi) :
    ∀ k0 : K, k0.calm = true → ∀ i, Emits b (bodyEnd cfg cl semi i) k0 [cl.str] .any := fun k0 hk i =>
  (emits_bodyEnd hcl (accept_hard hk) (K.calm_ne hk).1 (by simp) hs i).to

mutual
theorem emits_value (v : Value) (h : v.Ok) : Emits b (v.write cfg) .free v.out .any := by
  cases v with
  | term t =>
    rw [Value.Ok] at h
    obtain ⟨c, h1, h2, h3⟩ := cls_value h
    refine ((emits_write (k := .free) h1.term rfl).mono rfl h3).toks ?_ |>.fn (fun f => by rw [Value.write])
    rw [Value.out]
  | ident ts =>
    rw [Value.Ok] at h
    refine ((emits_inlsDot h (.inr rfl)).mono rfl rfl).toks ?_ |>.fn (fun f => by rw [Value.write])
    rw [Value.out]
  | neg s n =>
    rw [Value.Ok] at h
    obtain ⟨h1, h2⟩ := h
    have hn : Emits b (inl n) .idle [n.str] .any := by
      rcases h2 with h2 | h2
      · exact (emits_inl (k := .idle) h2 rfl (by simp) (by simp)).mono rfl rfl
      · exact (emits_inl (k := .idle) h2 rfl (by simp) (by simp)).mono rfl rfl
    refine ((emits_inl h1 rfl (by simp) (by simp)).comp hn).toks ?_ |>.fn (fun f => by rw [Value.write])
    rw [Value.out]; rfl
  | strings ps =>
    rw [Value.Ok] at h
    refine (emits_compoundStrings (by simp) true true ps h.1 h.2).to.toks ?_ |>.fn (fun f => by rw [Value.write])
    rw [Value.out]
  | array op vs cl semi =>
    rw [Value.Ok] at h
    obtain ⟨h1, h2, h3, h4⟩ := h
    have key : Emits b (body op cl semi (match vs with | .nil => none | .cons .. => some (Values.write cfg (!expandedA vs) vs))
      (if !expandedA vs then openBraceInline else openBrace cfg) (bodyEndInline cfg)) .free ([op.str] ++ Values.out vs ++ [cl.str])
        .any := by
      refine emits_body h1 rfl ?_ (emits_close h3 h4) ?_ ?_
      · split
        · exact emits_openBraceInline h1 rfl
        · exact emits_openBrace h1 rfl
      · intro e he
        refine ⟨.any, rfl, ?_⟩
        cases vs with
        | nil => cases he
        | cons v c vs =>
          obtain rfl := (Option.some.inj he).symm
          exact (emits_values _ _ h2).from
      · intro e
        cases vs with
        | nil => rw [Values.out]
        | cons v c vs => cases e
    refine key.toks ?_ |>.fn (fun f => ?_)
    · rw [Value.out]
    · cases vs <;> simp only [Value.write]
  | msg op fs cl semi =>
    rw [Value.Ok] at h
    obtain ⟨h1, h2, h3, h4⟩ := h
    by_cases he : expandedM fs = true
    · obtain ⟨tss, h5, h6⟩ := writers_fields fs h2
      have := emits_body (b := b) (semi := semi) (closeW := bodyEndInline cfg) (openW := openBrace cfg) (k := .free) (k' := .any) h1 rfl (emits_openBrace h1 rfl)
        (emits_close h3 h4) (elems := some (columns cfg (MFields.writers cfg fs))) (ts := tss.flatten)
        (fun e he => ⟨.idle, rfl, by obtain rfl := (Option.some.inj he).symm; exact emits_columns h5⟩) (by intro e; cases e)
      refine this.toks ?_ |>.fn (fun f => ?_)
      · rw [Value.out, he, h6]
      · rw [Value.write, if_pos he]
    · have := ((emits_inl_hard (b := b) (k := .free) h1 rfl).comp ((emits_compact fs h2).from)).comp (emits_inl_hard h3 rfl)
      refine this.to.toks ?_ |>.fn (fun f => ?_)
      · rw [Value.out, Bool.eq_false_iff.2 he]
      · rw [Value.write, if_neg he]
theorem emits_values (inlined : Bool) (vs : Values) (h : vs.Ok) : Emits b (vs.write cfg inlined) .free vs.out .any := by
  cases vs with
  | nil =>
    refine ((Emits.id .free).mono rfl rfl).toks ?_ |>.fn (fun f => by rw [Values.write])
    rw [Values.out]
  | cons v comma vs =>
    rw [Values.Ok] at h
    obtain ⟨h1, h2, h3, h4, h5⟩ := h
    have hsep : vs.isNil = false → Emits b (fun f => Values.write cfg inlined vs (arraySep cfg inlined comma f)) .any
        ((if vs.isNil then [] else str? comma) ++ Values.out vs) .any := by
      intro hn
      rw [hn]
      exact (emits_arraySep h3 (h4 hn)).comp (emits_values inlined vs h5)
    by_cases hv : ∃ t, v = .term t
    · obtain ⟨t, rfl⟩ := hv
      rw [Value.Ok] at h2
      obtain ⟨c, h6, h7, h8⟩ := cls_value h2
      cases vs with
      | nil =>
        have : Emits b (fun f => if inlined then bodyEndInline cfg t none true f else lineElement cfg t f) .free [t.str] .any := by
          cases inlined with
          | true => exact (emits_bodyEndInline (k := .free) h6 rfl (by simp) h7 semiOk_none true).mono rfl h8
          | false => exact (emits_lineElement h6 rfl (by simp) h7).to
        refine this.toks ?_ |>.fn (fun f => by rw [Values.write])
        rw [Values.out, Value.out, Values.out]; rfl
      | cons w d ws =>
        have := ((emits_startMaybe (cfg := cfg) (k := .free) h6 rfl (by simp) h7 inlined).mono (k0 := .free) rfl h8).comp (hsep rfl)
        refine this.toks ?_ |>.fn (fun f => ?_)
        · conv => rhs; rw [Values.out, Value.out]
          rw [List.append_assoc]
        · conv => lhs; rw [Values.write.eq_3 (x_2 := by intro e; cases e)]
    · have hv' : ∀ t, v ≠ .term t := fun t e => hv ⟨t, e⟩
      cases vs with
      | nil =>
        refine (emits_forArray (!inlined) v h2 h1 hv').toks ?_ |>.fn (fun f => ?_)
        · rw [Values.out, Values.out]; simp [Values.isNil]
        · cases v <;> first | exact absurd rfl (hv' _) | simp only [Values.write]
      | cons w d ws =>
        have := (emits_forArray false v h2 h1 hv').comp (hsep rfl)
        refine this.toks ?_ |>.fn (fun f => ?_)
        · conv => rhs; rw [Values.out]
          rw [List.append_assoc]
        · cases v <;> first | exact absurd rfl (hv' _) | (conv => lhs; simp only [Values.write])
theorem emits_forArray (last : Bool) (v : Value) (h : v.Ok) (ha : v.inArray = true) (ht : ∀ t, v ≠ .term t) :
    Emits b (v.forArray cfg last) .free v.out .any := by
  cases v with
  | term t => exact absurd rfl (ht t)
  | ident ts => cases ha
  | array op vs cl semi => cases ha
  | strings ps =>
    rw [Value.Ok] at h
    refine (emits_stringsLoop rfl (!last) ps h.1 h.2).to.toks ?_ |>.fn (fun f => by rw [Value.forArray]; rfl)
    rw [Value.out]
  | neg s n =>
    rw [Value.Ok] at h
    obtain ⟨h1, h2⟩ := h
    have hn : ∃ c, Is c n ∧ c ≠ .slash ∧ (after c).le .any = true := cls_value (.inr h2.symm)
    obtain ⟨c, h3, h4, h5⟩ := hn
    have : Emits b (negForArray cfg last s n) .free ([s.str] ++ [n.str]) .any := by
      cases last with
      | true => exact ((emits_start h1 rfl (by simp) (by simp)).comp (emits_lineEnd h3 rfl (by simp [after]) h4)).to.fn (fun f => rfl)
      | false =>
        exact (((emits_start (k := .free) h1 rfl (by simp) (by simp)).comp (emits_inl h3 rfl (by simp [after]) (fun e => absurd e h4))).mono
          rfl h5).fn (fun f => rfl)
    refine this.toks ?_ |>.fn (fun f => by rw [Value.forArray])
    rw [Value.out]; rfl
  | msg op fs cl semi =>
    rw [Value.Ok] at h
    obtain ⟨h1, h2, h3, h4⟩ := h
    by_cases he : expandedM fs = true
    · obtain ⟨tss, h5, h6⟩ := writers_fields fs h2
      have hc : ∀ k0 : K, k0.calm = true → ∀ i, Emits b ((if last then bodyEnd cfg else bodyEndInline cfg) cl semi i) k0 [cl.str] .any := by
        intro k0 hk i
        cases last with
        | true => exact emits_close' h3 h4 k0 hk i
        | false => exact emits_close h3 h4 k0 hk i
      have := emits_body (b := b) (semi := semi) (openW := openBraceForArray cfg) (k := .free) (k' := .any) h1 rfl (emits_openBraceForArray h1 rfl)
        hc (elems := some (columns cfg (MFields.writers cfg fs))) (ts := tss.flatten)
        (fun e he => ⟨.idle, rfl, by obtain rfl := (Option.some.inj he).symm; exact emits_columns h5⟩) (by intro e; cases e)
      refine this.toks ?_ |>.fn (fun f => ?_)
      · rw [Value.out, he, h6]
      · rw [Value.forArray, if_pos he]
    · have := (((emits_indentation (b := b) (k := .free) op.rune?).comp (emits_inl_hard h1 rfl)).comp ((emits_compact fs h2).from)).comp
        (emits_inl_hard h3 rfl)
      have h7 : Emits b (fun f => (if last then newline (inl cl (MFields.compact cfg fs (inl op (indentation op.rune? f)))) else
          (inl cl (MFields.compact cfg fs (inl op (indentation op.rune? f)))))) .free ([op.str] ++ MFields.out false fs ++ [cl.str]) .any := by
        cases last with
        | true => exact (this.comp (emits_newline (by simp))).to.toks (by simp)
        | false => exact this.to.toks (by simp)
      refine h7.toks ?_ |>.fn (fun f => ?_)
      · rw [Value.out, Bool.eq_false_iff.2 he]
      · rw [Value.forArray, if_neg he]
theorem emits_compact (fs : MFields) (h : fs.Ok) : Emits b (fs.compact cfg) .free (fs.out false) .any := by
  cases fs with
  | nil =>
    refine ((Emits.id .free).mono rfl rfl).toks ?_ |>.fn (fun f => by rw [MFields.compact])
    rw [MFields.out]
  | cons name sep v semi fs =>
    rw [MFields.Ok] at h
    obtain ⟨h1, h2, h3, h4, h5⟩ := h
    have h6 := ((((((emits_setInline (b := b) true .free).comp (emits_ref h1 rfl (by simp))).comp (emits_setInline false _)).comp
      (emits_inl_hard (sep_ok h2 (c := ':') (by decide)) rfl)).comp (emits_space_free (by simp) (by simp))).comp
      (emits_inlWith h3 (emits_value v h3)))
    cases fs with
    | nil =>
      refine h6.toks ?_ |>.fn (fun f => by rw [MFields.compact])
      rw [MFields.out, MFields.out]; simp
    | cons n' s' v' m' fs =>
      have hsem : Is .hard (semi.getD (Tok.new ',')) := sep_ok (fun s hs => (h4 s hs).is) (by decide)
      have := ((h6.comp (emits_inl_hard hsem rfl)).comp (emits_space_free (by simp) (by simp))).comp (emits_compact _ h5)
      refine this.toks ?_ |>.fn (fun f => ?_)
      · simp [MFields.out]
      · simp only [MFields.compact]
theorem writers_fields (fs : MFields) (h : fs.Ok) : ∃ tss, List.Forall₂ (fun (p : Elem × Writer) ts => WriterOk b p.1 p.2 ts)
    (fs.writers cfg) tss ∧ tss.flatten = fs.out true := by
  cases fs with
  | nil => exact ⟨[], by rw [MFields.writers]; exact .nil, by rw [MFields.out]; rfl⟩
  | cons name sep v semi fs =>
    rw [MFields.Ok] at h
    obtain ⟨h1, h2, h3, h4, h5⟩ := h
    obtain ⟨tss, h6, h7⟩ := writers_fields fs h5
    refine ⟨(name.out ++ [(sep.getD (Tok.new ':')).str] ++ v.out ++ [[',']]) :: tss, ?_, ?_⟩
    · rw [MFields.writers]
      refine .cons ⟨by simp [fieldElem], Emits.id _, ?_⟩ h6
      exact cells_field h1 h2 h3 h4 (emits_value v h3)
    · rw [List.flatten_cons, h7]
      cases fs <;> simp [MFields.out]
end

theorem emits_valueInl {v : Value} (h : v.Ok) : Emits b (v.inl cfg) .free v.out .any := emits_inlWith h (emits_value v h)

end Verif.Formatter
