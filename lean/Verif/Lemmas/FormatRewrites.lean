import Verif.Spec.FormatTokens
/-! The tokens of the formatted text and those of the source. -/
namespace Verif.Formatter

theorem Rewrites.append {a : List Tok} {o : List Str} (h : Rewrites a o) {b : List Tok} {p : List Str} (h' : Rewrites b p) :
    Rewrites (a ++ b) (o ++ p) := by
  induction h with
  | nil => exact h'
  | keep t _ ih => exact .keep t ih
  | replace t c h1 h2 _ ih => exact .replace t c h1 h2 ih
  | remove t h1 _ ih => exact .remove t h1 ih
  | insert c h1 _ ih => exact .insert c h1 ih
  | brackets x y h1 h2 _ ih => exact .brackets x y h1 h2 ih
  | braces x y h1 h2 _ ih => exact .braces x y h1 h2 ih

theorem rw_strs (ts : List Tok) : Rewrites ts (strs ts) := by
  induction ts with
  | nil => exact .nil
  | cons t ts ih => exact .keep t ih

theorem rw_tok (t : Tok) : Rewrites [t] [t.str] := .keep t .nil

theorem rw_opt (t : Option Tok) : Rewrites t.toList (str? t) := rw_strs _

theorem rw_drop {semi : Option Tok} (h : SemiOk semi) : Rewrites (src? semi) [] := by
  cases semi with
  | none => exact .nil
  | some t =>
    simp only [src?]
    split
    · exact .nil
    · exact .remove t (h t rfl).sep .nil

theorem sep_str {t : Tok} (h : isSep t) : t.str = [';'] ∨ t.str = [','] := by
  unfold Tok.str
  rcases h with h | h <;> rw [h] <;> simp

theorem rw_semi {semi : Option Tok} (h : SemiOk semi) : Rewrites (src? semi) (str? semi) := by
  cases semi with
  | none => exact .nil
  | some t =>
    simp only [src?]
    split
    · have : str? (some t) = [t.str] := rfl
      rw [this]
      rcases sep_str (h t rfl).sep with e | e <;> rw [e]
      · exact .insert ';' (by simp) .nil
      · exact .insert ',' (by simp) .nil
    · exact .keep t .nil

theorem rw_replace {semi : Option Tok} (h : SemiOk semi) {c : Char} (hc : c = ';' ∨ c = ',') : Rewrites (src? semi) [[c]] := by
  have hc' : c = ';' ∨ c = ',' ∨ c = ':' ∨ c = ')' := by tauto
  cases semi with
  | none => exact .insert c hc' .nil
  | some t =>
    simp only [src?]
    split
    · exact .insert c hc' .nil
    · exact .replace t c (h t rfl).sep hc .nil

theorem rw_getD {t : Option Tok} {c : Char} (hc : c = ';' ∨ c = ',' ∨ c = ':' ∨ c = ')') :
    Rewrites t.toList [(t.getD (Tok.new c)).str] := by
  cases t with
  | none => exact .insert c hc .nil
  | some t => exact rw_tok t

theorem rw_sepD {semi : Option Tok} (h : SemiOk semi) : Rewrites (src? semi) [(semi.getD (Tok.new ',')).str] := by
  cases semi with
  | none => exact .insert ',' (by simp) .nil
  | some t => exact rw_semi h

theorem rw_ref (r : Ref) : Rewrites r.src r.out := by
  have hc : Rewrites r.cl.toList r.close := by
    unfold Ref.close
    cases r.cl with
    | some t => exact rw_tok t
    | none =>
      simp only
      split
      · exact .insert ')' (by simp) .nil
      · exact .nil
  have := (rw_opt r.op).append ((rw_strs (r.url.getD [])).append ((rw_opt r.slash).append ((rw_strs r.name).append hc)))
  unfold Ref.src Ref.out
  simpa using this

mutual
theorem rw_value (v : Value) (h : v.Ok) : Rewrites v.src v.out := by
  cases v with
  | term t => rw [Value.src, Value.out]; exact rw_tok t
  | ident ts => rw [Value.src, Value.out]; exact rw_strs ts
  | neg s n => rw [Value.src, Value.out]; exact rw_strs [s, n]
  | strings ps => rw [Value.src, Value.out]; exact rw_strs ps
  | array op vs cl semi =>
    rw [Value.Ok] at h
    rw [Value.src, Value.out]
    have := (rw_tok op).append ((rw_values vs h.2.1).append ((rw_tok cl).append (rw_drop h.2.2.2)))
    simpa using this
  | msg op fs cl semi =>
    rw [Value.Ok] at h
    rw [Value.src, Value.out]
    have := (rw_tok op).append ((rw_mfields (expandedM fs) fs h.2.1).append ((rw_tok cl).append (rw_drop h.2.2.2)))
    simpa using this
theorem rw_values (vs : Values) (h : vs.Ok) : Rewrites vs.src vs.out := by
  cases vs with
  | nil => rw [Values.src, Values.out]; exact .nil
  | cons v comma vs =>
    rw [Values.Ok] at h
    obtain ⟨_, h1, h2, _, h3⟩ := h
    rw [Values.src, Values.out]
    have hc : Rewrites (src? comma) (if vs.isNil then [] else str? comma) := by
      split
      · exact rw_drop h2
      · exact rw_semi h2
    have := (rw_value v h1).append (hc.append (rw_values vs h3))
    simpa using this
theorem rw_mfields (expanded : Bool) (fs : MFields) (h : fs.Ok) : Rewrites fs.src (fs.out expanded) := by
  cases fs with
  | nil => rw [MFields.src, MFields.out]; exact .nil
  | cons name sep v semi fs =>
    rw [MFields.Ok] at h
    obtain ⟨_, _, h1, h2, h3⟩ := h
    have hd : ∀ o, Rewrites (src? semi) o → Rewrites (MFields.src (.cons name sep v semi fs))
        (name.out ++ ([(sep.getD (Tok.new ':')).str] ++ (v.out ++ (o ++ fs.out expanded)))) := by
      intro o ho
      rw [MFields.src]
      exact (rw_ref name).append ((rw_getD (by simp)).append ((rw_value v h1).append (ho.append (rw_mfields expanded fs h3))))
    rw [MFields.out.eq_def]
    simp only [List.append_assoc]
    refine hd _ ?_
    split <;> split
    · exact rw_replace h2 (.inr rfl)
    · exact rw_drop h2
    · exact rw_replace h2 (.inr rfl)
    · exact rw_sepD h2
end

theorem rw_flatMap {α : Type} (f : α → List Tok) (g : α → List Str) (as : List α) (h : ∀ a ∈ as, Rewrites (f a) (g a)) :
    Rewrites (as.flatMap f) (as.flatMap g) := by
  induction as with
  | nil => exact .nil
  | cons a as ih =>
    exact (h a List.mem_cons_self).append (ih (fun x hx => h x (List.mem_cons_of_mem _ hx)))

theorem rw_part (p : Part) : Rewrites p.src p.out := by
  cases p with
  | ref r => exact rw_ref r
  | dot t => exact rw_tok t

theorem rw_optCore {o : Opt} (h : OptOk o) {out : List Str} (ho : Rewrites (src? o.semi) out) : Rewrites o.src (o.core ++ out) := by
  obtain ⟨v, hv, hok⟩ := h.val
  have := (rw_opt o.kw).append ((rw_flatMap Part.src Part.out (o.name.getD []) (fun p _ => rw_part p)).append
    ((rw_opt o.eq).append ((rw_value v hok).append ho)))
  unfold Opt.src Opt.core
  rw [hv]
  simpa using this

theorem rw_declOpt {o : Opt} (h : OptOk o) : Rewrites o.src o.out := rw_optCore h (rw_semi h.semi)

theorem rw_optsOut (expanded : Bool) (os : List Opt) (h : OptsOk expanded os) : Rewrites (os.flatMap Opt.src) (optsOut expanded os) := by
  induction os with
  | nil => exact .nil
  | cons o os ih =>
    obtain ⟨h1, _, _, _, h5⟩ := h
    have hs : Rewrites (src? o.semi) (optSep expanded os.isEmpty o) := by
      unfold optSep
      split
      · exact rw_semi h1.semi
      · split
        · exact rw_drop h1.semi
        · exact rw_replace h1.semi (.inr rfl)
    exact (rw_optCore h1 hs).append (ih h5)

theorem rw_compact {c : Compact} (h : CompactOk c) : Rewrites c.src c.out := by
  unfold Compact.src Compact.out
  by_cases hn : c.opts = []
  · rw [if_pos hn, hn]
    exact .brackets _ _ h.opens h.closes (rw_drop h.semi)
  · rw [if_neg hn]
    have := (rw_tok c.op).append ((rw_optsOut c.expanded c.opts h.opts).append ((rw_tok c.cl).append (rw_drop h.semi)))
    simpa using this

theorem rw_compact? {c : Option Compact} (h : CompactOk? c) : Rewrites (compactSrc c) (compactOut c) := by
  cases c with
  | none => exact .nil
  | some c => exact rw_compact (h c rfl)

theorem rw_end {semi : Option Tok} (h : EndOk semi) : Rewrites (src? semi) (str? semi) := by
  obtain ⟨s, rfl, hs⟩ := h
  exact rw_semi (fun t ht => by obtain rfl := Option.some.inj ht; exact hs)

theorem rw_field {x : FieldDecl} (h : FieldOk x) : Rewrites x.src x.out :=
  (rw_opt x.label).append ((rw_strs x.type).append ((rw_opt x.name).append ((rw_opt x.eq).append ((rw_opt x.tag).append
    ((rw_compact? h.opts).append (rw_end h.semi))))))

theorem rw_map {x : MapDecl} (h : MapOk x) : Rewrites x.src x.out := by
  have := (rw_strs [x.kw, x.op, x.key, x.comma]).append ((rw_strs x.type).append ((rw_tok x.cl).append ((rw_drop h.typeSemi).append
    ((rw_strs [x.name, x.eq, x.tag]).append ((rw_compact? h.opts).append (rw_end h.semi))))))
  unfold MapDecl.src MapDecl.out
  simpa using this

theorem rw_enum {x : EnumVal} (h : EnumValOk x) : Rewrites x.src x.out := by
  obtain ⟨s, hs, hok⟩ := h.semi
  have : SemiOk x.semi := by rw [hs]; intro t ht; obtain rfl := Option.some.inj ht; exact hok
  exact (rw_strs [x.name, x.eq]).append ((rw_value x.num h.num).append ((rw_compact? h.opts).append (rw_replace this (.inl rfl))))

theorem rw_range {e : RangeElem} (h : e.Ok) : Rewrites e.src e.out := by
  cases e with
  | comma t => exact rw_tok t
  | range s mid stop =>
    obtain ⟨h1, _, h3⟩ := h
    refine (rw_value s h1).append ((rw_opt mid).append ?_)
    cases stop with
    | none => exact .nil
    | some v => exact rw_value v (h3 v rfl)
  | name v => exact rw_value v h

theorem rw_rpcType (x : RPCType) : Rewrites x.src x.out :=
  (rw_tok x.op).append ((rw_opt x.stream).append ((rw_strs x.type).append (rw_tok x.cl)))

mutual
theorem rw_decl {column : Bool} (d : Decl) (h : d.Ok column) : Rewrites d.src d.out := by
  cases d with
  | empty t =>
    rw [Decl.Ok] at h
    rw [Decl.src, Decl.out]
    exact rw_drop (fun s hs => by obtain rfl := Option.some.inj hs; exact h)
  | option o => rw [Decl.Ok] at h; rw [Decl.src, Decl.out]; exact rw_declOpt h.1
  | field x => rw [Decl.Ok] at h; rw [Decl.src, Decl.out]; exact rw_field h
  | mapField x => rw [Decl.Ok] at h; rw [Decl.src, Decl.out]; exact rw_map h
  | enumValue x => rw [Decl.Ok] at h; rw [Decl.src, Decl.out]; exact rw_enum h.2
  | extensions kw es opts semi =>
    rw [Decl.Ok] at h
    rw [Decl.src, Decl.out]
    have := (rw_tok kw).append ((rw_flatMap RangeElem.src RangeElem.out es (fun e he => rw_range (h.2.1 e he))).append
      ((rw_compact? h.2.2.1).append (rw_end h.2.2.2)))
    simpa using this
  | reserved kw es semi =>
    rw [Decl.Ok] at h
    rw [Decl.src, Decl.out]
    have := (rw_tok kw).append ((rw_flatMap RangeElem.src RangeElem.out es (fun e he => rw_range (h.2.1 e he))).append (rw_end h.2.2))
    simpa using this
  | block kw name column op ds cl semi =>
    rw [Decl.Ok] at h
    obtain ⟨_, _, _, h4, _, h6⟩ := h
    rw [Decl.src, Decl.out]
    have := (rw_tok kw).append ((rw_strs name).append ((rw_tok op).append ((rw_decls ds h4).append ((rw_tok cl).append (rw_drop h6)))))
    simpa using this
  | group label kw name eq tag opts op ds cl semi =>
    rw [Decl.Ok] at h
    obtain ⟨_, _, _, _, _, h6, _, h8, _, h10⟩ := h
    rw [Decl.src, Decl.out]
    have := (rw_opt label).append ((rw_strs [kw, name, eq, tag]).append ((rw_compact? h6).append ((rw_tok op).append ((rw_decls ds h8).append
      ((rw_tok cl).append (rw_drop h10))))))
    simpa using this
  | rpc kw name input ret output op ds cl semi =>
    rw [Decl.Ok] at h
    obtain ⟨_, _, _, _, _, _, h7, _, h9, h10⟩ := h
    rw [Decl.src, Decl.out]
    have hd : ∀ a o, Rewrites a o → Rewrites (kw :: name :: (input.src ++ ret :: (output.src ++ a)))
        ([kw.str] ++ [name.str] ++ input.out ++ [ret.str] ++ output.out ++ o) := by
      intro a o ho
      have := (rw_tok kw).append ((rw_tok name).append ((rw_rpcType input).append ((rw_tok ret).append ((rw_rpcType output).append ho))))
      simpa using this
    refine hd _ _ ?_
    rcases h10 with ⟨rfl, rfl, h10⟩ | ⟨x, y, rfl, rfl, h11, h12⟩
    · rw [h10]
      have : Decls.src ds = [] := by cases ds with
        | nil => rw [Decls.src]
        | cons d ds => cases h10
      rw [this]
      exact rw_replace h9 (.inl rfl)
    · cases ds with
      | nil =>
        rw [Decls.src]
        exact .braces x y h11 h12 (rw_drop h9)
      | cons d ds =>
        have := (rw_tok x).append ((rw_decls _ h7).append ((rw_tok y).append (rw_drop h9)))
        simpa [Decls.isNil, str?, strs] using this
theorem rw_decls {column : Bool} (ds : Decls) (h : ds.Ok column) : Rewrites ds.src ds.out := by
  cases ds with
  | nil => rw [Decls.src, Decls.out]; exact .nil
  | cons d ds =>
    rw [Decls.Ok] at h
    rw [Decls.src, Decls.out]
    exact (rw_decl d h.1).append (rw_decls ds h.2)
end

theorem distinct_sub (is : List Import) : ∀ i ∈ distinct is, i ∈ is := by
  have go : ∀ (is : List Import) (path : Str), ∀ i ∈ distinct.go path is, i ∈ is := by
    intro is
    induction is with
    | nil => intro path i hi; cases hi
    | cons j is ih =>
      intro path i hi
      unfold distinct.go at hi
      split at hi
      · exact List.mem_cons_of_mem _ (ih _ i hi)
      · rcases List.mem_cons.1 hi with rfl | hi
        · exact List.mem_cons_self
        · exact List.mem_cons_of_mem _ (ih _ i hi)
  cases is with
  | nil => intro i hi; cases hi
  | cons j is =>
    intro i hi
    rcases List.mem_cons.1 hi with rfl | hi
    · exact List.mem_cons_self
    · exact List.mem_cons_of_mem _ (go is _ i hi)

theorem rw_file {x : File} (h : FileOk x) : Rewrites x.src x.out := by
  unfold File.src File.out
  refine Rewrites.append ?_ (Rewrites.append ?_ (Rewrites.append ?_ (Rewrites.append ?_ ?_)))
  · cases hs : x.syntax with
    | none => exact .nil
    | some s =>
      have hok := h.syntax s hs
      have := (rw_tok s.kw).append ((rw_tok s.eq).append ((rw_value s.val hok.val).append (rw_end hok.semi)))
      simpa [Syntax.src, Syntax.out] using this
  · cases hs : x.package with
    | none => exact .nil
    | some p =>
      have hok := h.package p hs
      have := (rw_tok p.kw).append ((rw_strs (p.name.getD [])).append (rw_end hok.semi))
      simpa [Package.src, Package.out] using this
  · refine rw_flatMap _ _ _ (fun i hi => ?_)
    have hok := h.imports i (distinct_sub _ i hi)
    have := (rw_tok i.kw).append ((rw_opt i.modifier).append ((rw_value i.name hok.name).append (rw_end hok.semi)))
    simpa [Import.src, Import.out] using this
  · exact rw_flatMap _ _ _ (fun o ho => rw_declOpt (h.options o ho).1)
  · exact rw_flatMap _ _ _ (fun d hd => rw_decl d (h.decls d hd))

end Verif.Formatter
