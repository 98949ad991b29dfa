import Verif.Lemmas.PrinterMessage
/-! Services, imports, and packages as the descriptor printer writes them. -/
namespace Verif.Printer
open Verif.Lexer Verif.PrintWriter Verif.Decls Verif.Literal

variable {c : Cfg} {si : SI}

/-! ### Methods -/

theorem txt_rpcType {pk : QName} (hpk : Idents pk) {q : QName} (hq : QOk q) (stream : Bool) :
    ∃ r : Ref, RefMeans pk r q ∧ Txt ((if stream then kw "stream " else []) ++ qual c pk pk q 0) ((if stream then ["stream".toList] else []) ++ r.toks) := by
  obtain ⟨r, h1, h2, h3⟩ := qual_type (c := c) hpk hpk (List.prefix_refl _) hq
  refine ⟨r, h3, ?_⟩
  rw [h1]
  have ht := Txt.ref h2
  cases stream with
  | false => simpa using ht
  | true =>
    obtain ⟨m, hx, hm⟩ := ht.lex
    have hid : Ident ['s', 't', 'r', 'e', 'a', 'm'] := by simp [Ident]; decide
    have hxx := ((Lx.ident hid).append (Lx.space (m := .ident _) trivial)).append hx
    refine ⟨⟨m, (hxx.toks (by simp)).text (by simp [kw]), hm⟩, by simp [kw], ?_, by simp [kw]⟩
    rw [List.getLast?_append]
    cases hl : (refText r).getLast? with
    | none => exact absurd (List.getLast?_eq_none_iff.1 hl) ht.ne
    | some x => have := ht.last; rw [hl] at this; simpa using this

theorem emits_returns (k : K) : Emits (put (kw ") returns (")) k [[')'], "returns".toList, ['(']] .idle := by
  have hid : Ident ['r', 'e', 't', 'u', 'r', 'n', 's'] := by simp [Ident]; decide
  have h1 := ((((Lx.punct (m := .idle) trivial (c := ')') (by decide)).append (Lx.space (m := .idle) trivial)).append (Lx.ident hid)).append
    (Lx.space (m := .ident _) trivial)).append (Lx.punct (m := .idle) trivial (c := '(') (by decide))
  exact Emits.put_idle ((h1.toks (by simp)).text (by simp [kw])) (by simp [kw]) (by simp [kw]) (.inl ⟨')', _, rfl, by decide⟩)

theorem emits_paren (k : K) : Emits (put [')', ' ']) k [[')']] .sep :=
  Emits.put_sep (q := [')']) (Lx.punct (m := .idle) trivial (by decide)) (by simp) (by simp) trivial (.inl ⟨')', [], rfl, by decide⟩)

def MStepMeans (pk sc : QName) (m : Method) : Key → List Decl → Prop
  | .opt t, ds => ∃ os, ds = optionDecls os ∧ List.Forall₂ (Opt.Means ⟨pk, sc ++ [m.name], false⟩) (optsAt m.opts t) os
  | _, ds => ds = []

theorem rpc_toks (name : Str) (i o : RpcType) (os : List Setting) (h : os ≠ []) : (Decl.rpc name i o (optionDecls os)).toks =
    ["rpc".toList, name] ++ i.toks ++ ["returns".toList] ++ o.toks ++ [['{']] ++ Decl.toksAll (optionDecls os) ++ [['}']] := by
  cases os with
  | nil => exact absurd rfl h
  | cons a os => simp [optionDecls, Decl.toks, Decl.toksAll]

theorem optionDecls_of (ds : List Decl) (h : ∀ d ∈ ds, (match d with | .option _ => true | _ => false) = true) :
    ds = optionDecls (ds.flatMap asOption) := by
  induction ds with
  | nil => rfl
  | cons d ds ih =>
    have h1 := h d List.mem_cons_self
    cases d with
    | option o =>
      show _ = Decl.option o :: optionDecls (ds.flatMap asOption)
      rw [← ih (fun x hx => h x (List.mem_cons_of_mem _ hx))]
    | _ => cases h1

theorem emits_printMethod (en : Env c si) {pk sc : QName} (hpk : Idents pk) (hs : ScOk pk sc) {m : Method} (h : m.Ok) (path : Path) (ind : Int) :
    ∃ i o os, m.Means pk sc (.rpc m.name i o (optionDecls os)) ∧
      Emits (printMethod c si pk sc m path ind) .idle (Decl.rpc m.name i o (optionDecls os)).toks .idle := by
  obtain ⟨ri, hri, ti⟩ := txt_rpcType (c := c) hpk h.input m.clientStream
  obtain ⟨ro, hro, to'⟩ := txt_rpcType (c := c) hpk h.output m.serverStream
  obtain ⟨ks, hks⟩ : ∃ ks, c.sort path (optKeys m.opts) = ks := ⟨_, rfl⟩
  have hp : ks.Perm (optKeys m.opts) := hks ▸ en.sorted _ _
  have hst : ∀ k ∈ ks, ∃ ds, MStepMeans pk sc m k ds ∧ Emits (fun w =>
        match k with
        | .opt t => optionsLong c si ⟨pk, sc ++ [m.name], false⟩ (optsAt m.opts t) (path ++ [4, t]) (ind + 1) w
        | _ => w) .idle (Decl.toksAll ds) .idle := by
    intro k _
    cases k with
    | opt t =>
      obtain ⟨os, h1, h2⟩ := emits_options en (a := ⟨pk, sc ++ [m.name], false⟩) (hs.snoc h.name) h.opts t (path ++ [4, t]) (ind + 1)
      exact ⟨_, ⟨os, rfl, h1⟩, h2⟩
    | _ => exact ⟨[], rfl, Emits.id .idle⟩
  obtain ⟨dss, h1, h2⟩ := emits_runSteps (one := fun k w =>
        match k with
        | .opt t => optionsLong c si ⟨pk, sc ++ [m.name], false⟩ (optsAt m.opts t) (path ++ [4, t]) (ind + 1) w
        | _ => w) ks hst
  have hopts : Opts.Mean ⟨pk, sc ++ [m.name], false⟩ m.opts (dss.flatten.flatMap asOption) := by
    refine opts_of_keys h.opts hp (optKeys_isOpt _) ?_
    rw [← flatMap_toList, List.flatMap_assoc]
    refine forall2_sel (fun k ds hr => ?_) h1
    cases k with
    | opt t => obtain ⟨os, rfl, ho⟩ := hr; rw [optionDecls_option]; simpa [isOpt] using ho
    | _ => have : ds = [] := hr; subst this; exact .nil
  have hdecl : dss.flatten = optionDecls (dss.flatten.flatMap asOption) := by
    refine optionDecls_of _ (forall2_all (fun k ds hr => ?_) h1)
    cases k with
    | opt t => obtain ⟨os, rfl, ho⟩ := hr; exact optionDecls_all (p := fun d => match d with | .option _ => true | _ => false) (fun _ => rfl) os
    | _ => have : ds = [] := hr; subst this; simp
  refine ⟨⟨m.clientStream, ri⟩, ⟨m.serverStream, ro⟩, dss.flatten.flatMap asOption,
    ⟨_, _, _, rfl, rfl, hri, rfl, hro, _, rfl, hopts⟩, ?_⟩
  unfold printMethod
  refine emits_blockElement en.indent (en.loc _) ind (fun trail htr => ?_)
  have ekw := emits_kw "rpc" (by decide) (k := .idle) (by simp)
  have ename : Emits (elementString c (si.get (path ++ [1])) ind m.name) .sep [m.name] .any :=
    emits_elementString en.indent (en.loc _) ind ((Txt.ident h.name).emits (by simp))
  have eopen := emits_put_punct (x := '(') (by decide) (by decide) .any
  have ein := emits_elementString en.indent (en.loc (path ++ [2])) ind (ti.emits (k := .idle) (by simp))
  have eout := emits_elementString en.indent (en.loc (path ++ [3])) ind (to'.emits (k := .idle) (by simp))
  have hhead := (((((((emits_indentW en.indent ind .idle).comp ekw).comp ename).comp eopen).comp ein).comp (emits_returns .any)).comp eout).comp
    (emits_paren .any)
  by_cases he : m.opts = []
  · have hnil : dss.flatten.flatMap asOption = [] := by
      obtain ⟨l, hl, hf⟩ := hopts
      rw [he] at hl
      rw [hl.eq_nil] at hf
      generalize dss.flatten.flatMap asOption = x at hf ⊢
      cases hf; rfl
    rw [hnil]
    have hall := (hhead.comp (emits_semi .sep)).comp (htr ind false .idle)
    have := hall.toks (a' := (Decl.rpc m.name ⟨m.clientStream, ri⟩ ⟨m.serverStream, ro⟩ (optionDecls [])).toks)
      (by simp [optionDecls, Decl.toks, RpcType.toks, semi])
    simp only [he, List.isEmpty_nil, if_true]
    exact this
  · have hne : dss.flatten.flatMap asOption ≠ [] := by
      intro hnil
      obtain ⟨l, hl, hf⟩ := hopts
      rw [hnil] at hf
      have hl0 : l ≠ [] := fun h0 => he (by rw [h0] at hl; exact hl.symm.eq_nil)
      obtain ⟨g, l', rfl⟩ := List.exists_cons_of_ne_nil hl0
      have hg := (h.opts.each g (hl.subset List.mem_cons_self)).1
      rw [List.flatMap_cons] at hf
      obtain ⟨o, os, e⟩ := List.exists_cons_of_ne_nil hg
      rw [e] at hf
      cases hf
    rw [rpc_toks _ _ _ _ hne, ← hdecl]
    have hie : m.opts.isEmpty = false := by simpa using he
    have hall := (((hhead.comp (emits_open .sep)).comp (htr (ind + 1) true .idle)).comp (h2 c.compactOptions true)).comp
      ((emits_indentW en.indent ind .idle).comp (emits_close .idle))
    have := hall.toks (a' := ["rpc".toList, m.name] ++ (RpcType.mk m.clientStream ri).toks ++ ["returns".toList] ++
      (RpcType.mk m.serverStream ro).toks ++ [['{']] ++ Decl.toksAll dss.flatten ++ [['}']]) (by simp [RpcType.toks])
    simp only [hie, hks, Bool.false_eq_true, if_false]
    exact this

/-! ### Services -/

def isMethod : Key → Option Nat | .method i => some i | _ => none

def VStepMeans (pk : QName) (s : Service) : Key → List Decl → Prop
  | .opt t, ds => ∃ os, ds = optionDecls os ∧ List.Forall₂ (Opt.Means ⟨pk, pk ++ [s.name], false⟩) (optsAt s.opts t) os
  | .method i, ds => ∃ m a b os, s.methods[i]? = some m ∧ ds = [.rpc m.name a b os] ∧ m.Means pk (pk ++ [s.name]) (.rpc m.name a b os)
  | _, ds => ds = []

theorem emits_printService (en : Env c si) {pk : QName} (hs : ScOk pk pk) {s : Service} (h : s.Ok) (path : Path) (ind : Int) :
    ∃ ds, s.Body pk ds ∧ Emits (printService c si pk s path ind) .idle (Decl.service s.name ds).toks .idle := by
  obtain ⟨ks, hks⟩ : ∃ ks, c.sort path (optKeys s.opts ++ places .method s.methods.length) = ks := ⟨_, rfl⟩
  have hp : ks.Perm (optKeys s.opts ++ places .method s.methods.length) := hks ▸ en.sorted _ _
  have hM : (ks.filterMap isMethod).Perm (List.range s.methods.length) := by
    have := hp.filterMap isMethod
    rwa [List.filterMap_append, optKeys_other (fun _ => rfl), places_same (fun _ => rfl), List.nil_append] at this
  have hO : (optKeys s.opts ++ places .method s.methods.length).filterMap isOpt = s.opts.map Prod.fst := by
    rw [List.filterMap_append, optKeys_isOpt, places_other (fun _ => rfl), List.append_nil]
  have hst : ∀ k ∈ ks, ∃ ds, VStepMeans pk s k ds ∧ Emits (fun w =>
      match k with
      | .opt t => optionsLong c si ⟨pk, pk ++ [s.name], false⟩ (optsAt s.opts t) (path ++ [3, t]) (ind + 1) w
      | .method i =>
        match s.methods[i]? with
        | some m => printMethod c si pk (pk ++ [s.name]) m (path ++ [2, (i : Int)]) (ind + 1) w
        | none => panic w
      | _ => w) .idle (Decl.toksAll ds) .idle := by
    intro k hk
    cases k with
    | opt t =>
      obtain ⟨os, h1, h2⟩ := emits_options en (a := ⟨pk, pk ++ [s.name], false⟩) (hs.snoc h.name) h.opts t (path ++ [3, t]) (ind + 1)
      exact ⟨_, ⟨os, rfl, h1⟩, h2⟩
    | method i =>
      have hi : i < s.methods.length := List.mem_range.1 (hM.subset (List.mem_filterMap.2 ⟨_, hk, rfl⟩))
      have hg := List.getElem?_eq_getElem hi
      obtain ⟨a, b, os, h1, h2⟩ := emits_printMethod en hs.idp (hs.snoc h.name) (h.methods _ (List.getElem_mem hi)) (path ++ [2, (i : Int)]) (ind + 1)
      refine ⟨_, ⟨_, a, b, _, hg, rfl, h1⟩, ?_⟩
      simp only [hg]
      exact h2.toks (by simp [Decl.toksAll])
    | _ => exact ⟨[], rfl, Emits.id .idle⟩
  obtain ⟨dss, h1, h2⟩ := emits_runSteps (one := fun k w =>
      match k with
      | .opt t => optionsLong c si ⟨pk, pk ++ [s.name], false⟩ (optsAt s.opts t) (path ++ [3, t]) (ind + 1) w
      | .method i =>
        match s.methods[i]? with
        | some m => printMethod c si pk (pk ++ [s.name]) m (path ++ [2, (i : Int)]) (ind + 1) w
        | none => panic w
      | _ => w) ks hst
  refine ⟨dss.flatten, ⟨?_, ?_, ?_⟩, ?_⟩
  · refine opts_of_keys h.opts hp hO ?_
    rw [← flatMap_toList, List.flatMap_assoc]
    refine forall2_sel (fun k ds hr => ?_) h1
    cases k with
    | opt t => obtain ⟨os, rfl, ho⟩ := hr; rw [optionDecls_option]; simpa [isOpt] using ho
    | method i => obtain ⟨m, a, b, os, _, rfl, _⟩ := hr; exact .nil
    | _ => have : ds = [] := hr; subst this; exact .nil
  · refine Matches.of_range (is := ks.filterMap isMethod) ?_ hM
    rw [← flatMap_toList]
    refine forall2_sel (fun k ds hr => ?_) h1
    cases k with
    | opt t => obtain ⟨os, rfl, ho⟩ := hr; rw [optionDecls_none (fun _ => rfl)]; exact .nil
    | method i =>
      obtain ⟨m, a, b, os, hm, rfl, hmm⟩ := hr
      exact .cons (fun x hx => by rw [hm] at hx; cases hx; exact hmm) .nil
    | _ => have : ds = [] := hr; subst this; exact .nil
  · refine forall2_all (fun k ds hr => ?_) h1
    cases k with
    | opt t => obtain ⟨os, rfl, ho⟩ := hr; exact optionDecls_all (fun _ => rfl) os
    | method i => obtain ⟨m, a, b, os, _, rfl, _⟩ := hr; simp [Decl.inService]
    | _ => have : ds = [] := hr; subst this; simp
  · have := emits_named en (kw "service ") (emits_kw "service" (by decide) (by simp)) h.name path (path ++ [1]) ind (h2 c.compactRPCs true)
    unfold printService
    rw [hks]
    exact this.toks (by simp [Decl.toks])

end Verif.Printer
