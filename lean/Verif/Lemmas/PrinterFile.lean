import Verif.Lemmas.PrinterService
/-! Files as the descriptor printer writes them. -/
namespace Verif.Printer
open Verif.Lexer Verif.PrintWriter Verif.Decls Verif.Literal

variable {c : Cfg} {si : SI}

/-! ### Statements of a file -/

theorem body_goQuote {b : Bytes} (h : PathOk b) :
    body 34 (b.flatMap (fun x => if x = 34 ∨ x = 92 then [92, x] else [x]) ++ [34]) = some b := by
  induction b with
  | nil => rw [List.flatMap_nil, List.nil_append, body]; simp
  | cons x b ih =>
    have hx := h x List.mem_cons_self
    have ih := ih (fun y hy => h y (List.mem_cons_of_mem _ hy))
    rw [List.flatMap_cons, List.append_assoc]
    by_cases h34 : x = 34
    · subst h34
      simp only [true_or, if_true, List.cons_append, List.nil_append]
      rw [body]
      simp [escape, simple, ih]
    by_cases h92 : x = 92
    · subst h92
      simp only [or_true, if_true, List.cons_append, List.nil_append]
      rw [body]
      simp [escape, simple, ih]
    · simp only [h34, h92, or_self, if_false, List.cons_append, List.nil_append]
      rw [body, if_neg h34, if_neg (by omega), if_pos h92, ih]
      rfl

theorem Txt.goQuote {b : Bytes} (h : PathOk b) :
    Txt (chars (Printer.goQuote b)) [chars (Printer.goQuote b)] ∧ StrMeans (chars (Printer.goQuote b)) b := by
  refine Txt.literal (s := b.flatMap (fun x => if x = 34 ∨ x = 92 then [92, x] else [x])) ?_ ?_
  · simpa [value] using body_goQuote h
  · intro x hx
    obtain ⟨y, hy, hxy⟩ := List.mem_flatMap.1 hx
    have := h y hy
    split at hxy
    · simp at hxy; omega
    · simp at hxy; omega

/-- A keyword, a text, and a semicolon. -/
theorem emits_statement {k s : Str} {ts : List Str} (hk : Ident k) (h : Txt s ts) :
    Emits (put (k ++ [' '] ++ s ++ [';'])) .idle ([k] ++ ts ++ semi) .idle := by
  have hx := ((Lx.ident hk).append (Lx.space (m := .ident _) trivial)).append (h.lx_punct (c := ';') (by decide))
  have ht := Txt.ident hk
  refine Emits.put_idle ((hx.toks (by simp [semi])).text (by simp)) (by simp) (by rw [List.getLast?_append]; simp) (.inr ⟨by simp, ?_⟩)
  cases k with
  | nil => cases hk
  | cons x k => simpa using ht.head

theorem ident_import : Ident ['i', 'm', 'p', 'o', 'r', 't'] := by simp [Ident]; decide
theorem ident_package : Ident ['p', 'a', 'c', 'k', 'a', 'g', 'e'] := by simp [Ident]; decide

/-- A keyword before a text. -/
theorem Txt.word {k s : Str} {ts : List Str} (hk : Ident k) (h : Txt s ts) : Txt (k ++ [' '] ++ s) (k :: ts) := by
  obtain ⟨m, hx, hm⟩ := h.lex
  have hxx := ((Lx.ident hk).append (Lx.space (m := .ident _) trivial)).append hx
  have ht := Txt.ident hk
  refine ⟨⟨m, hxx.toks (by simp), hm⟩, by simp, ?_, ?_⟩
  · rw [List.getLast?_append]
    cases hl : s.getLast? with
    | none => exact absurd (List.getLast?_eq_none_iff.1 hl) h.ne
    | some x => have := h.last; rw [hl] at this; simpa using this
  · cases k with
    | nil => cases hk
    | cons x k => simpa using ht.head

def Import.mod (i : Import) : Modifier := if i.isPublic then .pub else if i.isWeak then .weak else .none

theorem find_unique {is : List Import} (hd : (is.map Import.path).Nodup) {im : Import} (hm : im ∈ is) :
    is.find? (fun i => i.path == im.path) = some im := by
  induction is with
  | nil => cases hm
  | cons x is ih =>
    rw [List.map_cons, List.nodup_cons] at hd
    rcases List.mem_cons.1 hm with rfl | hm
    · simp
    · have hne : x.path ≠ im.path := fun e => hd.1 (e ▸ List.mem_map.2 ⟨im, hm, rfl⟩)
      rw [List.find?_cons_of_neg (by simpa using hne), ih hd.2 hm]

theorem emits_import {is : List Import} (hd : (is.map Import.path).Nodup) {im : Import} (hm : im ∈ is) (hp : PathOk im.path) :
    ∃ t, StrMeans t im.path ∧
      Emits (put (kw "import " ++ modifier is im.path ++ chars (goQuote im.path) ++ [';'])) .idle (Decl.imp im.mod t).toks .idle := by
  obtain ⟨h1, h2⟩ := Txt.goQuote hp
  refine ⟨_, h2, ?_⟩
  unfold modifier
  rw [find_unique hd hm]
  simp only
  unfold Import.mod
  by_cases hpub : im.isPublic = true
  · rw [if_pos hpub, if_pos hpub]
    have hw : Txt (['p', 'u', 'b', 'l', 'i', 'c'] ++ [' '] ++ chars (goQuote im.path)) _ := h1.word (by simp [Ident]; decide)
    have := (emits_statement ident_import hw).toks (a' := (Decl.imp .pub (chars (goQuote im.path))).toks) (by simp [Decl.toks, Modifier.toks, semi])
    simpa [kw] using this
  · rw [if_neg hpub, if_neg hpub]
    by_cases hweak : im.isWeak = true
    · rw [if_pos hweak, if_pos hweak]
      have hw : Txt (['w', 'e', 'a', 'k'] ++ [' '] ++ chars (goQuote im.path)) _ := h1.word (by simp [Ident]; decide)
      have := (emits_statement ident_import hw).toks (a' := (Decl.imp .weak (chars (goQuote im.path))).toks) (by simp [Decl.toks, Modifier.toks, semi])
      simpa [kw] using this
    · rw [if_neg hweak, if_neg hweak]
      have := (emits_statement ident_import h1).toks (a' := (Decl.imp .none (chars (goQuote im.path))).toks) (by simp [Decl.toks, Modifier.toks, semi])
      simpa [kw] using this

theorem emits_package {q : QName} (hq : QOk q) : Emits (put (kw "package " ++ dotted q ++ [';'])) .idle (Decl.package q).toks .idle := by
  have := (emits_statement ident_package (Txt.dotted hq)).toks (a' := (Decl.package q).toks) (by simp [Decl.toks, semi])
  simpa [kw] using this

theorem emits_syntax {s : Syntax} (hs : s ≠ .editions) : ∃ t, s.Means t ∧
    Emits (put (kw "syntax = " ++ '"' :: s.text ++ ['"', ';'])) .idle (Decl.syn t).toks .idle := by
  cases s with
  | proto2 =>
    refine ⟨_, rfl, Emits.put_idle ?_ (by simp [kw]) (by simp [kw, Syntax.text]) (.inr ⟨by simp, by simp [kw]⟩)⟩
    constructor <;> decide
  | proto3 =>
    refine ⟨_, rfl, Emits.put_idle ?_ (by simp [kw]) (by simp [kw, Syntax.text]) (.inr ⟨by simp, by simp [kw]⟩)⟩
    constructor <;> decide
  | editions => exact absurd rfl hs

/-! ### The steps of a file -/

def pPkg : Step → List Unit | .pkg => [()] | _ => []
def pDep : Step → List Nat | .dep i => [i] | _ => []
def pSvc : Step → List Nat | .svc i => [i] | _ => []
def isPkg : Key → Option Unit | .pkg => some () | _ => none
def isDep : Key → Option Nat | .dep i => some i | _ => none
def isSvc : Key → Option Nat | .svc i => some i | _ => none

/-- A selection of steps that corresponds to a selection of keys. -/
structure FSimple (f : File) {ι : Type*} (proj : Step → List ι) (sel : Key → Option ι) : Prop where
  pkg : proj .pkg = (sel .pkg).toList
  dep : ∀ i, proj (.dep i) = (sel (.dep i)).toList
  opt : ∀ t, proj (.opt t) = (sel (.opt t)).toList
  enum : ∀ i, proj (.enum i) = (sel (.enum i)).toList
  svc : ∀ i, proj (.svc i) = (sel (.svc i)).toList
  msg : ∀ i, i ∉ hidden [] f.exts → proj (.msg i) = (sel (.msg i)).toList
  hid : ∀ i, i ∈ hidden [] f.exts → sel (.msg i) = none
  exts : ∀ is, proj (.exts is) = []
  ext : ∀ i, sel (.ext i) = none
  field : ∀ i, sel (.field i) = none
  extR : ∀ i, sel (.extR i) = none
  resR : ∀ i, sel (.resR i) = none
  resN : ∀ i, sel (.resN i) = none
  value : ∀ i, sel (.value i) = none
  sib : ∀ i, sel (.sib i) = none
  method : ∀ i, sel (.method i) = none

variable {f : File}

theorem fmap_cons {ι : Type*} (sel : Key → Option ι) (k : Key) (ks : List Key) :
    (k :: ks).filterMap sel = (sel k).toList ++ ks.filterMap sel := by
  cases h : sel k with
  | none => rw [List.filterMap_cons_none h]; rfl
  | some a => rw [List.filterMap_cons_some h]; rfl

theorem fileSteps_simple {ι : Type*} {proj : Step → List ι} {sel : Key → Option ι} (hs : FSimple f proj sel) (ks : List Key) :
    ∀ b se, ((fileSteps c si f b se ks).map Prod.snd).flatMap proj = ks.filterMap sel := by
  induction ks with
  | nil => intro b se; rw [fileSteps]; rfl
  | cons k ks ih =>
    intro b se
    rw [fmap_cons]
    cases k with
    | pkg => rw [fileSteps, List.map_cons, List.flatMap_cons, ih, hs.pkg]
    | dep i => rw [fileSteps, List.map_cons, List.flatMap_cons, ih, hs.dep]
    | opt t => rw [fileSteps, List.map_cons, List.flatMap_cons, ih, hs.opt]
    | enum i => rw [fileSteps, List.map_cons, List.flatMap_cons, ih, hs.enum]
    | svc i => rw [fileSteps, List.map_cons, List.flatMap_cons, ih, hs.svc]
    | msg i =>
      rw [fileSteps]
      split
      · rename_i hh; rw [ih, hs.hid i hh]; rfl
      · rename_i hh; rw [List.map_cons, List.flatMap_cons, ih, hs.msg i hh]
    | ext i =>
      rw [fileSteps, hs.ext]
      split
      · rw [ih]; rfl
      · rw [List.map_cons, List.flatMap_cons, ih, hs.exts]; rfl
    | field i => rw [hs.field]; exact ih _ _
    | extR i => rw [hs.extR]; exact ih _ _
    | resR i => rw [hs.resR]; exact ih _ _
    | resN i => rw [hs.resN]; exact ih _ _
    | value i => rw [hs.value]; exact ih _ _
    | sib i => rw [hs.sib]; exact ih _ _
    | method i => rw [hs.method]; exact ih _ _

theorem fileSteps_exts (ks : List Key) : ∀ b se, ((fileSteps c si f b se ks).map Prod.snd).flatMap extsOf =
    (groups (fun i => some (extClass si f.exts [7] i)) (extMem si f.exts [7]) se (ks.filterMap isExt)).map Prod.snd := by
  induction ks with
  | nil => intro b se; rw [fileSteps]; rfl
  | cons k ks ih =>
    intro b se
    cases k with
    | pkg => rw [fileSteps, List.filterMap_cons_none rfl, List.map_cons, List.flatMap_cons, ih]; rfl
    | dep i => rw [fileSteps, List.filterMap_cons_none rfl, List.map_cons, List.flatMap_cons, ih]; rfl
    | opt t => rw [fileSteps, List.filterMap_cons_none rfl, List.map_cons, List.flatMap_cons, ih]; rfl
    | enum i => rw [fileSteps, List.filterMap_cons_none rfl, List.map_cons, List.flatMap_cons, ih]; rfl
    | svc i => rw [fileSteps, List.filterMap_cons_none rfl, List.map_cons, List.flatMap_cons, ih]; rfl
    | msg i =>
      rw [fileSteps, List.filterMap_cons_none rfl]
      split
      · rw [ih]
      · rw [List.map_cons, List.flatMap_cons, ih]; rfl
    | ext i =>
      rw [fileSteps, List.filterMap_cons_some (f := isExt) (b := i) rfl, groups]
      simp only
      split
      · rw [ih]
      · rw [List.map_cons, List.flatMap_cons, ih]
        show [extMembers si f.exts [7] i (Key.ext i :: ks)] ++ _ = _
        rw [extMembers_eq]
        rfl
    | _ => exact ih _ _

theorem fileKeys_other {β : Type*} {sel : Key → Option β} (f : File) (hopt : ∀ t, sel (.opt t) = none) :
    (fileKeys f).filterMap sel = ((if f.package = [] then [] else [Key.pkg]).filterMap sel) ++
      (List.range f.imports.length).filterMap (fun i => sel (.dep i)) ++
      (List.range f.msgs.length).filterMap (fun i => sel (.msg i)) ++
      (List.range f.enums.length).filterMap (fun i => sel (.enum i)) ++
      (List.range f.services.length).filterMap (fun i => sel (.svc i)) ++
      (List.range f.exts.length).filterMap (fun i => sel (.ext i)) := by
  unfold fileKeys
  simp only [List.filterMap_append, filterMap_places, optKeys_other hopt, List.append_nil]

theorem pkg_other {β : Type*} {sel : Key → Option β} (f : File) (h : sel .pkg = none) :
    (if f.package = [] then [] else [Key.pkg]).filterMap sel = [] := by
  split
  · rfl
  · rw [List.filterMap_cons_none h]; rfl

theorem fileKeys_opt (f : File) : (fileKeys f).filterMap isOpt = f.opts.map Prod.fst := by
  unfold fileKeys
  simp only [List.filterMap_append, filterMap_places, optKeys_isOpt, pkg_other f (sel := isOpt) rfl]
  simp [isOpt]

theorem env_file (en : Env c si) : Env c (fileSI si) where
  indent := en.indent
  noNul := en.noNul
  locs := by
    intro p l hl
    unfold fileSI at hl
    split at hl
    · exact en.loc [2] l (by simpa using hl)
    · exact en.locs p l hl
  sorted := en.sorted
  paths := by
    intro p l hl
    unfold fileSI at hl
    split at hl
    · rename_i h
      have := congrArg List.getLast? h.1
      simp at this
    · exact en.paths p l hl

/-! ### Files -/

def FStepMeans (f : File) (ms : List KidMeans) : Step → List Decl → Prop
  | .pkg, ds => ds = [.package f.package]
  | .dep i, ds => ∃ im t, f.imports[i]? = some im ∧ ds = [.imp im.mod t] ∧ StrMeans t im.path
  | .opt t, ds => ∃ os, ds = optionDecls os ∧ List.Forall₂ (Opt.Means ⟨f.package, f.package, false⟩) (optsAt f.opts t) os
  | .exts is, ds => ∃ r b, ds = [.extend r b] ∧
      List.Forall₂ (fun (i : Nat) d => ∃ x, f.exts[i]? = some x ∧ x.Means f.package f.package ms (r, d)) is b
  | .msg i, ds => ∃ m b, ms[i]? = some m ∧ ds = [.message m.name b] ∧ m.body b
  | .enum i, ds => ∃ e b, f.enums[i]? = some e ∧ ds = [.enum e.name b] ∧ e.Body f.package f.package b
  | .svc i, ds => ∃ s b, f.services[i]? = some s ∧ ds = [.service s.name b] ∧ s.Body f.package b
  | _, ds => ds = []

theorem emits_runFSteps {kids : List Kid} {R : Step → List Decl → Prop} (ss : List (Bool × Step))
    (h : ∀ s ∈ ss.map Prod.snd, ∃ ds, R s ds ∧ Emits (runFStep c si f kids s) .idle (Decl.toksAll ds) .idle) :
    ∃ dss, List.Forall₂ R (ss.map Prod.snd) dss ∧ Emits (runFSteps c si f kids ss) .idle (Decl.toksAll dss.flatten) .idle := by
  induction ss with
  | nil => exact ⟨[], .nil, Emits.id _⟩
  | cons s ss ih =>
    obtain ⟨b, s⟩ := s
    obtain ⟨ds, h1, h2⟩ := h s List.mem_cons_self
    obtain ⟨dss, h3, h4⟩ := ih (fun x hx => h x (List.mem_cons_of_mem _ hx))
    refine ⟨ds :: dss, .cons h1 h3, ?_⟩
    have hn : Emits (fun w => if b then newLine c.compactTop w else w) .idle [] .idle := by
      cases b
      · exact Emits.id .idle
      · exact emits_newLine c.compactTop .idle
    exact ((hn.comp h2).comp h4).toks (by simp [toksAll_append])

theorem fs_pkg : FSimple f pPkg isPkg := by constructor <;> intros <;> simp [pPkg, isPkg]
theorem fs_dep : FSimple f pDep isDep := by constructor <;> intros <;> simp [pDep, isDep]
theorem fs_opt : FSimple f pOpt isOpt := by constructor <;> intros <;> simp [pOpt, isOpt]
theorem fs_enum : FSimple f pEnum isEnumK := by constructor <;> intros <;> simp [pEnum, isEnumK]
theorem fs_svc : FSimple f pSvc isSvc := by constructor <;> intros <;> simp [pSvc, isSvc]
theorem fs_msg : FSimple f pMsg (selMsg (hidden [] f.exts)) := by constructor <;> intros <;> simp_all [pMsg, selMsg]

theorem extsPanic_file (h : f.exts = [] ∨ si [7] = []) : extsPanic (fileSI si) f.exts [7] = false := by
  unfold extsPanic
  rw [List.any_eq_false]
  intro i hi
  have hi' := List.mem_range.1 hi
  rcases h with h | h
  · rw [h] at hi'; exact absurd hi' (by simp)
  · have h7 : fileSI si [7] = [] := by unfold fileSI; simp [h]
    unfold extClass
    rw [List.getElem?_eq_getElem hi', h7]
    simp only [findExtSi, findExtLoop]
    split <;> simp

theorem emits_printFile (en : Env c si) (hf : f.Ok) (hx : f.exts = [] ∨ si [7] = []) :
    ∃ ds, FileMeans f ds ∧ Emits (printFile c si f) .idle (Decl.toksAll ds) .idle := by
  have en' := env_file en
  have hs : ScOk f.package f.package := ⟨hf.package, hf.package, List.prefix_refl _⟩
  have hk := kids_ok en' f.msgs hs hf.msgs
  obtain ⟨kids, hkids⟩ : ∃ kids, Msg.kids c (fileSI si) f.package f.package f.msgs = kids := ⟨_, rfl⟩
  obtain ⟨ms, hms⟩ : ∃ ms, Msg.meanings f.package f.package f.msgs = ms := ⟨_, rfl⟩
  have hlen : kids.length = f.msgs.length := hkids ▸ kids_length en' f.msgs
  rw [hkids, hms] at hk
  have hlenms : kids.length = ms.length := hk.length_eq
  obtain ⟨ks, hks⟩ : ∃ ks, c.sort [] (fileKeys f) = ks := ⟨_, rfl⟩
  have hp : ks.Perm (fileKeys f) := hks ▸ en.sorted [] _
  have hnp := extsPanic_file (si := si) hx
  obtain ⟨fs, hfs⟩ : ∃ fs, fileSteps c (fileSI si) f false [] ks = fs := ⟨_, rfl⟩
  have cont : ∀ {ι : Type} {proj : Step → List ι} {sel : Key → Option ι}, FSimple f proj sel →
      (fs.map Prod.snd).flatMap proj = ks.filterMap sel := by
    intro ι proj sel hsim
    rw [← hfs, fileSteps_simple hsim]
  have cPkg := cont fs_pkg
  have cDep := cont fs_dep
  have cOpt := cont fs_opt
  have cMsg := cont fs_msg
  have cEnum := cont fs_enum
  have cSvc := cont fs_svc
  have pPkg' : (ks.filterMap isPkg).Perm (if f.package = [] then [] else [()]) := by
    have := hp.filterMap isPkg
    rw [fileKeys_other f (fun _ => rfl)] at this
    refine this.trans (List.Perm.of_eq ?_)
    by_cases h0 : f.package = [] <;> simp [isPkg, h0]
  have pDep' : (ks.filterMap isDep).Perm (List.range f.imports.length) := by
    have := hp.filterMap isDep
    rw [fileKeys_other f (fun _ => rfl), pkg_other f rfl] at this
    simpa [isDep] using this
  have pMsg' : (ks.filterMap (selMsg (hidden [] f.exts))).Perm
      ((List.range kids.length).filterMap (fun i => if i ∈ hidden [] f.exts then none else some i)) := by
    have := hp.filterMap (selMsg (hidden [] f.exts))
    rw [fileKeys_other f (fun _ => rfl), pkg_other f rfl] at this
    rw [hlen]
    simpa [selMsg] using this
  have pEnum' : (ks.filterMap isEnumK).Perm (List.range f.enums.length) := by
    have := hp.filterMap isEnumK
    rw [fileKeys_other f (fun _ => rfl), pkg_other f rfl] at this
    simpa [isEnumK] using this
  have pSvc' : (ks.filterMap isSvc).Perm (List.range f.services.length) := by
    have := hp.filterMap isSvc
    rw [fileKeys_other f (fun _ => rfl), pkg_other f rfl] at this
    simpa [isSvc] using this
  have pExt' : (ks.filterMap isExt).Perm (List.range f.exts.length) := by
    have := hp.filterMap isExt
    rw [fileKeys_other f (fun _ => rfl), pkg_other f rfl] at this
    simpa [isExt] using this
  have cExt : (fs.map Prod.snd).flatMap extsOf =
      (groups (fun i => some (extClass (fileSI si) f.exts [7] i)) (extMem (fileSI si) f.exts [7]) [] (ks.filterMap isExt)).map Prod.snd := by
    rw [← hfs]; exact fileSteps_exts ks false []
  obtain ⟨xg1, xg2⟩ := ext_groups (si := fileSI si) (p := [7]) pExt'
  rw [← cExt] at xg1 xg2
  have hst : ∀ s ∈ fs.map Prod.snd, ∃ ds, FStepMeans f ms s ds ∧
      Emits (runFStep c si f kids s) .idle (Decl.toksAll ds) .idle := by
    intro s hsm
    cases s with
    | pkg =>
      have hne : f.package ≠ [] := by
        intro h0
        have : () ∈ ks.filterMap isPkg := cPkg ▸ flatMap_mem hsm (by simp [pPkg])
        have := pPkg'.subset this
        rw [if_pos h0] at this
        cases this
      refine ⟨_, rfl, ?_⟩
      unfold runFStep
      exact (emits_element en.indent (en'.loc _) false 0 (emits_package ⟨hne, hf.package⟩)).toks (by simp [Decl.toksAll])
    | dep i =>
      have hi : i < f.imports.length := mem_filterMap_sel pDep' (cDep ▸ flatMap_mem hsm (by simp [pDep]))
      have hg := List.getElem?_eq_getElem hi
      obtain ⟨t, h1, h2⟩ := emits_import hf.distinct (List.getElem_mem hi) (hf.imports _ (List.getElem_mem hi))
      refine ⟨_, ⟨_, t, hg, rfl, h1⟩, ?_⟩
      unfold runFStep
      simp only [hg]
      exact (emits_element en.indent (en'.loc _) false 0 h2).toks (by simp [Decl.toksAll])
    | opt t =>
      obtain ⟨os, h1, h2⟩ := emits_options en' (a := ⟨f.package, f.package, false⟩) hs hf.opts t [8, t] 0
      exact ⟨_, ⟨os, rfl, h1⟩, h2⟩
    | exts is =>
      have hmem : is ∈ (fs.map Prod.snd).flatMap extsOf := flatMap_mem hsm (by simp [extsOf])
      obtain ⟨hne, cls, hcls⟩ := xg2 is hmem
      obtain ⟨i0, r0, e0⟩ := List.exists_cons_of_ne_nil hne
      have hi0 := hcls i0 (e0 ▸ List.mem_cons_self)
      obtain ⟨cl, hcl⟩ := extClass_some hnp hi0.1
      obtain ⟨r, ds, h1, h2⟩ := emits_printExtensions en' hs hk 4 (hlen ▸ hf.exts) [7] 0 hne (q := cl.1) (by
        intro i hi
        have := (hcls i hi).2
        rw [← hi0.2, hcl] at this
        exact extClass_extendee this)
      exact ⟨_, ⟨r, ds, rfl, h1⟩, h2.toks (by simp [Decl.toksAll])⟩
    | msg i =>
      have hi : i < kids.length := by
        have : i ∈ ks.filterMap (selMsg (hidden [] f.exts)) := cMsg ▸ flatMap_mem hsm (by simp [pMsg])
        obtain ⟨j, hj, e⟩ := List.mem_filterMap.1 (pMsg'.subset this)
        split at e
        · cases e
        · cases e; exact List.mem_range.1 hj
      obtain ⟨k, m, hk1, hk2, hkm⟩ := forall2_get hk hi
      obtain ⟨ds, h1, h2⟩ := emits_printMessage en' hkm [4, (i : Int)] (by simp) 0
      refine ⟨_, ⟨m, ds, hk2, rfl, h1⟩, ?_⟩
      unfold runFStep
      simp only [hk1]
      exact h2.toks (by simp [Decl.toksAll])
    | enum i =>
      have hi : i < f.enums.length := mem_filterMap_sel pEnum' (cEnum ▸ flatMap_mem hsm (by simp [pEnum]))
      have hg := List.getElem?_eq_getElem hi
      obtain ⟨ds, h1, h2⟩ := emits_printEnum en' hs (hf.enums _ (List.getElem_mem hi)) [5, (i : Int)] 0
      refine ⟨_, ⟨_, ds, hg, rfl, h1⟩, ?_⟩
      unfold runFStep
      simp only [hg]
      exact h2.toks (by simp [Decl.toksAll])
    | svc i =>
      have hi : i < f.services.length := mem_filterMap_sel pSvc' (cSvc ▸ flatMap_mem hsm (by simp [pSvc]))
      have hg := List.getElem?_eq_getElem hi
      obtain ⟨ds, h1, h2⟩ := emits_printService en' hs (hf.services _ (List.getElem_mem hi)) [6, (i : Int)] 0
      refine ⟨_, ⟨_, ds, hg, rfl, h1⟩, ?_⟩
      unfold runFStep
      simp only [hg]
      exact h2.toks (by simp [Decl.toksAll])
    | _ => exact ⟨[], rfl, Emits.id .idle⟩
  obtain ⟨dss, h1, h2⟩ := emits_runFSteps fs hst
  obtain ⟨t, ht, hte⟩ := emits_syntax hf.syn
  refine ⟨.syn t :: dss.flatten, ⟨t, _, rfl, ht, ?_⟩, ?_⟩
  · constructor
    case package =>
      have key : List.Forall₂ (fun (_ : Unit) (q : QName) => q = f.package) ((fs.map Prod.snd).flatMap pPkg) (dss.flatten.flatMap asPackage) := by
        refine forall2_sel (fun s ds hr => ?_) h1
        cases s with
        | pkg => have : ds = _ := hr; subst this; exact .cons rfl .nil
        | dep i => obtain ⟨im, t, _, rfl, _⟩ := hr; exact .nil
        | opt t => obtain ⟨os, rfl, ho⟩ := hr; rw [optionDecls_none (fun _ => rfl)]; exact .nil
        | exts is => obtain ⟨r, b, rfl, hb⟩ := hr; exact .nil
        | msg i => obtain ⟨m, b, hm0, rfl, hm⟩ := hr; exact .nil
        | enum i => obtain ⟨e, b, he0, rfl, he⟩ := hr; exact .nil
        | svc i => obtain ⟨e, b, he0, rfl, he⟩ := hr; exact .nil
        | _ => have : ds = [] := hr; subst this; exact .nil
      rw [cPkg] at key
      generalize dss.flatten.flatMap asPackage = x at key ⊢
      generalize ks.filterMap isPkg = y at key pPkg'
      by_cases h0 : f.package = []
      · rw [if_pos h0] at pPkg' ⊢
        rw [pPkg'.eq_nil] at key
        cases key; rfl
      · rw [if_neg h0] at pPkg' ⊢
        rw [List.perm_singleton.1 pPkg'] at key
        cases key with
        | cons h t => cases t; rw [h]
    case imports =>
      refine Matches.of_range (is := ks.filterMap isDep) ?_ pDep'
      rw [← cDep]
      refine forall2_sel (fun s ds hr => ?_) h1
      cases s with
      | pkg => have : ds = _ := hr; subst this; exact .nil
      | dep i =>
        obtain ⟨im, t, hi, rfl, ht⟩ := hr
        exact .cons (fun x hx => by rw [hi] at hx; cases hx; exact ⟨rfl, ht⟩) .nil
      | opt t => obtain ⟨os, rfl, ho⟩ := hr; rw [optionDecls_none (fun _ => rfl)]; exact .nil
      | exts is => obtain ⟨r, b, rfl, hb⟩ := hr; exact .nil
      | msg i => obtain ⟨m, b, hm0, rfl, hm⟩ := hr; exact .nil
      | enum i => obtain ⟨e, b, he0, rfl, he⟩ := hr; exact .nil
      | svc i => obtain ⟨e, b, he0, rfl, he⟩ := hr; exact .nil
      | _ => have : ds = [] := hr; subst this; exact .nil
    case opts =>
      refine opts_of_keys hf.opts hp (fileKeys_opt f) ?_
      rw [← cOpt, List.flatMap_assoc]
      refine forall2_sel (fun s ds hr => ?_) h1
      cases s with
      | pkg => have : ds = _ := hr; subst this; exact .nil
      | dep i => obtain ⟨im, t, _, rfl, _⟩ := hr; exact .nil
      | opt t =>
        obtain ⟨os, rfl, ho⟩ := hr
        rw [optionDecls_option]; simpa [pOpt] using ho
      | exts is => obtain ⟨r, b, rfl, hb⟩ := hr; exact .nil
      | msg i => obtain ⟨m, b, hm0, rfl, hm⟩ := hr; exact .nil
      | enum i => obtain ⟨e, b, he0, rfl, he⟩ := hr; exact .nil
      | svc i => obtain ⟨e, b, he0, rfl, he⟩ := hr; exact .nil
      | _ => have : ds = [] := hr; subst this; exact .nil
    case msgs =>
      rw [hms]
      refine Matches.of_idx (P := fun i (d : Str × List Decl) => ∃ m, ms[i]? = some m ∧ KidMeans.Means m d)
        (is := ks.filterMap (selMsg (hidden [] f.exts))) (get := fun i => ms[i]?) ?_ ?_ ?_
      rotate_left
      · intro i hi
        have hi' : i < ms.length := by
          obtain ⟨j, hj, e⟩ := List.mem_filterMap.1 (pMsg'.subset hi)
          split at e
          · cases e
          · cases e; rw [← hlenms]; exact List.mem_range.1 hj
        have hg := List.getElem?_eq_getElem hi'
        exact ⟨_, hg, fun y ⟨f, hf, hm⟩ => by rw [hg] at hf; cases hf; exact hm⟩
      · rw [hlenms] at pMsg'
        exact (pMsg'.filterMap _).trans (List.Perm.of_eq (visible_eq [] f.exts ms))
      rw [← cMsg]
      refine forall2_sel (fun s ds hr => ?_) h1
      cases s with
      | pkg => have : ds = _ := hr; subst this; exact .nil
      | dep i => obtain ⟨im, t, _, rfl, _⟩ := hr; exact .nil
      | opt t => obtain ⟨os, rfl, ho⟩ := hr; rw [optionDecls_none (fun _ => rfl)]; exact .nil
      | exts is => obtain ⟨r, b, rfl, hb⟩ := hr; exact .nil
      | msg i => obtain ⟨m, b, hm0, rfl, hm⟩ := hr; exact .cons ⟨m, hm0, rfl, hm⟩ .nil
      | enum i => obtain ⟨e, b, he0, rfl, he⟩ := hr; exact .nil
      | svc i => obtain ⟨e, b, he0, rfl, he⟩ := hr; exact .nil
      | _ => have : ds = [] := hr; subst this; exact .nil
    case enums =>
      refine Matches.of_range (is := ks.filterMap isEnumK) ?_ pEnum'
      rw [← cEnum]
      refine forall2_sel (fun s ds hr => ?_) h1
      cases s with
      | pkg => have : ds = _ := hr; subst this; exact .nil
      | dep i => obtain ⟨im, t, _, rfl, _⟩ := hr; exact .nil
      | opt t => obtain ⟨os, rfl, ho⟩ := hr; rw [optionDecls_none (fun _ => rfl)]; exact .nil
      | exts is => obtain ⟨r, b, rfl, hb⟩ := hr; exact .nil
      | msg i => obtain ⟨m, b, hm0, rfl, hm⟩ := hr; exact .nil
      | enum i =>
        obtain ⟨e, b, he0, rfl, he⟩ := hr
        exact .cons (fun x hx => by rw [he0] at hx; cases hx; exact ⟨rfl, he⟩) .nil
      | svc i => obtain ⟨e, b, he0, rfl, he⟩ := hr; exact .nil
      | _ => have : ds = [] := hr; subst this; exact .nil
    case services =>
      refine Matches.of_range (is := ks.filterMap isSvc) ?_ pSvc'
      rw [← cSvc]
      refine forall2_sel (fun s ds hr => ?_) h1
      cases s with
      | pkg => have : ds = _ := hr; subst this; exact .nil
      | dep i => obtain ⟨im, t, _, rfl, _⟩ := hr; exact .nil
      | opt t => obtain ⟨os, rfl, ho⟩ := hr; rw [optionDecls_none (fun _ => rfl)]; exact .nil
      | exts is => obtain ⟨r, b, rfl, hb⟩ := hr; exact .nil
      | msg i => obtain ⟨m, b, hm0, rfl, hm⟩ := hr; exact .nil
      | enum i => obtain ⟨e, b, he0, rfl, he⟩ := hr; exact .nil
      | svc i =>
        obtain ⟨e, b, he0, rfl, he⟩ := hr
        exact .cons (fun x hx => by rw [he0] at hx; cases hx; exact ⟨rfl, he⟩) .nil
      | _ => have : ds = [] := hr; subst this; exact .nil
    case exts =>
      rw [hms]
      refine Matches.of_idx (P := fun (i : Nat) (d : Ref × Decl) => ∃ x, f.exts[i]? = some x ∧ x.Means f.package f.package ms d)
        (is := ((fs.map Prod.snd).flatMap extsOf).flatten) (get := fun i => f.exts[i]?) ?_ ?_ ?_
      rotate_left
      · intro i hi
        have hi' : i < f.exts.length := List.mem_range.1 (pExt'.subset (xg1.subset hi))
        have hg := List.getElem?_eq_getElem hi'
        exact ⟨_, hg, fun y ⟨f, hf, hm⟩ => by rw [hg] at hf; cases hf; exact hm⟩
      · have := (xg1.trans pExt').filterMap (fun i => f.exts[i]?)
        rwa [range_get] at this
      rw [← pExts_eq]
      refine forall2_sel (fun s ds hr => ?_) h1
      cases s with
      | pkg => have : ds = _ := hr; subst this; exact .nil
      | dep i => obtain ⟨im, t, _, rfl, _⟩ := hr; exact .nil
      | opt t => obtain ⟨os, rfl, ho⟩ := hr; rw [optionDecls_none (fun _ => rfl)]; exact .nil
      | exts is =>
        obtain ⟨r, b, rfl, hb⟩ := hr
        simpa [pExts, asExtend] using hb
      | msg i => obtain ⟨m, b, hm0, rfl, hm⟩ := hr; exact .nil
      | enum i => obtain ⟨e, b, he0, rfl, he⟩ := hr; exact .nil
      | svc i => obtain ⟨e, b, he0, rfl, he⟩ := hr; exact .nil
      | _ => have : ds = [] := hr; subst this; exact .nil
    case only =>
      refine forall2_all_mem h1 (fun s hsm ds hr => ?_)
      cases s with
      | pkg => have : ds = _ := hr; subst this; simp [Decl.inFile]
      | dep i => obtain ⟨im, t, _, rfl, _⟩ := hr; simp [Decl.inFile]
      | opt t => obtain ⟨os, rfl, ho⟩ := hr; exact optionDecls_all (fun _ => rfl) os
      | exts is =>
        obtain ⟨r, b, rfl, hb⟩ := hr
        simpa [Decl.inFile] using forall2_ne hb (xg2 is (flatMap_mem hsm (by simp [extsOf]))).1
      | msg i => obtain ⟨m, b, hm0, rfl, hm⟩ := hr; simp [Decl.inFile]
      | enum i => obtain ⟨e, b, he0, rfl, he⟩ := hr; simp [Decl.inFile]
      | svc i => obtain ⟨e, b, he0, rfl, he⟩ := hr; simp [Decl.inFile]
      | _ => have : ds = [] := hr; subst this; simp
  · have hall := ((emits_element en.indent (en'.loc [12]) false 0 hte).comp (emits_newLine c.compactTop .idle)).comp h2
    unfold printFile
    simp only [hnp, hkids, hks, hfs, Bool.false_eq_true, if_false]
    exact hall.toks (by simp [Decl.toksAll])

theorem print_ok (en : Env c si) (hf : f.Ok) (hx : f.exts = [] ∨ si [7] = []) :
    ∃ out ds, print c si f = some out ∧ Lexer.lex out = Decl.toksAll ds ∧ FileMeans f ds := by
  obtain ⟨ds, h1, h2⟩ := emits_printFile en hf hx
  have hg : Good .idle [] ({} : W) [] .idle := by constructor <;> first | rfl | simp
  have := hg.after h2
  refine ⟨(printFile c si f {}).w.out, ds, ?_, ?_, h1⟩
  · unfold print
    simp only [this.ok, Bool.false_eq_true, if_false]
  · have hl := this.lexed
    simpa [Lexer.lex] using hl

end Verif.Printer
