import Verif.Lemmas.PrinterKeeps
/-! The comments of messages, services, and files that the descriptor printer writes. -/
namespace Verif.Printer
open Verif.Lexer Verif.PrintWriter Verif.Decls Verif.Literal

variable {c : Cfg} {si : SI}

/-! ### The steps of a message -/

section Steps
variable {h : MHead} {path : Path} {ks : List Key} {n : Nat}

theorem step_simple {proj : Step → List Nat} {sel : Key → Option Nat} (hsim : Simple h proj (fun k => (sel k).toList)) {i : Nat}
    (hi : i ∈ ks.filterMap sel) : ∃ s ∈ steps si h path 0 [] [] ks, i ∈ proj s := by
  rw [← flatMap_toList, ← steps_simple (si := si) (path := path) hsim ks.length [] [] ks (Nat.le_refl _)] at hi
  exact List.mem_flatMap.1 hi

theorem step_field (hp : ks.Perm (msgKeys h n)) {i : Nat} (hi : i < h.fields.length) (hr : realOneof h i = none) :
    Step.field i ∈ steps si h path 0 [] [] ks := by
  have hm : i ∈ ks.filterMap (selField h) := by
    have := hp.filterMap (selField h)
    rw [keys_other h _ (fun _ => rfl)] at this
    refine this.symm.subset ?_
    simp [selField, hr, hi]
  obtain ⟨s, hs, hm⟩ := step_simple (si := si) (path := path) (simple_field h) hm
  cases s with
  | field j => simp [pField] at hm; subst hm; exact hs
  | _ => simp [pField] at hm

theorem step_msg (hp : ks.Perm (msgKeys h n)) {i : Nat} (hi : i < n) (hr : i ∉ hidden h.fields h.exts) :
    Step.msg i ∈ steps si h path 0 [] [] ks := by
  have hm : i ∈ ks.filterMap (selMsg (hidden h.fields h.exts)) := by
    have := hp.filterMap (selMsg (hidden h.fields h.exts))
    rw [keys_other h _ (fun _ => rfl)] at this
    refine this.symm.subset ?_
    simp [selMsg, hr, hi]
  obtain ⟨s, hs, hm⟩ := step_simple (si := si) (path := path) (simple_msg h) hm
  cases s with
  | msg j => simp [pMsg] at hm; subst hm; exact hs
  | _ => simp [pMsg] at hm

theorem step_enum (hp : ks.Perm (msgKeys h n)) {i : Nat} (hi : i < h.enums.length) : Step.enum i ∈ steps si h path 0 [] [] ks := by
  have hm : i ∈ ks.filterMap isEnumK := by
    have := hp.filterMap isEnumK
    rw [keys_other h _ (fun _ => rfl)] at this
    refine this.symm.subset ?_
    simp [isEnumK, hi]
  obtain ⟨s, hs, hm⟩ := step_simple (si := si) (path := path) (simple_enum h) hm
  cases s with
  | enum j => simp [pEnum] at hm; subst hm; exact hs
  | _ => simp [pEnum] at hm

theorem fields_perm (hp : ks.Perm (msgKeys h n)) : (ks.filterMap isField).Perm (List.range h.fields.length) := by
  have := hp.filterMap isField
  rw [keys_other h _ (fun _ => rfl)] at this
  simpa [isField] using this

theorem step_oneof (hp : ks.Perm (msgKeys h n)) {i j : Nat} (hi : i < h.fields.length) (hr : realOneof h i = some j) :
    ∃ is, Step.oneof j is ∈ steps si h path 0 [] [] ks ∧ i ∈ is := by
  have hpf := fields_perm hp
  obtain ⟨g, hg, e⟩ := groups_all (mem := oneofMem h) [] _ (hpf.symm.subset (List.mem_range.2 hi)) hr (by simp)
  have hin : i ∈ g.2 := (oneof_groups hpf g hg).symm.subset (List.mem_filter.2 ⟨List.mem_range.2 hi, by simpa [e] using realOneof_bind hr⟩)
  rw [← steps_oneofs (si := si) (path := path) ks.length [] [] ks (Nat.le_refl _)] at hg
  obtain ⟨s, hs, hm⟩ := List.mem_flatMap.1 hg
  cases s with
  | oneof k is => simp [oneofOf] at hm; subst hm; exact ⟨is, e ▸ hs, hin⟩
  | _ => simp [oneofOf] at hm

theorem step_exts (hp : ks.Perm (msgKeys h n)) {i : Nat} (hi : i < h.exts.length) :
    ∃ is, Step.exts is ∈ steps si h path 0 [] [] ks ∧ i ∈ is := by
  have hpe : (ks.filterMap isExt).Perm (List.range h.exts.length) := by
    have := hp.filterMap isExt
    rw [keys_other h _ (fun _ => rfl)] at this
    simpa [isExt] using this
  obtain ⟨h1, _⟩ := ext_groups (si := si) (p := path ++ [6]) hpe
  rw [← steps_exts (si := si) (path := path) ks.length [] [] ks (Nat.le_refl _)] at h1
  obtain ⟨is, his, hin⟩ := List.mem_flatten.1 (h1.symm.subset (hpe.symm.subset (List.mem_range.2 hi)))
  obtain ⟨s, hs, hm⟩ := List.mem_flatMap.1 his
  cases s with
  | exts k => simp [extsOf] at hm; subst hm; exact ⟨_, hs, hin⟩
  | _ => simp [extsOf] at hm

end Steps

/-! ### Bodies of messages -/

section Body
variable {P : Str → Prop} {pk sc : QName} {ms : List Msg} {h : MHead} {path : Path}

theorem shows_body (en : Env c si) (hp : 2 ≤ path.length) {s : Step} {ind : Int}
    (hs : s ∈ steps si h path 0 [] [] (c.sort path (msgKeys h (Msg.kids c si pk sc ms).length)))
    (hsh : Shows (runStep c si pk sc (Msg.kids c si pk sc ms) h path ind s) P) :
    Shows (printMessageBody c si pk sc (Msg.kids c si pk sc ms) h path ind) P := by
  have hnp : extsPanic si h.exts (path ++ [6]) = false := extsPanic_false hp (en.paths path)
  have := shows_runSteps (fun s _ => local_runStep pk sc (local_kids pk ms sc) h path ind s) hs hsh c.compactFields
    (firstShown h (c.sort path (msgKeys h (Msg.kids c si pk sc ms).length)))
  constructor
  intro w
  obtain ⟨a, m, r, e, p⟩ := this.ex w
  refine ⟨a, m, r, ?_, p⟩
  unfold printMessageBody
  rw [hnp]
  exact e

theorem shows_body_field (en : Env c si) (hh : h.Ok ms.length) (hp : 2 ≤ path.length) {i : Nat} {f : Field} (hf : h.fields[i]? = some f)
    (hs : ∀ ind, Shows (printField c si pk sc (Msg.kids c si pk sc ms) 3 false f (path ++ [2, (i : Int)]) ind) P) (ind : Int) :
    Shows (printMessageBody c si pk sc (Msg.kids c si pk sc ms) h path ind) P := by
  have hi := (List.getElem?_eq_some_iff.1 hf).1
  cases hr : realOneof h i with
  | none =>
    refine shows_body en hp (step_field (en.sorted _ _) hi hr) ?_
    show Shows (fun w => runStep c si pk sc _ h path ind (.field i) w) P
    simp only [runStep, hf]
    exact hs ind
  | some j =>
    obtain ⟨is, hm, hin⟩ := step_oneof (si := si) (path := path) (en.sorted path (msgKeys h (Msg.kids c si pk sc ms).length)) hi hr
    refine shows_body en hp hm ?_
    obtain ⟨f', hf', ho, _⟩ := realOneof_some hr
    have hlt := hh.oneof f' (List.mem_of_getElem? hf') _ ho
    show Shows (fun w => printOneOf c si pk sc _ h j is path ind w) P
    simp only [printOneOf, List.getElem?_eq_getElem hlt]
    refine shows_inside _ _ _ _ ind (shows_runSteps (s := .sib i)
      (fun s _ => local_runOStep pk sc (local_kids pk ms sc) h _ path _ (ind + 1) s) ?_ ?_ _ true)
    · exact (en.sorted _ _).symm.subset (List.mem_append_right _ (List.mem_map_of_mem hin))
    · show Shows (fun w => runOStep c si pk sc _ h _ path _ (ind + 1) (.sib i) w) P
      simp only [runOStep, hf]
      exact hs (ind + 1)

theorem shows_exts {kids : List Kid} (hk : ∀ k ∈ kids, ∀ p i, Local (k.body p i)) {msgTag : Int} {exts : List Ext} {is : List Nat} {i : Nat}
    (hi : i ∈ is) {x : Ext} (hx : exts[i]? = some x) (hall : ∀ j ∈ is, j < exts.length)
    (hs : ∀ ind, Shows (printField c si pk sc kids msgTag true x.field (path ++ [(i : Int)]) ind) P) (ind : Int) :
    Shows (printExtensions c si pk sc kids msgTag exts path ind is) P := by
  cases is with
  | nil => cases hi
  | cons i0 is =>
    have h0 := List.getElem?_eq_getElem (hall i0 List.mem_cons_self)
    show Shows (fun w => printExtensions c si pk sc kids msgTag exts path ind (i0 :: is) w) P
    simp only [printExtensions, h0]
    have hin : Shows (extFields c si pk sc kids msgTag exts path (ind + 1) (i0 :: is)) P := by
      unfold extFields
      refine shows_runSteps (s := i) (fun s _ => ?_) hi ?_ _ true
      · cases exts[s]? with
        | none => exact local_panic
        | some y => exact local_printField pk sc hk msgTag true y.field _ _
      · simp only [hx]
        exact hs (ind + 1)
    exact ((Shows.before _ hin).after (local_indentW ind)).after (local_put _)

theorem shows_body_ext (en : Env c si) (hp : 2 ≤ path.length) {i : Nat} {x : Ext} (hx : h.exts[i]? = some x)
    (hs : ∀ ind, Shows (printField c si pk sc (Msg.kids c si pk sc ms) 3 true x.field (path ++ [6, (i : Int)]) ind) P) (ind : Int) :
    Shows (printMessageBody c si pk sc (Msg.kids c si pk sc ms) h path ind) P := by
  have hi := (List.getElem?_eq_some_iff.1 hx).1
  have hperm := en.sorted path (msgKeys h (Msg.kids c si pk sc ms).length)
  obtain ⟨is, hm, hin⟩ := step_exts (si := si) (path := path) hperm hi
  refine shows_body en hp hm ?_
  have hall : ∀ j ∈ is, j < h.exts.length := by
    intro j hj
    have hpe : ((c.sort path (msgKeys h (Msg.kids c si pk sc ms).length)).filterMap isExt).Perm (List.range h.exts.length) := by
      have := hperm.filterMap isExt
      rw [keys_other h _ (fun _ => rfl)] at this
      simpa [isExt] using this
    obtain ⟨_, h2⟩ := ext_groups (si := si) (p := path ++ [6]) hpe
    rw [← steps_exts (si := si) (path := path) _ [] [] _ (Nat.le_refl _)] at h2
    obtain ⟨_, _, h3⟩ := h2 is (flatMap_mem hm (by simp [extsOf]))
    exact (h3 j hj).1
  show Shows (printExtensions c si pk sc _ 3 h.exts (path ++ [6]) ind is) P
  refine shows_exts (local_kids pk ms sc) hin hx hall (fun ind => ?_) ind
  have := hs ind
  rwa [show path ++ [6] ++ [(i : Int)] = path ++ [6, (i : Int)] by simp]

end Body

theorem take_two (p : Path) (a b : Int) : (p ++ [a, b]).take ((p ++ [a, b]).length - 2) = p := by simp

theorem allOk_get {ms : List Msg} (h : Msg.AllOk ms) {j : Nat} {m : Msg} (hj : ms[j]? = some m) : m.Ok := by
  induction ms generalizing j with
  | nil => simp at hj
  | cons x ms ih =>
    rw [Msg.AllOk] at h
    cases j with
    | zero => simp at hj; exact hj ▸ h.1
    | succ j => exact ih h.2 (by simpa using hj)

/-- A message, with its comments. -/
theorem shows_message (en : Env c si) {pk sc : QName} {m : Msg} (hm : m.Ok) {path : Path} {l : Loc} (hl : si.get path = some l) (ind : Int) :
    Shows (printMessage c si (m.kid c si pk sc) path ind) (Keeps c l ["message".toList, m.head.name]) := by
  have hn : Ident m.head.name := by
    cases m with
    | mk h ms => rw [Msg.Ok] at hm; exact hm.1.name
  unfold printMessage
  rw [kid_name]
  exact shows_named en (kw "message ") (emits_kw "message" (by decide) (by simp)) hn hl _ ind (local_kid pk m sc path (ind + 1))

/-- What is in a message. -/
theorem shows_inMessage {P : Str → Prop} {k : Kid} {path : Path} {ind : Int} (h : Shows (k.body path (ind + 1)) P) :
    Shows (printMessage c si k path ind) P := by
  unfold printMessage
  exact shows_inside _ _ _ _ ind h

theorem declared_cases {fs : List Field} {xs : List Ext} {j : Nat} (h : declared fs xs j = true) (hm : ∀ f ∈ fs, ∀ k v, f.type ≠ .map k v j) :
    (∃ f ∈ fs, f.type = .group j) ∨ ∃ x ∈ xs, x.field.type = .group j := by
  rw [← hidden_iff] at h
  unfold hidden at h
  rcases List.mem_append.1 h with h | h
  · obtain ⟨f, hf, e⟩ := List.mem_filterMap.1 h
    cases ht : f.type with
    | plain t => rw [ht] at e; cases e
    | group i => rw [ht] at e; cases e; exact .inl ⟨f, hf, ht⟩
    | map k v i => rw [ht] at e; cases e; exact absurd ht (hm f hf k v)
  · obtain ⟨x, hx, e⟩ := List.mem_filterMap.1 h
    unfold Field.group? at e
    cases ht : x.field.type with
    | group i => rw [ht] at e; cases e; exact .inr ⟨x, hx, ht⟩
    | _ => rw [ht] at e; cases e

theorem shows_msgEl (en : Env c si) {pk : QName} {m : Msg} {p q : Path} {ts : List Str} (hq : MsgEl m p q ts) {l : Loc}
    (hl : si.get q = some l) : ∀ {sc : QName}, ScOk pk sc → m.Ok → 2 ≤ p.length → ∀ ind, Shows ((m.kid c si pk sc).body p ind) (Keeps c l ts) := by
  induction hq with
  | field h ms p q ts i f hf hel =>
    intro sc hs hm hp ind
    rw [Msg.Ok] at hm
    rw [Msg.kid]
    refine shows_body_field en hm.1 hp hf (fun ind => ?_) ind
    refine shows_field en (hs.snoc hm.1.name) hm.2 3 false (hm.1.fields f (List.mem_of_getElem? hf)) ?_ hl ind
    rw [take_two]
    exact hel
  | ext h ms p q ts i x hx hel =>
    intro sc hs hm hp ind
    rw [Msg.Ok] at hm
    rw [Msg.kid]
    refine shows_body_ext en hp hx (fun ind => ?_) ind
    refine shows_field en (hs.snoc hm.1.name) hm.2 3 true (hm.1.exts x (List.mem_of_getElem? hx)).field ?_ hl ind
    rw [take_two]
    exact hel
  | oneof h ms p j o ho hsyn =>
    intro sc hs hm hp ind
    rw [Msg.Ok] at hm
    rw [Msg.kid]
    have hlt := (List.getElem?_eq_some_iff.1 ho).1
    obtain ⟨f, hf, hfo⟩ := hm.1.inhabited j hlt
    obtain ⟨i, hi, rfl⟩ := List.mem_iff_getElem.1 hf
    have hr : realOneof h i = some j := by
      unfold realOneof
      rw [List.getElem?_eq_getElem hi]
      simp [hfo, ho, hsyn]
    obtain ⟨is, hmm, hin⟩ := step_oneof (si := si) (path := p)
      (en.sorted p (msgKeys h (Msg.kids c si pk (sc ++ [h.name]) ms).length)) hi hr
    refine shows_body en hp hmm ?_
    show Shows (fun w => printOneOf c si pk (sc ++ [h.name]) _ h j is p ind w) _
    simp only [printOneOf, ho]
    exact shows_named en (kw "oneof ") (emits_kw "oneof" (by decide) (by simp)) (hm.1.oneofs o (List.mem_of_getElem? ho)).1 hl _ ind
      (local_runSteps _ _ (fun s _ => local_runOStep pk _ (local_kids pk ms _) h o p _ (ind + 1) s) true)
  | enum h ms p q ts i e he hel =>
    intro sc hs hm hp ind
    rw [Msg.Ok] at hm
    rw [Msg.kid]
    refine shows_body en hp (step_enum (en.sorted _ _) (List.getElem?_eq_some_iff.1 he).1) ?_
    show Shows (fun w => runStep c si pk (sc ++ [h.name]) _ h p ind (.enum i) w) _
    simp only [runStep, he]
    exact shows_enum en (hs.snoc hm.1.name) (hm.1.enums e (List.mem_of_getElem? he)) hel hl ind
  | msg h ms p j m hj hd =>
    intro sc hs hm hp ind
    rw [Msg.Ok] at hm
    rw [Msg.kid]
    have hlt := (List.getElem?_eq_some_iff.1 hj).1
    refine shows_body en hp (step_msg (i := j) (en.sorted _ _) (by rw [kids_length en]; exact hlt)
      (fun hc => by rw [hidden_iff, hd] at hc; cases hc)) ?_
    show Shows (fun w => runStep c si pk (sc ++ [h.name]) _ h p ind (.msg j) w) _
    simp only [runStep, kids_get, hj, Option.map_some]
    exact shows_message en (allOk_get hm.2 hj) hl ind
  | nested h ms p q ts j m hj hmap hel ih =>
    intro sc hs hm hp ind
    rw [Msg.Ok] at hm
    rw [Msg.kid]
    have hlt := (List.getElem?_eq_some_iff.1 hj).1
    have hk : (Msg.kids c si pk (sc ++ [h.name]) ms)[j]? = some (m.kid c si pk (sc ++ [h.name])) := by rw [kids_get, hj]; rfl
    have ih' := ih hl (hs.snoc hm.1.name) (allOk_get hm.2 hj) (by simp)
    cases hd : declared h.fields h.exts j with
    | false =>
      refine shows_body en hp (step_msg (i := j) (en.sorted _ _) (by rw [kids_length en]; exact hlt)
        (fun hc => by rw [hidden_iff, hd] at hc; cases hc)) ?_
      show Shows (fun w => runStep c si pk (sc ++ [h.name]) _ h p ind (.msg j) w) _
      simp only [runStep, hk]
      exact shows_inMessage (ih' (ind + 1))
    | true =>
      rcases declared_cases hd hmap with ⟨f, hf, ht⟩ | ⟨x, hx, ht⟩
      · obtain ⟨i, hi, rfl⟩ := List.mem_iff_getElem.1 hf
        refine shows_body_field en hm.1 hp (List.getElem?_eq_getElem hi) (fun ind => shows_inGroup ht hk ?_) ind
        rw [take_two]
        exact ih' (ind + 1)
      · obtain ⟨i, hi, rfl⟩ := List.mem_iff_getElem.1 hx
        refine shows_body_ext en hp (List.getElem?_eq_getElem hi) (fun ind => shows_inGroup ht hk ?_) ind
        rw [take_two]
        exact ih' (ind + 1)

/-! ### Services -/

theorem shows_method (en : Env c si) {pk sc : QName} (hpk : Idents pk) {m : Method} (h : m.Ok) {path : Path} {l : Loc}
    (hl : si.get path = some l) (ind : Int) : Shows (printMethod c si pk sc m path ind) (Keeps c l ["rpc".toList, m.name]) := by
  obtain ⟨ri, hri, ti⟩ := txt_rpcType (c := c) hpk h.input m.clientStream
  obtain ⟨ro, hro, to'⟩ := txt_rpcType (c := c) hpk h.output m.serverStream
  have ekw := emits_kw "rpc" (by decide) (k := .idle) (by simp)
  have ename : Emits (elementString c (si.get (path ++ [1])) ind m.name) .sep [m.name] .any :=
    emits_elementString en.indent (en.loc _) ind ((Txt.ident h.name).emits (by simp))
  have eopen := emits_put_punct (x := '(') (by decide) (by decide) .any
  have ein := emits_elementString en.indent (en.loc (path ++ [2])) ind (ti.emits (k := .idle) (by simp))
  have eout := emits_elementString en.indent (en.loc (path ++ [3])) ind (to'.emits (k := .idle) (by simp))
  have hhead := (((((((emits_indentW en.indent ind .idle).comp ekw).comp ename).comp eopen).comp ein).comp (emits_returns .any)).comp eout).comp
    (emits_paren .any)
  have hlocal := ((((((((local_indentW (c := c) ind).comp (local_put (kw "rpc "))).comp (local_elementString (c := c) (si.get (path ++ [1])) ind m.name)).comp
    (local_put ['('])).comp (local_elementString (c := c) (si.get (path ++ [2])) ind ((if m.clientStream then kw "stream " else []) ++ qual c pk pk m.input 0))).comp
    (local_put (kw ") returns ("))).comp (local_elementString (c := c) (si.get (path ++ [3])) ind
      ((if m.serverStream then kw "stream " else []) ++ qual c pk pk m.output 0))).comp (local_put [')', ' ']))
  have hst : ∀ b : Bool, Inner (if b then ["stream".toList] else []) := by
    intro b; cases b
    · exact Inner.nil
    · exact Inner.cons (by decide) Inner.nil
  have hinner : Inner ([['(']] ++ ((if m.clientStream then ["stream".toList] else []) ++ ri.toks) ++ [[')'], "returns".toList, ['(']] ++
      ((if m.serverStream then ["stream".toList] else []) ++ ro.toks) ++ [[')']]) := by
    refine Inner.append (Inner.append (Inner.append (Inner.append (Inner.cons (by decide) Inner.nil) ?_) ?_) ?_) (Inner.cons (by decide) Inner.nil)
    · exact (hst _).append (ref_inner (refMeans_idents hri h.input.idents))
    · exact Inner.cons (by decide) (Inner.cons (by decide) (Inner.cons (by decide) Inner.nil))
    · exact (hst _).append (ref_inner (refMeans_idents hro h.output.idents))
  unfold printMethod
  rw [hl]
  by_cases he : m.opts.isEmpty = true
  · simp only [he, if_true]
    refine shows_block en.indent (en.loc path l hl) (rest := fun w => w) (hlocal.comp (local_put [';'])) (hhead.comp (emits_semi .sep)) Local.id
      ?_ ind ind false
    exact ⟨[], _, [], [';'], by simp, .inl rfl, Inner.nil, hinner, .inl rfl⟩
  · simp only [he, Bool.false_eq_true, if_false]
    refine shows_block en.indent (en.loc path l hl) (hlocal.comp (local_put ['{', '\n'])) (hhead.comp (emits_open .sep))
      (((local_runSteps c.compactOptions _ (fun k _ => ?_) true).comp (local_indentW ind)).comp (local_put ['}', '\n'])) ?_ ind (ind + 1) true
    · cases k with
      | opt t => exact local_optionsLong ..
      | _ => exact Local.id
    · exact ⟨[], _, [], ['{'], by simp, .inr rfl, Inner.nil, hinner, .inl rfl⟩

theorem local_serviceStep (pk : QName) (s : Service) (path : Path) (ind : Int) (k : Key) : Local (fun w =>
      match k with
      | .opt t => optionsLong c si ⟨pk, pk ++ [s.name], false⟩ (optsAt s.opts t) (path ++ [3, t]) ind w
      | .method i =>
        match s.methods[i]? with
        | some m => printMethod c si pk (pk ++ [s.name]) m (path ++ [2, (i : Int)]) ind w
        | none => panic w
      | _ => w) := by
  cases k with
  | opt t => exact local_optionsLong ..
  | method i =>
    cases hm : s.methods[i]? with
    | none => simp only [hm]; exact local_panic
    | some m => simp only [hm]; exact local_printMethod pk _ m _ _
  | _ => exact Local.id

theorem shows_service (en : Env c si) {pk : QName} {s : Service} (h : s.Ok) {path : Path} {l : Loc}
    (hl : si.get path = some l) (ind : Int) : Shows (printService c si pk s path ind) (Keeps c l ["service".toList, s.name]) := by
  unfold printService
  exact shows_named en (kw "service ") (emits_kw "service" (by decide) (by simp)) h.name hl _ ind
    (local_runSteps _ _ (fun k _ => local_serviceStep pk s path (ind + 1) k) true)

theorem shows_inService (en : Env c si) {pk : QName} {s : Service} {path : Path} {k : Nat} {m : Method}
    (hk : s.methods[k]? = some m) {P : Str → Prop} {ind : Int}
    (h : Shows (printMethod c si pk (pk ++ [s.name]) m (path ++ [2, (k : Int)]) (ind + 1)) P) : Shows (printService c si pk s path ind) P := by
  unfold printService
  refine shows_inside _ _ _ _ ind (shows_runSteps (s := .method k) (fun k _ => local_serviceStep pk s path (ind + 1) k) ?_ ?_ _ true)
  · refine (en.sorted _ _).symm.subset (List.mem_append_right _ ?_)
    exact List.mem_map_of_mem (List.mem_range.2 (List.getElem?_eq_some_iff.1 hk).1)
  · simp only [hk]
    exact h

/-! ### Files -/

section Files
variable {f : File} {P : Str → Prop}

theorem local_runFSteps (f : File) {kids : List Kid} (hk : ∀ k ∈ kids, ∀ p i, Local (k.body p i)) (ss : List (Bool × Step)) :
    Local (runFSteps c si f kids ss) := by
  induction ss with
  | nil => exact Local.id
  | cons s ss ih =>
    obtain ⟨b, s⟩ := s
    exact (Local.comp (g := fun w => if b then newLine c.compactTop w else w) (Local.ite (local_newLine _) Local.id) (local_runFStep f hk s)).comp ih

theorem shows_runFSteps {kids : List Kid} (hk : ∀ k ∈ kids, ∀ p i, Local (k.body p i)) {ss : List (Bool × Step)} {s : Step}
    (hs : s ∈ ss.map Prod.snd) (h : Shows (runFStep c si f kids s) P) : Shows (runFSteps c si f kids ss) P := by
  induction ss with
  | nil => cases hs
  | cons t ss ih =>
    obtain ⟨b, t⟩ := t
    rcases List.mem_cons.1 hs with e | hs
    · cases e
      exact (Shows.before (fun w => if b then newLine c.compactTop w else w) h).after (local_runFSteps f hk ss)
    · exact Shows.before (fun w => runFStep c si f kids t (if b then newLine c.compactTop w else w)) (ih hs)

theorem shows_file (hx : f.exts = [] ∨ si [7] = []) {s : Step}
    (hs : s ∈ (fileSteps c (fileSI si) f false [] (c.sort [] (fileKeys f))).map Prod.snd)
    (h : Shows (runFStep c si f (Msg.kids c (fileSI si) f.package f.package f.msgs) s) P) : Shows (printFile c si f) P := by
  have := Shows.before (fun w => newLine c.compactTop (element c false ((fileSI si).get [12]) 0
    (put (kw "syntax = " ++ '"' :: f.syn.text ++ ['"', ';'])) w)) (shows_runFSteps (local_kids _ _ _) hs h)
  constructor
  intro w
  obtain ⟨a, m, r, e, p⟩ := this.ex w
  refine ⟨a, m, r, ?_, p⟩
  unfold printFile
  simp only [extsPanic_file hx, Bool.false_eq_true, if_false]
  exact e

theorem fstep_simple {ι : Type} {proj : Step → List ι} {sel : Key → Option ι} (hsim : FSimple f proj sel) {ks : List Key} {i : ι}
    (hi : i ∈ ks.filterMap sel) : ∃ s ∈ (fileSteps c si f false [] ks).map Prod.snd, i ∈ proj s := by
  rw [← fileSteps_simple (c := c) (si := si) hsim ks false []] at hi
  exact List.mem_flatMap.1 hi

theorem fstep_pkg {ks : List Key} (hp : ks.Perm (fileKeys f)) (hne : f.package ≠ []) :
    Step.pkg ∈ (fileSteps c si f false [] ks).map Prod.snd := by
  have hm : () ∈ ks.filterMap isPkg := by
    have := hp.filterMap isPkg
    rw [fileKeys_other f (fun _ => rfl)] at this
    refine this.symm.subset ?_
    simp [isPkg, hne]
  obtain ⟨s, hs, hm⟩ := fstep_simple (c := c) (si := si) fs_pkg hm
  cases s with
  | pkg => exact hs
  | _ => simp [pPkg] at hm

theorem fstep_dep {ks : List Key} (hp : ks.Perm (fileKeys f)) {i : Nat} (hi : i < f.imports.length) :
    Step.dep i ∈ (fileSteps c si f false [] ks).map Prod.snd := by
  have hm : i ∈ ks.filterMap isDep := by
    have := hp.filterMap isDep
    rw [fileKeys_other f (fun _ => rfl)] at this
    refine this.symm.subset ?_
    simp [isDep, hi]
  obtain ⟨s, hs, hm⟩ := fstep_simple (c := c) (si := si) fs_dep hm
  cases s with
  | dep j => simp [pDep] at hm; subst hm; exact hs
  | _ => simp [pDep] at hm

theorem fstep_msg {ks : List Key} (hp : ks.Perm (fileKeys f)) {i : Nat} (hi : i < f.msgs.length) (hh : i ∉ hidden [] f.exts) :
    Step.msg i ∈ (fileSteps c si f false [] ks).map Prod.snd := by
  have hm : i ∈ ks.filterMap (selMsg (hidden [] f.exts)) := by
    have := hp.filterMap (selMsg (hidden [] f.exts))
    rw [fileKeys_other f (fun _ => rfl)] at this
    refine this.symm.subset ?_
    simp [selMsg, hi, hh]
  obtain ⟨s, hs, hm⟩ := fstep_simple (c := c) (si := si) fs_msg hm
  cases s with
  | msg j => simp [pMsg] at hm; subst hm; exact hs
  | _ => simp [pMsg] at hm

theorem fstep_enum {ks : List Key} (hp : ks.Perm (fileKeys f)) {i : Nat} (hi : i < f.enums.length) :
    Step.enum i ∈ (fileSteps c si f false [] ks).map Prod.snd := by
  have hm : i ∈ ks.filterMap isEnumK := by
    have := hp.filterMap isEnumK
    rw [fileKeys_other f (fun _ => rfl)] at this
    refine this.symm.subset ?_
    simp [isEnumK, hi]
  obtain ⟨s, hs, hm⟩ := fstep_simple (c := c) (si := si) fs_enum hm
  cases s with
  | enum j => simp [pEnum] at hm; subst hm; exact hs
  | _ => simp [pEnum] at hm

theorem fstep_svc {ks : List Key} (hp : ks.Perm (fileKeys f)) {i : Nat} (hi : i < f.services.length) :
    Step.svc i ∈ (fileSteps c si f false [] ks).map Prod.snd := by
  have hm : i ∈ ks.filterMap isSvc := by
    have := hp.filterMap isSvc
    rw [fileKeys_other f (fun _ => rfl)] at this
    refine this.symm.subset ?_
    simp [isSvc, hi]
  obtain ⟨s, hs, hm⟩ := fstep_simple (c := c) (si := si) fs_svc hm
  cases s with
  | svc j => simp [pSvc] at hm; subst hm; exact hs
  | _ => simp [pSvc] at hm

theorem fstep_exts {ks : List Key} (hp : ks.Perm (fileKeys f)) {i : Nat} (hi : i < f.exts.length) :
    ∃ is, Step.exts is ∈ (fileSteps c si f false [] ks).map Prod.snd ∧ i ∈ is ∧ ∀ j ∈ is, j < f.exts.length := by
  have hpe : (ks.filterMap isExt).Perm (List.range f.exts.length) := by
    have := hp.filterMap isExt
    rw [fileKeys_other f (fun _ => rfl), pkg_other f rfl] at this
    simpa [isExt] using this
  obtain ⟨h1, h2⟩ := ext_groups (si := si) (p := [7]) hpe
  rw [← fileSteps_exts (c := c) (si := si) ks false []] at h1 h2
  obtain ⟨is, his, hin⟩ := List.mem_flatten.1 (h1.symm.subset (hpe.symm.subset (List.mem_range.2 hi)))
  obtain ⟨_, _, h3⟩ := h2 is his
  obtain ⟨s, hs, hm⟩ := List.mem_flatMap.1 his
  cases s with
  | exts k => simp [extsOf] at hm; subst hm; exact ⟨_, hs, hin, fun j hj => (h3 j hj).1⟩
  | _ => simp [extsOf] at hm

theorem shows_file_ext (en : Env c si) (hx : f.exts = [] ∨ si [7] = []) {i : Nat} {x : Ext} (hi : f.exts[i]? = some x)
    (h : ∀ ind, Shows (printField c (fileSI si) f.package f.package (Msg.kids c (fileSI si) f.package f.package f.msgs) 4 true x.field [7, (i : Int)] ind) P) :
    Shows (printFile c si f) P := by
  obtain ⟨is, hs, hin, hall⟩ := fstep_exts (c := c) (si := fileSI si) (en.sorted [] (fileKeys f)) (List.getElem?_eq_some_iff.1 hi).1
  refine shows_file hx hs ?_
  exact shows_exts (local_kids _ _ _) hin hi hall h 0

theorem fileSI_get {p : Path} {l : Loc} (h : si.get p = some l) : (fileSI si).get p = some l := by
  unfold SI.get fileSI
  split
  · rename_i he
    unfold SI.get at h
    rw [he.2] at h
    cases h
  · exact h

theorem shows_fileEl (en : Env c si) (hf : f.Ok) (hx : f.exts = [] ∨ si [7] = []) {q : Path} {ts : List Str} (hq : FileEl f q ts) {l : Loc}
    (hl : si.get q = some l) : Shows (printFile c si f) (Keeps c l ts) := by
  have en' := env_file en
  have hl' := fileSI_get hl
  have hs : ScOk f.package f.package := ⟨hf.package, hf.package, List.prefix_refl _⟩
  have hperm := en.sorted [] (fileKeys f)
  cases hq with
  | msg j m hj hd =>
    refine shows_file hx (fstep_msg hperm (List.getElem?_eq_some_iff.1 hj).1 (fun hc => by rw [hidden_iff, hd] at hc; cases hc)) ?_
    show Shows (fun w => runFStep c si f _ (.msg j) w) _
    simp only [runFStep, kids_get, hj, Option.map_some]
    exact shows_message en' (allOk_get hf.msgs hj) hl' 0
  | nested q ts j m hj hel =>
    have hk : (Msg.kids c (fileSI si) f.package f.package f.msgs)[j]? = some (m.kid c (fileSI si) f.package f.package) := by rw [kids_get, hj]; rfl
    have hb := shows_msgEl en' hel hl' hs (allOk_get hf.msgs hj) (by simp)
    cases hd : declared [] f.exts j with
    | false =>
      refine shows_file hx (fstep_msg hperm (List.getElem?_eq_some_iff.1 hj).1 (fun hc => by rw [hidden_iff, hd] at hc; cases hc)) ?_
      show Shows (fun w => runFStep c si f _ (.msg j) w) _
      simp only [runFStep, hk]
      exact shows_inMessage (hb (0 + 1))
    | true =>
      rcases declared_cases hd (by simp) with ⟨g, hg, _⟩ | ⟨x, hxm, ht⟩
      · cases hg
      · obtain ⟨i, hi, rfl⟩ := List.mem_iff_getElem.1 hxm
        exact shows_file_ext en hx (List.getElem?_eq_getElem hi) (fun ind => shows_inGroup ht hk (hb (ind + 1)))
  | enum q ts i e he hel =>
    refine shows_file hx (fstep_enum hperm (List.getElem?_eq_some_iff.1 he).1) ?_
    show Shows (fun w => runFStep c si f _ (.enum i) w) _
    simp only [runFStep, he]
    exact shows_enum en' hs (hf.enums e (List.mem_of_getElem? he)) hel hl' 0
  | service i s hsv =>
    refine shows_file hx (fstep_svc hperm (List.getElem?_eq_some_iff.1 hsv).1) ?_
    show Shows (fun w => runFStep c si f _ (.svc i) w) _
    simp only [runFStep, hsv]
    exact shows_service en' (hf.services s (List.mem_of_getElem? hsv)) hl' 0
  | method i s k m hsv hk =>
    refine shows_file hx (fstep_svc hperm (List.getElem?_eq_some_iff.1 hsv).1) ?_
    show Shows (fun w => runFStep c si f _ (.svc i) w) _
    simp only [runFStep, hsv]
    refine shows_inService en' hk ?_
    exact shows_method en' hf.package ((hf.services s (List.mem_of_getElem? hsv)).methods m (List.mem_of_getElem? hk)) hl' _
  | ext q ts i x hi hel =>
    exact shows_file_ext en hx hi fun ind =>
      shows_field en' hs hf.msgs 4 true (hf.exts x (List.mem_of_getElem? hi)).field hel hl' ind

/-- The syntax, the package, and the imports. -/
theorem shows_header (en : Env c si) (hf : f.Ok) (hx : f.exts = [] ∨ si [7] = []) (ho : c.omitTokens = false) (h2 : si [2, 0] = [])
    {q : Path} {M : List Str → Prop} (hq : HeaderEl f q M) {l : Loc} (hl : si.get q = some l) :
    ∃ ts, M ts ∧ Shows (printFile c si f) (Keeps c l ts) := by
  have hl' := fileSI_get hl
  have hperm := en.sorted [] (fileKeys f)
  cases hq with
  | syn =>
    obtain ⟨t, ht, hte⟩ := emits_syntax hf.syn
    refine ⟨_, ⟨t, ht, rfl⟩, ?_⟩
    have hsh := shows_element (ind := 0) (isDesc := false) en.indent (en.loc _ l hl) (local_put _) hte (main := ["syntax".toList, ['='], t])
      ⟨[], [], [], [';'], by simp [Decl.toks, semi, eq], .inl rfl, Inner.nil, Inner.nil, .inl rfl⟩ (.inr ho)
    have := (hsh.after (local_newLine c.compactTop)).after (local_runFSteps f (local_kids (c := c) (si := fileSI si) f.package f.msgs f.package)
      (fileSteps c (fileSI si) f false [] (c.sort [] (fileKeys f))) (c := c) (si := si))
    constructor
    intro w
    obtain ⟨a, m, r, e, p⟩ := this.ex w
    refine ⟨a, m, r, ?_, p⟩
    unfold printFile
    simp only [extsPanic_file hx, Bool.false_eq_true, if_false, hl']
    exact e
  | package hne =>
    refine ⟨_, rfl, shows_file hx (fstep_pkg hperm hne) ?_⟩
    have hg : (fileSI si).get [2, 0] = some l := by
      unfold SI.get fileSI
      simp [h2, hl]
    show Shows (fun w => runFStep c si f _ .pkg w) _
    simp only [runFStep, hg]
    exact shows_element en.indent (en.loc _ l hl) (local_put _) (emits_package ⟨hne, hf.package⟩)
      ⟨[], [], [], [';'], by simp [Decl.toks, semi], .inl rfl, Inner.nil, Inner.nil, .inl rfl⟩ 0 (.inr ho)
  | imp i im hi =>
    have hm := List.mem_of_getElem? hi
    obtain ⟨t, h1, h2⟩ := emits_import hf.distinct hm (hf.imports im hm)
    refine ⟨_, ⟨im.mod, t, ⟨rfl, h1⟩, rfl⟩, shows_file hx (fstep_dep hperm (List.getElem?_eq_some_iff.1 hi).1) ?_⟩
    show Shows (fun w => runFStep c si f _ (.dep i) w) _
    simp only [runFStep, hi, hl']
    exact shows_element en.indent (en.loc _ l hl) (local_put _) h2
      ⟨[], [], [], [';'], by simp [Decl.toks, semi], .inl rfl, Inner.nil, Inner.nil, .inl rfl⟩ 0 (.inr ho)

/-- The printed text contains what is shown. -/
theorem print_commented (en : Env c si) (hf : f.Ok) (hx : f.exts = [] ∨ si [7] = []) {l : Loc} {ts : List Str}
    (h : Shows (printFile c si f) (Keeps c l ts)) : ∃ out, print c si f = some out ∧ Commented c l ts out := by
  obtain ⟨out, _, h1, _, _⟩ := print_ok en hf hx
  refine ⟨out, h1, ?_⟩
  obtain ⟨a, m, r, e, s, b, s', rfl, h2, h3, h4, h5, h6⟩ := h.ex {}
  unfold print at h1
  simp only at h1
  split at h1
  · cases h1
  · cases h1
    exact ⟨a, s, b, s', r, by rw [e]; simp, h2, h3, h4, h5, h6⟩

end Files

end Verif.Printer
