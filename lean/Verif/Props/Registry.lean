import Verif.Spec.Registry
import Mathlib.Tactic.Tauto

/-!
# C111: the printer knows the types that a file may use
-/
namespace Verif.Registry

/-! ## The calls in order -/

/-- A call. -/
def Reg.add (r : Reg) : Ty → Reg
  | .extension e => r.registerExtension e
  | t => r.register t

def ownCalls (exts : List Ext) (enums messages : List String) (only : Bool) : List Ty :=
  exts.map .extension ++ if only then [] else messages.map .message ++ enums.map .enum

theorem registerOwn_calls (r : Reg) (exts : List Ext) (enums messages : List String) (only : Bool) :
    registerOwn r exts enums messages only = (ownCalls exts enums messages only).foldl Reg.add r := by
  unfold registerOwn ownCalls
  cases only with
  | true =>
    simp only [if_true, List.append_nil, List.foldl_map]
    rfl
  | false =>
    simp only [Bool.false_eq_true, if_false, List.foldl_append, List.foldl_map]
    rfl

mutual

def msgCalls (only : Bool) : Msg → List Ty
  | .mk _ exts enums msgs => ownCalls exts enums (msgs.map Msg.name) only ++ msgsCalls only msgs

def msgsCalls (only : Bool) : List Msg → List Ty
  | [] => []
  | m :: ms => msgCalls only m ++ msgsCalls only ms

end

mutual

theorem registerMsg_calls (only : Bool) (r : Reg) : ∀ m, registerMsg only r m = (msgCalls only m).foldl Reg.add r
  | .mk _ exts enums msgs => by
    rw [registerMsg, msgCalls, List.foldl_append, ← registerOwn_calls, registerMsgs_calls only _ msgs]

theorem registerMsgs_calls (only : Bool) (r : Reg) : ∀ ms, registerMsgs only r ms = (msgsCalls only ms).foldl Reg.add r
  | [] => rfl
  | m :: ms => by
    rw [registerMsgs, msgsCalls, List.foldl_append, registerMsgs_calls only _ ms, registerMsg_calls only r m]

end

mutual

def fileCalls (only publicOnly : Bool) : File → List Ty
  | .mk exts enums msgs imports => ownCalls exts enums (msgs.map Msg.name) only ++ msgsCalls only msgs ++ importCalls only publicOnly imports

def importCalls (only publicOnly : Bool) : List (Bool × File) → List Ty
  | [] => []
  | (isPublic, f) :: fs => (if isPublic || !publicOnly then fileCalls only true f else []) ++ importCalls only publicOnly fs

end

mutual

theorem registerFile_calls (only publicOnly : Bool) (r : Reg) : ∀ f, registerFile only publicOnly r f = (fileCalls only publicOnly f).foldl Reg.add r
  | .mk exts enums msgs imports => by
    rw [registerFile, fileCalls, List.foldl_append, List.foldl_append, ← registerOwn_calls, ← registerMsgs_calls,
      registerImports_calls only publicOnly _ imports]

theorem registerImports_calls (only publicOnly : Bool) (r : Reg) :
    ∀ fs, registerImports only publicOnly r fs = (importCalls only publicOnly fs).foldl Reg.add r
  | [] => rfl
  | (isPublic, f) :: fs => by
    rw [registerImports, importCalls, List.foldl_append, registerImports_calls only publicOnly _ fs]
    cases isPublic || !publicOnly
    · simp
    · simp only [if_true]
      rw [registerFile_calls only true r f]

end

/-! ## What is registered -/

/-- The type is registered in this mode. -/
def Wanted (only : Bool) : Ty → Prop
  | .extension _ => True
  | _ => only = false

theorem mem_ownCalls {exts : List Ext} {enums messages : List String} {only : Bool} {t : Ty} : t ∈ ownCalls exts enums messages only ↔
    Wanted only t ∧ ((∃ e ∈ exts, t = .extension e) ∨ (∃ n ∈ messages, t = .message n) ∨ ∃ n ∈ enums, t = .enum n) := by
  unfold ownCalls
  cases only <;> cases t <;> simp [Wanted]

theorem Inside.trans {top : List Msg} {n : String} {exts : List Ext} {enums : List String} {msgs : List Msg} {m : Msg}
    (h : Inside top (.mk n exts enums msgs)) (hm : Inside msgs m) : Inside top m := by
  induction hm with
  | here hm => exact .deeper h hm
  | deeper _ hm ih => exact .deeper ih hm

theorem Inside.cases_cons {m : Msg} {ms : List Msg} {x : Msg} (h : Inside (m :: ms) x) : x = m ∨
    (∃ n exts enums msgs, m = .mk n exts enums msgs ∧ Inside msgs x) ∨ Inside ms x := by
  induction h with
  | here h =>
    rcases List.mem_cons.1 h with h | h
    · exact .inl h
    · exact .inr (.inr (.here h))
  | @deeper n exts enums msgs y h hm ih =>
    rcases ih with ih | ⟨n', exts', enums', msgs', e, ih⟩ | ih
    · exact .inr (.inl ⟨n, exts, enums, msgs, ih.symm, .here hm⟩)
    · exact .inr (.inl ⟨n', exts', enums', msgs', e, .deeper ih hm⟩)
    · exact .inr (.inr (.deeper ih hm))

theorem Inside.mono {top top' : List Msg} {x : Msg} (hs : ∀ m ∈ top, m ∈ top') (h : Inside top x) : Inside top' x := by
  induction h with
  | here h => exact .here (hs _ h)
  | deeper _ hm ih => exact .deeper ih hm

/-- What is declared below the given messages: not they themselves. -/
def Below (ms : List Msg) (t : Ty) : Prop :=
  ∃ n exts enums msgs, Inside ms (.mk n exts enums msgs) ∧
    ((∃ e ∈ exts, t = .extension e) ∨ (∃ m ∈ msgs, t = .message m.name) ∨ ∃ n ∈ enums, t = .enum n)

mutual

theorem mem_msgCalls (only : Bool) (t : Ty) : ∀ m, t ∈ msgCalls only m ↔ Wanted only t ∧ Below [m] t
  | .mk n exts enums msgs => by
    rw [msgCalls, List.mem_append, mem_ownCalls, mem_msgsCalls only t msgs]
    constructor
    · rintro (⟨hw, h⟩ | ⟨hw, n', exts', enums', msgs', hi, h⟩)
      · refine ⟨hw, n, exts, enums, msgs, .here List.mem_cons_self, ?_⟩
        simpa using h
      · exact ⟨hw, n', exts', enums', msgs', (Inside.here List.mem_cons_self).trans hi, h⟩
    · rintro ⟨hw, n', exts', enums', msgs', hi, h⟩
      rcases hi.cases_cons with e | ⟨_, _, _, _, e, hi⟩ | hi
      · cases e
        refine .inl ⟨hw, ?_⟩
        simpa using h
      · cases e
        exact .inr ⟨hw, n', exts', enums', msgs', hi, h⟩
      · exfalso
        generalize hx : Msg.mk n' exts' enums' msgs' = x at hi
        clear hx
        induction hi with
        | here h => cases h
        | deeper _ _ ih => exact ih

theorem mem_msgsCalls (only : Bool) (t : Ty) : ∀ ms, t ∈ msgsCalls only ms ↔ Wanted only t ∧ Below ms t
  | [] => by
    rw [msgsCalls]
    constructor
    · intro h; cases h
    · rintro ⟨-, n, exts, enums, msgs, hi, -⟩
      exfalso
      generalize hx : Msg.mk n exts enums msgs = x at hi
      clear hx
      induction hi with
      | here h => cases h
      | deeper _ _ ih => exact ih
  | m :: ms => by
    rw [msgsCalls, List.mem_append, mem_msgCalls only t m, mem_msgsCalls only t ms]
    constructor
    · rintro (⟨hw, n, exts, enums, msgs, hi, h⟩ | ⟨hw, n, exts, enums, msgs, hi, h⟩)
      · exact ⟨hw, n, exts, enums, msgs, hi.mono (by simp), h⟩
      · exact ⟨hw, n, exts, enums, msgs, hi.mono (fun x hx => List.mem_cons_of_mem _ hx), h⟩
    · rintro ⟨hw, n, exts, enums, msgs, hi, h⟩
      rcases hi.cases_cons with e | ⟨_, _, _, _, e, hi'⟩ | hi
      · exact .inl ⟨hw, n, exts, enums, msgs, .here (by simp [e]), h⟩
      · subst e
        exact .inl ⟨hw, n, exts, enums, msgs, (Inside.here List.mem_cons_self).trans hi', h⟩
      · exact .inr ⟨hw, n, exts, enums, msgs, hi, h⟩

end

theorem declares_iff {exts : List Ext} {enums : List String} {msgs : List Msg} {imports : List (Bool × File)} {t : Ty} :
    Declares (.mk exts enums msgs imports) t ↔
      ((∃ e ∈ exts, t = .extension e) ∨ (∃ n ∈ msgs.map Msg.name, t = .message n) ∨ ∃ n ∈ enums, t = .enum n) ∨ Below msgs t := by
  constructor
  · intro h
    cases h with
    | extension h => exact .inl (.inl ⟨_, h, rfl⟩)
    | enum h => exact .inl (.inr (.inr ⟨_, h, rfl⟩))
    | message h =>
      cases h with
      | here h => exact .inl (.inr (.inl ⟨_, List.mem_map.2 ⟨_, h, rfl⟩, rfl⟩))
      | deeper h hm => exact .inr ⟨_, _, _, _, h, .inr (.inl ⟨_, hm, rfl⟩)⟩
    | nestedExtension h he => exact .inr ⟨_, _, _, _, h, .inl ⟨_, he, rfl⟩⟩
    | nestedEnum h he => exact .inr ⟨_, _, _, _, h, .inr (.inr ⟨_, he, rfl⟩)⟩
  · rintro ((⟨e, h, rfl⟩ | ⟨n, h, rfl⟩ | ⟨n, h, rfl⟩) | ⟨n, xs, es, ms, hi, ⟨e, h, rfl⟩ | ⟨m, h, rfl⟩ | ⟨n', h, rfl⟩⟩)
    · exact .extension h
    · obtain ⟨m, hm, rfl⟩ := List.mem_map.1 h
      exact .message (.here hm)
    · exact .enum h
    · exact .nestedExtension hi h
    · exact .message (.deeper hi h)
    · exact .nestedEnum hi h

mutual

theorem mem_fileCalls (only publicOnly : Bool) (t : Ty) : ∀ f, t ∈ fileCalls only publicOnly f ↔
    Wanted only t ∧ ∃ g, (if publicOnly then Reexports f g else Sees f g) ∧ Declares g t
  | .mk exts enums msgs imports => by
    rw [fileCalls, List.mem_append, List.mem_append, mem_ownCalls, mem_msgsCalls, mem_importCalls only publicOnly t imports]
    constructor
    · rintro ((⟨hw, h⟩ | ⟨hw, h⟩) | ⟨hw, b, f, hf, hb, g, hg, h⟩)
      · exact ⟨hw, _, by cases publicOnly <;> simp <;> constructor, declares_iff.2 (.inl h)⟩
      · exact ⟨hw, _, by cases publicOnly <;> simp <;> constructor, declares_iff.2 (.inr h)⟩
      · refine ⟨hw, g, ?_, h⟩
        cases publicOnly with
        | true =>
          rcases hb with hb | hb
          · subst hb
            simp only [if_true]
            exact .step (g := f) hf hg
          · cases hb
        | false =>
          simp only [Bool.false_eq_true, if_false]
          exact .import (g := f) b hf hg
    · rintro ⟨hw, g, hg, h⟩
      cases publicOnly with
      | true =>
        simp only [if_true] at hg
        cases hg with
        | self =>
          rcases declares_iff.1 h with h | h
          · exact .inl (.inl ⟨hw, h⟩)
          · exact .inl (.inr ⟨hw, h⟩)
        | step hi hr => exact .inr ⟨hw, true, _, hi, .inl rfl, g, hr, h⟩
      | false =>
        simp only [Bool.false_eq_true, if_false] at hg
        cases hg with
        | self =>
          rcases declares_iff.1 h with h | h
          · exact .inl (.inl ⟨hw, h⟩)
          · exact .inl (.inr ⟨hw, h⟩)
        | «import» b hi hr => exact .inr ⟨hw, b, _, hi, .inr rfl, g, hr, h⟩

theorem mem_importCalls (only publicOnly : Bool) (t : Ty) : ∀ fs, t ∈ importCalls only publicOnly fs ↔
    Wanted only t ∧ ∃ b f, (b, f) ∈ fs ∧ (b = true ∨ publicOnly = false) ∧ ∃ g, Reexports f g ∧ Declares g t
  | [] => by simp [importCalls]
  | (isPublic, f) :: fs => by
    rw [importCalls, List.mem_append, mem_importCalls only publicOnly t fs]
    constructor
    · rintro (h | ⟨hw, b, f', hf, hb, h⟩)
      · split at h
        · rename_i hc
          obtain ⟨hw, g, hg, h⟩ := (mem_fileCalls only true t f).1 h
          refine ⟨hw, isPublic, f, List.mem_cons_self, ?_, g, hg, h⟩
          cases isPublic <;> cases publicOnly <;> simp_all
        · cases h
      · exact ⟨hw, b, f', List.mem_cons_of_mem _ hf, hb, h⟩
    · rintro ⟨hw, b, f', hf, hb, g, hg, h⟩
      rcases List.mem_cons.1 hf with e | hf
      · cases e
        left
        rw [if_pos (by rcases hb with hb | hb <;> simp [hb])]
        exact (mem_fileCalls only true t f).2 ⟨hw, g, hg, h⟩
      · exact .inr ⟨hw, b, f', hf, hb, g, hg, h⟩

end

/-! ## The registry -/

/-- The registry has exactly these types. -/
structure Has (r : Reg) (done : Ty → Prop) : Prop where
  name : ∀ n t, r.byName n = some t ↔ done t ∧ t.name = n
  number : ∀ m n t, r.byNumber m n = some t ↔ ∃ e, t = .extension e ∧ done t ∧ e.extendee = m ∧ e.number = n

theorem Has.add {r : Reg} {done : Ty → Prop} (h : Has r done) (t : Ty)
    (hn : ∀ t', done t' → t'.name = t.name → t' = t)
    (he : ∀ e e', t = .extension e → done (.extension e') → e'.extendee = e.extendee → e'.number = e.number → e' = e) :
    Has (r.add t) fun x => done x ∨ x = t := by
  by_cases hd : done t
  · have hsame : r.add t = r := by
      have h1 : r.byName t.name = some t := (h.name _ _).2 ⟨hd, rfl⟩
      cases t with
      | extension e =>
        have h2 : r.byNumber e.extendee e.number = some (.extension e) := (h.number _ _ _).2 ⟨e, rfl, hd, rfl, rfl⟩
        simp only [Reg.add, Reg.registerExtension, h2]
      | message n => simp only [Reg.add, Reg.register, h1]
      | enum n => simp only [Reg.add, Reg.register, h1]
    rw [hsame]
    have hor : ∀ x, (done x ∨ x = t) ↔ done x := fun x => ⟨fun hx => hx.elim id (fun e => e ▸ hd), .inl⟩
    exact ⟨fun n x => by rw [hor]; exact h.name n x, fun m n x => by simp only [hor]; exact h.number m n x⟩
  · have h1 : r.byName t.name = none := by
      cases hb : r.byName t.name with
      | none => rfl
      | some t' =>
        obtain ⟨h2, h3⟩ := (h.name _ _).1 hb
        exact absurd (hn t' h2 h3 ▸ h2) hd
    have hname : ∀ n x, (if n = t.name then some t else r.byName n) = some x ↔ (done x ∨ x = t) ∧ x.name = n := by
      intro n x
      by_cases hnn : n = t.name
      · subst hnn
        rw [if_pos rfl]
        constructor
        · intro hx; cases hx; exact ⟨.inr rfl, rfl⟩
        · rintro ⟨hx | hx, hxn⟩
          · exact absurd (hn x hx hxn ▸ hx) hd
          · rw [hx]
      · rw [if_neg hnn, h.name]
        constructor
        · exact fun hx => ⟨.inl hx.1, hx.2⟩
        · rintro ⟨hx | hx, hxn⟩
          · exact ⟨hx, hxn⟩
          · subst hx; exact absurd hxn.symm hnn
    cases t with
    | extension e =>
      have h2 : r.byNumber e.extendee e.number = none := by
        cases hb : r.byNumber e.extendee e.number with
        | none => rfl
        | some t' =>
          obtain ⟨e', rfl, h3, h4, h5⟩ := (h.number _ _ _).1 hb
          exact absurd (he e e' rfl h3 h4 h5 ▸ h3) hd
      replace h1 : r.byName e.name = none := h1
      have hadd : r.add (.extension e) = ⟨fun n => if n = e.name then some (.extension e) else r.byName n,
          fun m n => if m = e.extendee ∧ n = e.number then some (.extension e) else r.byNumber m n⟩ := by
        simp only [Reg.add, Reg.registerExtension, h2, h1, Reg.register, Ty.name]
        rfl
      rw [hadd]
      refine ⟨hname, fun m n x => ?_⟩
      simp only
      by_cases hk : m = e.extendee ∧ n = e.number
      · rw [if_pos hk]
        obtain ⟨rfl, rfl⟩ := hk
        constructor
        · intro hx; cases hx; exact ⟨e, rfl, .inr rfl, rfl, rfl⟩
        · rintro ⟨e', rfl, hx | hx, h3, h4⟩
          · exact absurd (he e e' rfl hx h3 h4 ▸ hx) hd
          · rw [hx]
      · rw [if_neg hk, h.number]
        constructor
        · rintro ⟨e', rfl, hx, h3⟩
          exact ⟨e', rfl, .inl hx, h3⟩
        · rintro ⟨e', rfl, hx | hx, h3, h4⟩
          · exact ⟨e', rfl, hx, h3, h4⟩
          · cases hx; exact absurd ⟨h3.symm, h4.symm⟩ hk
    | message k =>
      have hadd : r.add (.message k) = { r with byName := fun n => if n = k then some (.message k) else r.byName n } := by
        replace h1 : r.byName k = none := h1
        simp only [Reg.add, Reg.register, Ty.name, h1]
        rfl
      rw [hadd]
      refine ⟨hname, fun m n x => ?_⟩
      simp only
      rw [h.number]
      constructor
      · rintro ⟨e', rfl, hx, h3⟩
        exact ⟨e', rfl, .inl hx, h3⟩
      · rintro ⟨e', rfl, hx | hx, h3⟩
        · exact ⟨e', rfl, hx, h3⟩
        · cases hx
    | enum k =>
      have hadd : r.add (.enum k) = { r with byName := fun n => if n = k then some (.enum k) else r.byName n } := by
        replace h1 : r.byName k = none := h1
        simp only [Reg.add, Reg.register, Ty.name, h1]
        rfl
      rw [hadd]
      refine ⟨hname, fun m n x => ?_⟩
      simp only
      rw [h.number]
      constructor
      · rintro ⟨e', rfl, hx, h3⟩
        exact ⟨e', rfl, .inl hx, h3⟩
      · rintro ⟨e', rfl, hx | hx, h3⟩
        · exact ⟨e', rfl, hx, h3⟩
        · cases hx

theorem has_foldl : ∀ (ts : List Ty) (r : Reg) (done : Ty → Prop), Has r done →
    (∀ t t', (done t ∨ t ∈ ts) → (done t' ∨ t' ∈ ts) → t.name = t'.name → t = t') →
    (∀ e e', (done (.extension e) ∨ .extension e ∈ ts) → (done (.extension e') ∨ .extension e' ∈ ts) → e.extendee = e'.extendee →
      e.number = e'.number → e = e') →
    Has (ts.foldl Reg.add r) fun t => done t ∨ t ∈ ts := by
  intro ts
  induction ts with
  | nil =>
    intro r done h _ _
    have : (fun t => done t ∨ t ∈ ([] : List Ty)) = done := by funext t; simp
    rw [this]
    exact h
  | cons t ts ih =>
    intro r done h hn he
    have h1 := h.add t (fun t' hd hnn => hn t' t (.inl hd) (.inr List.mem_cons_self) hnn)
      (fun e e' ht hd h3 h4 => he e' e (.inl hd) (.inr (ht ▸ List.mem_cons_self)) h3 h4)
    have hor : ∀ x, ((done x ∨ x = t) ∨ x ∈ ts) ↔ (done x ∨ x ∈ t :: ts) := by
      intro x; rw [List.mem_cons, or_assoc]
    have h2 := ih (r.add t) (fun x => done x ∨ x = t) h1 (fun x x' hx hx' => hn x x' ((hor x).1 hx) ((hor x').1 hx'))
      (fun e e' hx hx' => he e e' ((hor _).1 hx) ((hor _).1 hx'))
    have : (fun x => done x ∨ x ∈ t :: ts) = fun x => (done x ∨ x = t) ∨ x ∈ ts := by
      funext x; exact propext (hor x).symm
    rw [this]
    exact h2

theorem has_file (f : File) (hl : Linked f) (only : Bool) : Has (registerFile only false .empty f) fun t => Wanted only t ∧ Usable f t := by
  rw [registerFile_calls]
  have hm : ∀ t, t ∈ fileCalls only false f ↔ Wanted only t ∧ Usable f t := fun t => by
    rw [mem_fileCalls]
    rfl
  have h := has_foldl (fileCalls only false f) .empty (fun _ => False)
    ⟨fun n t => by simp [Reg.empty], fun m n t => by simp [Reg.empty]⟩
    (fun t t' h1 h2 => hl.names t t' ((hm t).1 (h1.resolve_left id)).2 ((hm t').1 (h2.resolve_left id)).2)
    (fun e e' h1 h2 => hl.numbers e e' ((hm _).1 (h1.resolve_left id)).2 ((hm _).1 (h2.resolve_left id)).2)
  have : (fun t => Wanted only t ∧ Usable f t) = fun t => False ∨ t ∈ fileCalls only false f := by
    funext t
    rw [false_or]
    exact propext (hm t).symm
  rw [this]
  exact h

/-- **C111**: the printer finds under a name exactly the type that the file may use under this name, at whatever depth it is declared and by
whatever chain of imports it comes. -/
theorem C111_by_name (f : File) (hl : Linked f) (n : String) (t : Ty) :
    (registerTypesForFile f).byName n = some t ↔ Usable f t ∧ t.name = n := by
  rw [show registerTypesForFile f = registerFile false false .empty f from rfl, (has_file f hl false).name]
  cases t <;> simp [Wanted]

/-- **C111**: the printer finds for a number of a message exactly the extension that the file may use. So no option of the file whose extension
the compiler has found stays unknown, and none is taken for another. -/
theorem C111_by_number (f : File) (hl : Linked f) (m : String) (n : Nat) (t : Ty) :
    (registerTypesForFile f).byNumber m n = some t ↔ ∃ e, t = .extension e ∧ Usable f (.extension e) ∧ e.extendee = m ∧ e.number = n := by
  rw [show registerTypesForFile f = registerFile false false .empty f from rfl, (has_file f hl false).number]
  constructor
  · rintro ⟨e, rfl, h1, h2⟩
    exact ⟨e, rfl, h1.2, h2⟩
  · rintro ⟨e, rfl, h1, h2⟩
    exact ⟨e, rfl, ⟨trivial, h1⟩, h2⟩

/-- **C111**: `RegisterExtensionsForFile` does the same for extensions and leaves all other types out. -/
theorem C111_extensions_only (f : File) (hl : Linked f) :
    (∀ m n t, (registerExtensionsForFile f).byNumber m n = some t ↔
      ∃ e, t = .extension e ∧ Usable f (.extension e) ∧ e.extendee = m ∧ e.number = n) ∧
    ∀ n t, (registerExtensionsForFile f).byName n = some t ↔ ∃ e, t = .extension e ∧ Usable f (.extension e) ∧ e.name = n := by
  have h := has_file f hl true
  constructor
  · intro m n t
    rw [show registerExtensionsForFile f = registerFile true false .empty f from rfl, h.number]
    constructor
    · rintro ⟨e, rfl, h1, h2⟩
      exact ⟨e, rfl, h1.2, h2⟩
    · rintro ⟨e, rfl, h1, h2⟩
      exact ⟨e, rfl, ⟨trivial, h1⟩, h2⟩
  · intro n t
    rw [show registerExtensionsForFile f = registerFile true false .empty f from rfl, h.name]
    constructor
    · rintro ⟨⟨h1, h2⟩, h3⟩
      cases t with
      | extension e => exact ⟨e, rfl, h2, h3⟩
      | message _ => cases h1
      | enum _ => cases h1
    · rintro ⟨e, rfl, h1, h2⟩
      exact ⟨⟨trivial, h1⟩, h2⟩

/-! ## Examples -/

namespace Demo

/-- Declares an extension in a message, and is imported publicly by `b`. -/
def c : File := .mk [] [] [.mk "c.M" [⟨"c.M.opt", "google.protobuf.FieldOptions", 1000⟩] ["c.M.E"] []] []

/-- Is imported by `b`, but not publicly. -/
def hidden : File := .mk [⟨"h.opt", "google.protobuf.FieldOptions", 1000⟩] [] [] []

def b : File := .mk [] [] [] [(true, c), (false, hidden)]

def a : File := .mk [] [] [.mk "a.M" [] [] []] [(false, b)]

theorem usable_c : Usable a (.extension ⟨"c.M.opt", "google.protobuf.FieldOptions", 1000⟩) :=
  ⟨c, .import (g := b) false (List.mem_singleton.2 rfl) (.step (g := c) List.mem_cons_self (.self c)),
    .nestedExtension (.here (List.mem_singleton.2 rfl)) (List.mem_singleton.2 rfl)⟩

theorem usable_iff (t : Ty) : Usable a t ↔ t ∈ [Ty.message "a.M", .message "c.M", .enum "c.M.E",
    .extension ⟨"c.M.opt", "google.protobuf.FieldOptions", 1000⟩] := by
  have h := mem_fileCalls false false t a
  have hw : Wanted false t := by cases t <;> simp [Wanted]
  simp only [hw, true_and, Bool.false_eq_true, if_false] at h
  rw [show Usable a t = ∃ g, Sees a g ∧ Declares g t from rfl, ← h]
  simp [a, b, c, hidden, fileCalls, importCalls, msgsCalls, msgCalls, ownCalls, Msg.name]
  tauto

theorem linked : Linked a := by
  constructor
  · intro t t' h h' hn
    rw [usable_iff] at h h'
    simp only [List.mem_cons, List.not_mem_nil, or_false] at h h'
    rcases h with rfl | rfl | rfl | rfl <;> rcases h' with rfl | rfl | rfl | rfl <;> first | rfl | (simp [Ty.name] at hn)
  · intro e e' h h' _ _
    rw [usable_iff] at h h'
    simp at h h'
    rw [h, h']

/-- The option is found, not that of the hidden file with the same number. -/
example : (registerTypesForFile a).byNumber "google.protobuf.FieldOptions" 1000 =
    some (.extension ⟨"c.M.opt", "google.protobuf.FieldOptions", 1000⟩) :=
  (C111_by_number a linked _ _ _).2 ⟨_, rfl, usable_c, rfl, rfl⟩

end Demo

end Verif.Registry
