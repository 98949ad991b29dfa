import Verif.Lemmas.PrinterBlocks
/-! What the steps of a message contain. -/
namespace Verif.Printer
open Verif.Lexer Verif.PrintWriter Verif.Decls Verif.Literal

variable {si : SI} {h : MHead} {path : Path}

theorem steps_drop (n : Nat) (so : List Nat) (se : List (Option (QName × Option Nat))) (ks : List Key) :
    steps si h path n so se ks = steps si h path 0 so se (ks.drop n) := by
  induction n generalizing ks with
  | zero => rfl
  | succ n ih =>
    cases ks with
    | nil => simp [steps]
    | cons k ks => rw [steps, ih]; rfl

/-- The keys of ranges that are printed together. -/
def sameR (h : MHead) (i : Nat) (k : Key) : Option Nat :=
  match isExtR k with | some j => if h.sameOpts i j then some j else none | none => none

theorem sameR_eq (i : Nat) : ∀ k j, sameR h i k = some j → k = .extR j := by
  intro k j hj
  unfold sameR at hj
  cases hk : isExtR k with
  | none => rw [hk] at hj; cases hj
  | some m =>
    rw [hk] at hj
    simp only at hj
    split at hj
    · cases hj; exact isExtR_eq k j hk
    · cases hj

theorem run_same (i : Nat) (ks : List Key) : ∀ j ∈ run (sameR h i) ks, h.sameOpts i j = true := by
  induction ks with
  | nil => intro j hj; cases hj
  | cons k ks ih =>
    intro j hj
    unfold run at hj
    cases hk : sameR h i k with
    | none => rw [hk] at hj; cases hj
    | some m =>
      rw [hk] at hj
      rcases List.mem_cons.1 hj with rfl | hj
      · unfold sameR at hk
        cases hm : isExtR k with
        | none => rw [hm] at hk; cases hk
        | some m' =>
          rw [hm] at hk
          simp only at hk
          split at hk
          · cases hk; assumption
          · cases hk
      · exact ih j hj

/-- The steps after a statement with several elements. -/
theorem steps_extR (so : List Nat) (se : List (Option (QName × Option Nat))) (i : Nat) (ks : List Key) :
    ∃ more rest, ks = more.map Key.extR ++ rest ∧ (∀ j ∈ more, h.sameOpts i j = true) ∧
      steps si h path 0 so se (.extR i :: ks) = .extRanges (i :: more) :: steps si h path 0 so se rest := by
  refine ⟨run (sameR h i) ks, ks.drop (run (sameR h i) ks).length, run_spec _ _ (sameR_eq i) ks, run_same i ks, ?_⟩
  rw [steps]
  rw [steps_drop]
  rfl

theorem steps_resR (so : List Nat) (se : List (Option (QName × Option Nat))) (i : Nat) (ks : List Key) :
    ∃ more rest, ks = more.map Key.resR ++ rest ∧
      steps si h path 0 so se (.resR i :: ks) = .ranges (i :: more) :: steps si h path 0 so se rest := by
  refine ⟨run isResR ks, ks.drop (run isResR ks).length, run_spec _ _ isResR_eq ks, ?_⟩
  rw [steps]
  rw [steps_drop]

theorem steps_resN (so : List Nat) (se : List (Option (QName × Option Nat))) (i : Nat) (ks : List Key) :
    ∃ more rest, ks = more.map Key.resN ++ rest ∧
      steps si h path 0 so se (.resN i :: ks) = .names (i :: more) :: steps si h path 0 so se rest := by
  refine ⟨run isResN ks, ks.drop (run isResN ks).length, run_spec _ _ isResN_eq ks, ?_⟩
  rw [steps]
  rw [steps_drop]

/-- Elements that are printed one by one, or several in a statement. -/
structure Simple {ι : Type*} (h : MHead) (proj : Step → List ι) (sel : Key → List ι) : Prop where
  opt : ∀ t, proj (.opt t) = sel (.opt t)
  field : ∀ i, realOneof h i = none → proj (.field i) = sel (.field i)
  inOneof : ∀ i j, realOneof h i = some j → sel (.field i) = []
  oneof : ∀ j is, proj (.oneof j is) = []
  exts : ∀ is, proj (.exts is) = []
  ext : ∀ i, sel (.ext i) = []
  msg : ∀ i, i ∉ hidden h.fields h.exts → proj (.msg i) = sel (.msg i)
  hid : ∀ i, i ∈ hidden h.fields h.exts → sel (.msg i) = []
  enum : ∀ i, proj (.enum i) = sel (.enum i)
  extR : ∀ is, proj (.extRanges is) = is.flatMap (fun i => sel (.extR i))
  resR : ∀ is, proj (.ranges is) = is.flatMap (fun i => sel (.resR i))
  resN : ∀ is, proj (.names is) = is.flatMap (fun i => sel (.resN i))
  pkg : sel .pkg = []
  dep : ∀ i, sel (.dep i) = []
  svc : ∀ i, sel (.svc i) = []
  value : ∀ i, sel (.value i) = []
  sib : ∀ i, sel (.sib i) = []
  method : ∀ i, sel (.method i) = []

theorem steps_simple {ι : Type*} {proj : Step → List ι} {sel : Key → List ι} (hs : Simple h proj sel) :
    ∀ (n : Nat) (so : List Nat) (se : List (Option (QName × Option Nat))) (ks : List Key), ks.length ≤ n →
      (steps si h path 0 so se ks).flatMap proj = ks.flatMap sel := by
  intro n
  induction n with
  | zero =>
    intro so se ks hn
    have : ks = [] := List.length_eq_zero_iff.1 (by omega)
    subst this
    rw [steps]; rfl
  | succ n ih =>
    intro so se ks hn
    match ks with
    | [] => rw [steps]; rfl
    | k :: ks =>
      have hn' : ks.length ≤ n := by simp at hn; omega
      cases k with
      | extR i =>
        obtain ⟨more, rest, e, _, e2⟩ := steps_extR (si := si) (h := h) (path := path) so se i ks
        have hr : rest.length ≤ n := by rw [e] at hn'; simp at hn'; omega
        rw [e2, e, List.flatMap_cons, ih so se rest hr, hs.extR, List.flatMap_cons, List.flatMap_cons, List.flatMap_append,
          List.flatMap_map, List.append_assoc]
      | resR i =>
        obtain ⟨more, rest, e, e2⟩ := steps_resR (si := si) (h := h) (path := path) so se i ks
        have hr : rest.length ≤ n := by rw [e] at hn'; simp at hn'; omega
        rw [e2, e, List.flatMap_cons, ih so se rest hr, hs.resR, List.flatMap_cons, List.flatMap_cons, List.flatMap_append,
          List.flatMap_map, List.append_assoc]
      | resN i =>
        obtain ⟨more, rest, e, e2⟩ := steps_resN (si := si) (h := h) (path := path) so se i ks
        have hr : rest.length ≤ n := by rw [e] at hn'; simp at hn'; omega
        rw [e2, e, List.flatMap_cons, ih so se rest hr, hs.resN, List.flatMap_cons, List.flatMap_cons, List.flatMap_append,
          List.flatMap_map, List.append_assoc]
      | opt t => rw [steps]; rw [List.flatMap_cons, List.flatMap_cons, ih _ _ _ hn', hs.opt]
      | enum i => rw [steps]; rw [List.flatMap_cons, List.flatMap_cons, ih _ _ _ hn', hs.enum]
      | field i =>
        rw [steps]
        cases hr : realOneof h i with
        | none => simp only; rw [List.flatMap_cons, List.flatMap_cons, ih _ _ _ hn', hs.field i hr]
        | some j =>
          simp only
          rw [List.flatMap_cons, hs.inOneof i j hr]
          split
          · rw [ih _ _ _ hn']; rfl
          · rw [List.flatMap_cons, ih _ _ _ hn', hs.oneof]
      | ext i =>
        rw [steps]
        rw [List.flatMap_cons, hs.ext]
        split
        · rw [ih _ _ _ hn']; rfl
        · rw [List.flatMap_cons, ih _ _ _ hn', hs.exts]
      | msg i =>
        rw [steps]
        split
        · rename_i hh
          rw [ih _ _ _ hn', List.flatMap_cons, hs.hid i hh]; rfl
        · rename_i hh
          rw [List.flatMap_cons, List.flatMap_cons, ih _ _ _ hn', hs.msg i hh]
      | pkg => rw [show steps si h path 0 so se (.pkg :: ks) = steps si h path 0 so se ks from rfl, List.flatMap_cons, ih _ _ _ hn', hs.pkg]; rfl
      | dep i => rw [show steps si h path 0 so se ((.dep i) :: ks) = steps si h path 0 so se ks from rfl, List.flatMap_cons, ih _ _ _ hn', hs.dep]; rfl
      | svc i => rw [show steps si h path 0 so se ((.svc i) :: ks) = steps si h path 0 so se ks from rfl, List.flatMap_cons, ih _ _ _ hn', hs.svc]; rfl
      | value i => rw [show steps si h path 0 so se ((.value i) :: ks) = steps si h path 0 so se ks from rfl, List.flatMap_cons, ih _ _ _ hn', hs.value]; rfl
      | sib i => rw [show steps si h path 0 so se ((.sib i) :: ks) = steps si h path 0 so se ks from rfl, List.flatMap_cons, ih _ _ _ hn', hs.sib]; rfl
      | method i => rw [show steps si h path 0 so se ((.method i) :: ks) = steps si h path 0 so se ks from rfl, List.flatMap_cons, ih _ _ _ hn', hs.method]; rfl

/-- A step of several elements has at least one. -/
def Step.full : Step → Bool
  | .extRanges is | .ranges is | .names is => !is.isEmpty
  | _ => true

theorem steps_full (ks : List Key) : ∀ (n : Nat) (so : List Nat) (se : List (Option (QName × Option Nat))),
    ∀ s ∈ steps si h path n so se ks, s.full = true := by
  induction ks with
  | nil => intro n so se s hs; rw [steps] at hs; cases hs
  | cons k ks ih =>
    intro n so se s hs
    cases n with
    | succ n => rw [steps] at hs; exact ih _ _ _ s hs
    | zero =>
      cases k with
      | field i =>
        rw [steps] at hs
        cases hr : realOneof h i with
        | none =>
          rw [hr] at hs
          rcases List.mem_cons.1 hs with rfl | hs
          · rfl
          · exact ih _ _ _ s hs
        | some j =>
          rw [hr] at hs
          simp only at hs
          split at hs
          · exact ih _ _ _ s hs
          · rcases List.mem_cons.1 hs with rfl | hs
            · rfl
            · exact ih _ _ _ s hs
      | ext i =>
        rw [steps] at hs
        split at hs
        · exact ih _ _ _ s hs
        · rcases List.mem_cons.1 hs with rfl | hs
          · rfl
          · exact ih _ _ _ s hs
      | msg i =>
        rw [steps] at hs
        split at hs
        · exact ih _ _ _ s hs
        · rcases List.mem_cons.1 hs with rfl | hs
          · rfl
          · exact ih _ _ _ s hs
      | opt t => rw [steps] at hs; rcases List.mem_cons.1 hs with rfl | hs; · rfl
                 exact ih _ _ _ s hs
      | enum t => rw [steps] at hs; rcases List.mem_cons.1 hs with rfl | hs; · rfl
                  exact ih _ _ _ s hs
      | extR i => rw [steps] at hs; rcases List.mem_cons.1 hs with rfl | hs; · rfl
                  exact ih _ _ _ s hs
      | resR i => rw [steps] at hs; rcases List.mem_cons.1 hs with rfl | hs; · rfl
                  exact ih _ _ _ s hs
      | resN i => rw [steps] at hs; rcases List.mem_cons.1 hs with rfl | hs; · rfl
                  exact ih _ _ _ s hs
      | _ => exact ih _ _ _ s hs

/-! ### Oneofs and extensions -/

def isField : Key → Option Nat | .field i => some i | _ => none
def isExt : Key → Option Nat | .ext i => some i | _ => none

/-- The groups of elements that are printed where the first of them is. -/
def groups {κ : Type*} [DecidableEq κ] (cls : Nat → Option κ) (mem : Nat → List Nat → List Nat) : List κ → List Nat → List (κ × List Nat)
  | _, [] => []
  | seen, i :: is =>
    match cls i with
    | none => groups cls mem seen is
    | some a => if a ∈ seen then groups cls mem seen is else (a, mem i (i :: is)) :: groups cls mem (a :: seen) is

def oneofOf : Step → List (Nat × List Nat) | .oneof j is => [(j, is)] | _ => []
def extsOf : Step → List (List Nat) | .exts is => [is] | _ => []

/-- The fields of a oneof among fields. -/
def oneofMem (h : MHead) (i : Nat) (is : List Nat) : List Nat :=
  (is.filter (fun k => decide ((h.fields[k]?.bind Field.oneof) = h.fields[i]?.bind Field.oneof))).take
    ((h.fields.filter (fun f => decide (f.oneof = h.fields[i]?.bind Field.oneof))).length)

theorem realOneof_bind {i j : Nat} (hr : realOneof h i = some j) : h.fields[i]?.bind Field.oneof = some j := by
  unfold realOneof at hr
  cases hf : h.fields[i]? with
  | none => rw [hf] at hr; cases hr
  | some f =>
    rw [hf] at hr
    simp only at hr
    cases ho : f.oneof with
    | none => rw [ho] at hr; cases hr
    | some k =>
      rw [ho] at hr
      simp only at hr
      split at hr
      · cases hr
      · cases hr; simpa using ho

theorem oneofMembers_eq (j : Nat) (ks : List Key) : oneofMembers h j ks =
    ((ks.filterMap isField).filter (fun k => decide ((h.fields[k]?.bind Field.oneof) = some j))).take
      ((h.fields.filter (fun f => decide (f.oneof = some j))).length) := by
  unfold oneofMembers
  simp only
  congr 2

theorem skip_keys {mk : Nat → Key} {sel : Key → Option Nat} (hm : ∀ i, sel (mk i) = none) (more : List Nat) (rest : List Key) :
    (more.map mk ++ rest).filterMap sel = rest.filterMap sel := by
  rw [List.filterMap_append, List.filterMap_map]
  simp [Function.comp_def, hm]

theorem steps_oneofs : ∀ (n : Nat) (so : List Nat) (se : List (Option (QName × Option Nat))) (ks : List Key), ks.length ≤ n →
    (steps si h path 0 so se ks).flatMap oneofOf = groups (realOneof h) (oneofMem h) so (ks.filterMap isField) := by
  intro n
  induction n with
  | zero =>
    intro so se ks hn
    have : ks = [] := List.length_eq_zero_iff.1 (by omega)
    subst this
    rw [steps]; rfl
  | succ n ih =>
    intro so se ks hn
    match ks with
    | [] => rw [steps]; rfl
    | k :: ks =>
      have hn' : ks.length ≤ n := by simp at hn; omega
      cases k with
      | extR i =>
        obtain ⟨more, rest, e, _, e2⟩ := steps_extR (si := si) (h := h) (path := path) so se i ks
        have hr : rest.length ≤ n := by rw [e] at hn'; simp at hn'; omega
        rw [e2, List.flatMap_cons, ih so se rest hr, List.filterMap_cons_none rfl, e, skip_keys (fun _ => rfl)]; rfl
      | resR i =>
        obtain ⟨more, rest, e, e2⟩ := steps_resR (si := si) (h := h) (path := path) so se i ks
        have hr : rest.length ≤ n := by rw [e] at hn'; simp at hn'; omega
        rw [e2, List.flatMap_cons, ih so se rest hr, List.filterMap_cons_none rfl, e, skip_keys (fun _ => rfl)]; rfl
      | resN i =>
        obtain ⟨more, rest, e, e2⟩ := steps_resN (si := si) (h := h) (path := path) so se i ks
        have hr : rest.length ≤ n := by rw [e] at hn'; simp at hn'; omega
        rw [e2, List.flatMap_cons, ih so se rest hr, List.filterMap_cons_none rfl, e, skip_keys (fun _ => rfl)]; rfl
      | field i =>
        rw [steps, List.filterMap_cons_some (f := isField) (b := i) rfl, groups]
        cases hr : realOneof h i with
        | none => simp only; rw [List.flatMap_cons, ih _ _ _ hn']; rfl
        | some j =>
          simp only
          split
          · rw [ih _ _ _ hn']
          · rw [List.flatMap_cons, ih _ _ _ hn']
            show [(j, oneofMembers h j (Key.field i :: ks))] ++ _ = _
            rw [oneofMembers_eq, oneofMem, realOneof_bind hr]
            rfl
      | ext i =>
        rw [steps, List.filterMap_cons_none rfl]
        split
        · rw [ih _ _ _ hn']
        · rw [List.flatMap_cons, ih _ _ _ hn']; rfl
      | msg i =>
        rw [steps, List.filterMap_cons_none rfl]
        split
        · rw [ih _ _ _ hn']
        · rw [List.flatMap_cons, ih _ _ _ hn']; rfl
      | opt t => rw [steps, List.filterMap_cons_none rfl]; rw [List.flatMap_cons, ih _ _ _ hn']; rfl
      | enum t => rw [steps, List.filterMap_cons_none rfl]; rw [List.flatMap_cons, ih _ _ _ hn']; rfl
      | _ => exact ih so se ks hn'

/-- The extensions of a class among extensions. -/
def extMem (si : SI) (exts : List Ext) (path : Path) (i : Nat) (is : List Nat) : List Nat :=
  (is.filter (fun j => decide (extClass si exts path j = extClass si exts path i))).take
    ((List.range exts.length).filter (fun j => decide (extClass si exts path j = extClass si exts path i))).length

theorem extMembers_eq (exts : List Ext) (p : Path) (i : Nat) (ks : List Key) :
    extMembers si exts p i ks = extMem si exts p i (ks.filterMap isExt) := by
  unfold extMembers extMem
  simp only
  congr 2

theorem steps_exts : ∀ (n : Nat) (so : List Nat) (se : List (Option (QName × Option Nat))) (ks : List Key), ks.length ≤ n →
    (steps si h path 0 so se ks).flatMap extsOf =
      (groups (fun i => some (extClass si h.exts (path ++ [6]) i)) (extMem si h.exts (path ++ [6])) se (ks.filterMap isExt)).map Prod.snd := by
  intro n
  induction n with
  | zero =>
    intro so se ks hn
    have : ks = [] := List.length_eq_zero_iff.1 (by omega)
    subst this
    rw [steps]; rfl
  | succ n ih =>
    intro so se ks hn
    match ks with
    | [] => rw [steps]; rfl
    | k :: ks =>
      have hn' : ks.length ≤ n := by simp at hn; omega
      cases k with
      | extR i =>
        obtain ⟨more, rest, e, _, e2⟩ := steps_extR (si := si) (h := h) (path := path) so se i ks
        have hr : rest.length ≤ n := by rw [e] at hn'; simp at hn'; omega
        rw [e2, List.flatMap_cons, ih so se rest hr, List.filterMap_cons_none rfl, e, skip_keys (fun _ => rfl)]; rfl
      | resR i =>
        obtain ⟨more, rest, e, e2⟩ := steps_resR (si := si) (h := h) (path := path) so se i ks
        have hr : rest.length ≤ n := by rw [e] at hn'; simp at hn'; omega
        rw [e2, List.flatMap_cons, ih so se rest hr, List.filterMap_cons_none rfl, e, skip_keys (fun _ => rfl)]; rfl
      | resN i =>
        obtain ⟨more, rest, e, e2⟩ := steps_resN (si := si) (h := h) (path := path) so se i ks
        have hr : rest.length ≤ n := by rw [e] at hn'; simp at hn'; omega
        rw [e2, List.flatMap_cons, ih so se rest hr, List.filterMap_cons_none rfl, e, skip_keys (fun _ => rfl)]; rfl
      | field i =>
        rw [steps, List.filterMap_cons_none rfl]
        cases hr : realOneof h i with
        | none => simp only; rw [List.flatMap_cons, ih _ _ _ hn']; rfl
        | some j =>
          simp only
          split
          · rw [ih _ _ _ hn']
          · rw [List.flatMap_cons, ih _ _ _ hn']; rfl
      | ext i =>
        rw [steps, List.filterMap_cons_some (f := isExt) (b := i) rfl, groups]
        simp only
        split
        · rw [ih _ _ _ hn']
        · rw [List.flatMap_cons, ih _ _ _ hn']
          show [extMembers si h.exts (path ++ [6]) i (Key.ext i :: ks)] ++ _ = _
          rw [extMembers_eq]
          rfl
      | msg i =>
        rw [steps, List.filterMap_cons_none rfl]
        split
        · rw [ih _ _ _ hn']
        · rw [List.flatMap_cons, ih _ _ _ hn']; rfl
      | opt t => rw [steps, List.filterMap_cons_none rfl]; rw [List.flatMap_cons, ih _ _ _ hn']; rfl
      | enum t => rw [steps, List.filterMap_cons_none rfl]; rw [List.flatMap_cons, ih _ _ _ hn']; rfl
      | _ => exact ih so se ks hn'

end Verif.Printer
