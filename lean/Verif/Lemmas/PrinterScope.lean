import Verif.Lemmas.PrinterDecls
/-! Lists of declarations: what they contain of the elements of a scope. -/
namespace Verif.Printer
open Verif.Lexer Verif.PrintWriter Verif.Decls Verif.Literal

variable {c : Cfg} {si : SI}

/-! ### Steps -/

theorem emits_runSteps {σ : Type*} {one : σ → W → W} {R : σ → List Decl → Prop} (ss : List σ)
    (h : ∀ s ∈ ss, ∃ ds, R s ds ∧ Emits (one s) .idle (Decl.toksAll ds) .idle) :
    ∃ dss, List.Forall₂ R ss dss ∧ ∀ compact first, Emits (runSteps compact one first ss) .idle (Decl.toksAll dss.flatten) .idle := by
  induction ss with
  | nil => exact ⟨[], .nil, fun _ _ => Emits.id _⟩
  | cons s ss ih =>
    obtain ⟨ds, h1, h2⟩ := h s List.mem_cons_self
    obtain ⟨dss, h3, h4⟩ := ih (fun x hx => h x (List.mem_cons_of_mem _ hx))
    refine ⟨ds :: dss, .cons h1 h3, fun compact first => ?_⟩
    have hn : Emits (fun w => if first then w else newLine compact w) .idle [] .idle := by
      cases first
      · exact emits_newLine compact .idle
      · exact Emits.id .idle
    exact ((hn.comp h2).comp (h4 compact false)).toks (by simp [toksAll_append])

theorem forall2_sel {σ ι β : Type*} {R : σ → List Decl → Prop} {P : ι → β → Prop} {proj : σ → List ι} {sel : Decl → List β}
    (h : ∀ s ds, R s ds → List.Forall₂ P (proj s) (ds.flatMap sel)) {ss : List σ} {dss : List (List Decl)} (hr : List.Forall₂ R ss dss) :
    List.Forall₂ P (ss.flatMap proj) (dss.flatten.flatMap sel) := by
  induction hr with
  | nil => exact .nil
  | cons h1 _ ih =>
    rw [List.flatMap_cons, List.flatten_cons, List.flatMap_append]
    exact List.rel_append (h _ _ h1) ih

theorem forall2_all {σ : Type*} {R : σ → List Decl → Prop} {p : Decl → Bool} (h : ∀ s ds, R s ds → ∀ d ∈ ds, p d = true)
    {ss : List σ} {dss : List (List Decl)} (hr : List.Forall₂ R ss dss) : ∀ d ∈ dss.flatten, p d = true := by
  induction hr with
  | nil => intro d hd; cases hd
  | cons h1 _ ih =>
    intro d hd
    rw [List.flatten_cons] at hd
    rcases List.mem_append.1 hd with hd | hd
    · exact h _ _ h1 d hd
    · exact ih d hd

/-- The elements at the places are matched. -/
theorem Matches.of_idx {ι α β : Type*} {P : ι → β → Prop} {R : α → β → Prop} {get : ι → Option α} {is : List ι} {ys : List β} {zs : List α}
    (h : List.Forall₂ P is ys) (hget : ∀ i ∈ is, ∃ x, get i = some x ∧ ∀ y, P i y → R x y) (hp : (is.filterMap get).Perm zs) :
    Matches R zs ys := by
  refine ⟨_, hp, ?_⟩
  clear hp
  induction h with
  | nil => exact .nil
  | cons h1 _ ih =>
    obtain ⟨x, hx, hr⟩ := hget _ List.mem_cons_self
    rw [List.filterMap_cons_some hx]
    exact .cons (hr _ h1) (ih (fun i hi => hget i (List.mem_cons_of_mem _ hi)))

theorem range_get {α : Type*} (xs : List α) : (List.range xs.length).filterMap (fun i => xs[i]?) = xs := by
  induction xs with
  | nil => rfl
  | cons x xs ih =>
    rw [List.length_cons, List.range_succ_eq_map, List.filterMap_cons_some (by rfl), List.filterMap_map]
    congr 1

/-- All elements of a list, in any order. -/
theorem Matches.of_range {α β : Type*} {R : α → β → Prop} {xs : List α} {is : List Nat} {ys : List β}
    (h : List.Forall₂ (fun i y => ∀ x, xs[i]? = some x → R x y) is ys) (hp : is.Perm (List.range xs.length)) : Matches R xs ys := by
  refine Matches.of_idx (get := fun i => xs[i]?) h (fun i hi => ?_) ?_
  · have := List.mem_range.1 (hp.subset hi)
    exact ⟨xs[i], List.getElem?_eq_getElem this, fun y hy => hy _ (List.getElem?_eq_getElem this)⟩
  · have := hp.filterMap (fun i => xs[i]?)
    rwa [range_get] at this

/-! ### Options -/

theorem optionDecls_option (os : List Setting) : (optionDecls os).flatMap asOption = os := by
  induction os with
  | nil => rfl
  | cons o os ih =>
    show asOption (.option o) ++ (optionDecls os).flatMap asOption = _
    rw [ih]; rfl

theorem optionDecls_none {β : Type*} {sel : Decl → List β} (h : ∀ o, sel (.option o) = []) (os : List Setting) :
    (optionDecls os).flatMap sel = [] := by
  induction os with
  | nil => rfl
  | cons o os ih =>
    show sel (.option o) ++ (optionDecls os).flatMap sel = _
    rw [ih, h]; rfl

theorem optionDecls_all {p : Decl → Bool} (h : ∀ o, p (.option o) = true) (os : List Setting) : ∀ d ∈ optionDecls os, p d = true := by
  intro d hd
  obtain ⟨o, _, rfl⟩ := List.mem_map.1 hd
  exact h o

def isOpt : Key → Option Int | .opt t => some t | _ => none

/-- The options of the keys of a scope. -/
theorem opts_of_keys {a : At} {os : Opts} (h : os.Ok) {ks keys : List Key} (hp : ks.Perm keys)
    (hk : keys.filterMap isOpt = os.map Prod.fst) {ds : List Setting}
    (hd : List.Forall₂ (Opt.Means a) ((ks.filterMap isOpt).flatMap (optsAt os)) ds) : Opts.Mean a os ds := by
  have h1 : (ks.filterMap isOpt).Perm (os.map Prod.fst) := hk ▸ hp.filterMap isOpt
  obtain ⟨gs, hg, e⟩ := perm_map_inv h1
  refine ⟨gs, hg, ?_⟩
  rw [e] at hd
  have : (gs.map Prod.fst).flatMap (optsAt os) = gs.flatMap Prod.snd := by
    rw [List.flatMap_map]
    refine List.flatMap_congr (fun g hgm => ?_)
    exact optsAt_mem h.distinct (hg.subset hgm)
  rwa [this] at hd

theorem optsAt_ok {os : Opts} (h : os.Ok) (t : Int) : ∀ o ∈ optsAt os t, o.Ok := by
  intro o ho
  unfold optsAt at ho
  cases hf : os.find? (fun p => p.1 == t) with
  | none => rw [hf] at ho; cases ho
  | some g => rw [hf] at ho; exact (h.each g (List.mem_of_find?_eq_some hf)).2 o ho

/-! ### Keys -/

theorem filterMap_places {β : Type*} (sel : Key → Option β) (mk : Nat → Key) (n : Nat) :
    (places mk n).filterMap sel = (List.range n).filterMap (fun i => sel (mk i)) := by
  unfold places
  rw [List.filterMap_map]; rfl

theorem places_same {sel : Key → Option Nat} {mk : Nat → Key} (h : ∀ i, sel (mk i) = some i) (n : Nat) :
    (places mk n).filterMap sel = List.range n := by
  rw [filterMap_places]
  simp [h]

theorem places_other {β : Type*} {sel : Key → Option β} {mk : Nat → Key} (h : ∀ i, sel (mk i) = none) (n : Nat) :
    (places mk n).filterMap sel = [] := by
  rw [filterMap_places]
  simp [h]

theorem optKeys_isOpt (os : Opts) : (optKeys os).filterMap isOpt = os.map Prod.fst := by
  unfold optKeys
  rw [List.filterMap_map]
  simp only [Function.comp_def, isOpt]
  rw [List.filterMap_eq_map']

theorem optKeys_other {β : Type*} {sel : Key → Option β} (h : ∀ t, sel (.opt t) = none) (os : Opts) : (optKeys os).filterMap sel = [] := by
  unfold optKeys
  rw [List.filterMap_map]
  simp [Function.comp_def, h]

/-! ### Runs -/

theorem run_spec (sel : Key → Option Nat) (mk : Nat → Key) (hsel : ∀ k i, sel k = some i → k = mk i) (ks : List Key) :
    ks = (run sel ks).map mk ++ ks.drop (run sel ks).length := by
  induction ks with
  | nil => rfl
  | cons k ks ih =>
    unfold run
    cases h : sel k with
    | none => rfl
    | some i =>
      simp only [List.map_cons, List.length_cons, List.drop_succ_cons, List.cons_append]
      rw [← ih, ← hsel k i h]

/-! ### Enums -/

def isValue : Key → Option Nat | .value i => some i | _ => none

def enumRng (e : Enum) (i : Nat) : Ranges.Range := e.resRanges.getD i ⟨0, 0⟩
def enumNm (e : Enum) (i : Nat) : Bytes := e.resNames.getD i []

theorem enumSteps_skipR (e : Enum) (skipR : List Ranges.Range) (skipN : List Bytes) (p : List Nat) (ks : List Key)
    (h : ∀ i ∈ p, enumRng e i ∈ skipR) : enumSteps e skipR skipN (p.map .resR ++ ks) = enumSteps e skipR skipN ks := by
  induction p with
  | nil => rfl
  | cons i p ih =>
    have hi := h i List.mem_cons_self
    unfold enumRng at hi
    simp only [List.map_cons, List.cons_append, enumSteps, hi, if_true]
    exact ih (fun j hj => h j (List.mem_cons_of_mem _ hj))

theorem enumSteps_skipN (e : Enum) (skipR : List Ranges.Range) (skipN : List Bytes) (p : List Nat) (ks : List Key)
    (h : ∀ i ∈ p, enumNm e i ∈ skipN) : enumSteps e skipR skipN (p.map .resN ++ ks) = enumSteps e skipR skipN ks := by
  induction p with
  | nil => rfl
  | cons i p ih =>
    have hi := h i List.mem_cons_self
    unfold enumNm at hi
    simp only [List.map_cons, List.cons_append, enumSteps, hi, if_true]
    exact ih (fun j hj => h j (List.mem_cons_of_mem _ hj))

theorem isResR_eq : ∀ k i, isResR k = some i → k = .resR i := by
  intro k i h; cases k <;> simp [isResR] at h <;> rw [h]
theorem isResN_eq : ∀ k i, isResN k = some i → k = .resN i := by
  intro k i h; cases k <;> simp [isResN] at h <;> rw [h]
theorem isExtR_eq : ∀ k i, isExtR k = some i → k = .extR i := by
  intro k i h; cases k <;> simp [isExtR] at h <;> rw [h]

theorem filterMap_resR (p : List Nat) : (p.map Key.resR).filterMap isResR = p := by
  rw [List.filterMap_map]; simp [Function.comp_def, isResR]
theorem filterMap_resN (p : List Nat) : (p.map Key.resN).filterMap isResN = p := by
  rw [List.filterMap_map]; simp [Function.comp_def, isResN]

theorem forall2_all_mem {σ : Type*} {R : σ → List Decl → Prop} {p : Decl → Bool} {ss : List σ} {dss : List (List Decl)}
    (hr : List.Forall₂ R ss dss) (h : ∀ s ∈ ss, ∀ ds, R s ds → ∀ d ∈ ds, p d = true) : ∀ d ∈ dss.flatten, p d = true := by
  induction hr with
  | nil => intro d hd; cases hd
  | cons h1 _ ih =>
    intro d hd
    rw [List.flatten_cons] at hd
    rcases List.mem_append.1 hd with hd | hd
    · exact h _ List.mem_cons_self _ h1 d hd
    · exact ih (fun s hs => h s (List.mem_cons_of_mem _ hs)) d hd

/-- What the steps of an enum contain. -/
structure EContent (e : Enum) (skipR : List Ranges.Range) (skipN : List Bytes) (ks : List Key) : Prop where
  opts : (enumSteps e skipR skipN ks).flatMap (fun s => match s with | .opt t => [t] | _ => []) = ks.filterMap isOpt
  values : (enumSteps e skipR skipN ks).flatMap (fun s => match s with | .value i => [i] | _ => []) = ks.filterMap isValue
  ranges : (enumSteps e skipR skipN ks).flatMap (fun s => match s with | .ranges is => is | _ => []) = ks.filterMap isResR
  names : (enumSteps e skipR skipN ks).flatMap (fun s => match s with | .names is => is | _ => []) = ks.filterMap isResN

theorem enumSteps_content (e : Enum) : ∀ (n : Nat) (skipR : List Ranges.Range) (skipN : List Bytes) (ks : List Key), ks.length ≤ n →
    ((ks.filterMap isResR).map (enumRng e)).Nodup → ((ks.filterMap isResN).map (enumNm e)).Nodup →
    (∀ i ∈ ks.filterMap isResR, enumRng e i ∉ skipR) → (∀ i ∈ ks.filterMap isResN, enumNm e i ∉ skipN) →
    EContent e skipR skipN ks := by
  intro n
  induction n with
  | zero =>
    intro skipR skipN ks hn _ _ _ _
    have : ks = [] := List.length_eq_zero_iff.1 (by omega)
    subst this
    exact ⟨rfl, rfl, rfl, rfl⟩
  | succ n ih =>
    intro skipR skipN ks hn hr hm hsr hsn
    match ks with
    | [] => exact ⟨rfl, rfl, rfl, rfl⟩
    | k :: ks =>
      have hn' : ks.length ≤ n := by simp at hn; omega
      cases k with
      | resR i =>
        obtain ⟨p, hpdef⟩ : ∃ p, run isResR ks = p := ⟨_, rfl⟩
        have hks := run_spec isResR .resR isResR_eq ks
        rw [hpdef] at hks
        obtain ⟨rest, hrest⟩ : ∃ rest, ks.drop p.length = rest := ⟨_, rfl⟩
        rw [hrest] at hks
        have hi : (e.resRanges.getD i ⟨0, 0⟩) ∉ skipR := hsr i (by simp [isResR])
        have hfR : ks.filterMap isResR = p ++ rest.filterMap isResR := by
          conv => lhs; rw [hks]
          rw [List.filterMap_append, filterMap_resR]
        have hfN : ks.filterMap isResN = rest.filterMap isResN := by
          conv => lhs; rw [hks]
          rw [List.filterMap_append, List.filterMap_map]; simp [Function.comp_def, isResN]
        have hfO : ks.filterMap isOpt = rest.filterMap isOpt := by
          conv => lhs; rw [hks]
          rw [List.filterMap_append, List.filterMap_map]; simp [Function.comp_def, isOpt]
        have hfV : ks.filterMap isValue = rest.filterMap isValue := by
          conv => lhs; rw [hks]
          rw [List.filterMap_append, List.filterMap_map]; simp [Function.comp_def, isValue]
        have h0R : (Key.resR i :: ks).filterMap isResR = i :: ks.filterMap isResR := rfl
        rw [h0R, hfR] at hr
        rw [h0R, hfR] at hsr
        have h0N : (Key.resR i :: ks).filterMap isResN = ks.filterMap isResN := rfl
        rw [h0N, hfN] at hm hsn
        have hlen : rest.length ≤ n := by rw [← hrest, List.length_drop]; omega
        rw [List.map_cons, List.map_append, List.nodup_cons, List.nodup_append] at hr
        have := ih (skipR ++ p.map (enumRng e)) skipN rest hlen hr.2.2.1 hm (by
          intro j hj hmem
          rcases List.mem_append.1 hmem with h1 | h1
          · exact hsr j (by simp [hj]) h1
          · obtain ⟨j', hj', e'⟩ := List.mem_map.1 h1
            exact hr.2.2.2 _ (List.mem_map_of_mem hj') _ (List.mem_map_of_mem hj) e') hsn
        have hst : enumSteps e skipR skipN (.resR i :: ks) = .ranges (i :: p) :: enumSteps e (skipR ++ p.map (enumRng e)) skipN rest := by
          simp only [enumSteps, hi, if_false, hpdef]
          congr 1
          conv => lhs; rw [hks]
          exact enumSteps_skipR e _ _ p rest (fun j hj => List.mem_append_right _ (List.mem_map_of_mem hj))
        refine ⟨?_, ?_, ?_, ?_⟩
        · rw [hst, List.flatMap_cons, this.opts, ← hfO]; rfl
        · rw [hst, List.flatMap_cons, this.values, ← hfV]; rfl
        · rw [hst, List.flatMap_cons, this.ranges, h0R, hfR]; rfl
        · rw [hst, List.flatMap_cons, this.names, h0N, hfN]; rfl
      | resN i =>
        obtain ⟨p, hpdef⟩ : ∃ p, run isResN ks = p := ⟨_, rfl⟩
        have hks := run_spec isResN .resN isResN_eq ks
        rw [hpdef] at hks
        obtain ⟨rest, hrest⟩ : ∃ rest, ks.drop p.length = rest := ⟨_, rfl⟩
        rw [hrest] at hks
        have hi : (e.resNames.getD i []) ∉ skipN := hsn i (by simp [isResN])
        have hfN : ks.filterMap isResN = p ++ rest.filterMap isResN := by
          conv => lhs; rw [hks]
          rw [List.filterMap_append, filterMap_resN]
        have hfR : ks.filterMap isResR = rest.filterMap isResR := by
          conv => lhs; rw [hks]
          rw [List.filterMap_append, List.filterMap_map]; simp [Function.comp_def, isResR]
        have hfO : ks.filterMap isOpt = rest.filterMap isOpt := by
          conv => lhs; rw [hks]
          rw [List.filterMap_append, List.filterMap_map]; simp [Function.comp_def, isOpt]
        have hfV : ks.filterMap isValue = rest.filterMap isValue := by
          conv => lhs; rw [hks]
          rw [List.filterMap_append, List.filterMap_map]; simp [Function.comp_def, isValue]
        have h0N : (Key.resN i :: ks).filterMap isResN = i :: ks.filterMap isResN := rfl
        rw [h0N, hfN] at hm
        rw [h0N, hfN] at hsn
        have h0R : (Key.resN i :: ks).filterMap isResR = ks.filterMap isResR := rfl
        rw [h0R, hfR] at hr hsr
        have hlen : rest.length ≤ n := by rw [← hrest, List.length_drop]; omega
        rw [List.map_cons, List.map_append, List.nodup_cons, List.nodup_append] at hm
        have := ih skipR (skipN ++ p.map (enumNm e)) rest hlen hr hm.2.2.1 hsr (by
          intro j hj hmem
          rcases List.mem_append.1 hmem with h1 | h1
          · exact hsn j (by simp [hj]) h1
          · obtain ⟨j', hj', e'⟩ := List.mem_map.1 h1
            exact hm.2.2.2 _ (List.mem_map_of_mem hj') _ (List.mem_map_of_mem hj) e')
        have hst : enumSteps e skipR skipN (.resN i :: ks) = .names (i :: p) :: enumSteps e skipR (skipN ++ p.map (enumNm e)) rest := by
          simp only [enumSteps, hi, if_false, hpdef]
          congr 1
          conv => lhs; rw [hks]
          exact enumSteps_skipN e _ _ p rest (fun j hj => List.mem_append_right _ (List.mem_map_of_mem hj))
        refine ⟨?_, ?_, ?_, ?_⟩
        · rw [hst, List.flatMap_cons, this.opts, ← hfO]; rfl
        · rw [hst, List.flatMap_cons, this.values, ← hfV]; rfl
        · rw [hst, List.flatMap_cons, this.ranges, h0R, hfR]; rfl
        · rw [hst, List.flatMap_cons, this.names, h0N, hfN]; rfl
      | opt t =>
        have := ih skipR skipN ks hn' hr hm hsr hsn
        exact ⟨by rw [enumSteps, List.flatMap_cons, this.opts]; rfl, by rw [enumSteps, List.flatMap_cons, this.values]; rfl,
          by rw [enumSteps, List.flatMap_cons, this.ranges]; rfl, by rw [enumSteps, List.flatMap_cons, this.names]; rfl⟩
      | value i =>
        have := ih skipR skipN ks hn' hr hm hsr hsn
        exact ⟨by rw [enumSteps, List.flatMap_cons, this.opts]; rfl, by rw [enumSteps, List.flatMap_cons, this.values]; rfl,
          by rw [enumSteps, List.flatMap_cons, this.ranges]; rfl, by rw [enumSteps, List.flatMap_cons, this.names]; rfl⟩
      | _ =>
        have := ih skipR skipN ks hn' hr hm hsr hsn
        exact ⟨this.opts, this.values, this.ranges, this.names⟩

def EStep.full : EStep → Bool
  | .ranges is | .names is => !is.isEmpty
  | _ => true

theorem enumSteps_full (e : Enum) (ks : List Key) : ∀ skipR skipN, ∀ s ∈ enumSteps e skipR skipN ks, s.full = true := by
  induction ks with
  | nil => intro skipR skipN s hs; cases hs
  | cons k ks ih =>
    intro skipR skipN s hs
    cases k with
    | resR i =>
      simp only [enumSteps] at hs
      split at hs
      · exact ih _ _ s hs
      · rcases List.mem_cons.1 hs with rfl | hs
        · rfl
        · exact ih _ _ s hs
    | resN i =>
      simp only [enumSteps] at hs
      split at hs
      · exact ih _ _ s hs
      · rcases List.mem_cons.1 hs with rfl | hs
        · rfl
        · exact ih _ _ s hs
    | opt t =>
      simp only [enumSteps] at hs
      rcases List.mem_cons.1 hs with rfl | hs
      · rfl
      · exact ih _ _ s hs
    | value t =>
      simp only [enumSteps] at hs
      rcases List.mem_cons.1 hs with rfl | hs
      · rfl
      · exact ih _ _ s hs
    | _ => exact ih _ _ s hs

theorem forall2_ne {α β : Type*} {R : α → β → Prop} {xs : List α} {ys : List β} (h : List.Forall₂ R xs ys) (hn : xs ≠ []) : ys ≠ [] := by
  cases h with
  | nil => exact absurd rfl hn
  | cons _ _ => simp

end Verif.Printer
