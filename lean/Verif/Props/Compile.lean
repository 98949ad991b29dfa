import Verif.Lemmas.Compile
import Mathlib.Data.List.Induction
/-!
# Properties of the compile bookkeeping: C63
-/
namespace Verif.Compile

open Verif.Assoc

/-! ### Specification -/

/-- Specification: how a compilation ended for a file. -/
inductive Outcome where
  | linked (id : Nat)
  | part (id : Nat)
  | unl (id : Nat)
deriving DecidableEq, Repr

def Outcome.id : Outcome → Nat
  | .linked i => i
  | .part i => i
  | .unl i => i

/-- Specification: what happens to a file: its compilation starts, ends, or the file is deleted. -/
inductive Fact where
  | start
  | result (o : Outcome)
  | deleted
deriving DecidableEq, Repr

/-- Specification: the facts about a file in an event. -/
def factsOf (p : Nat) : Ev → List Fact
  | .pre q => if q = p then [.start] else []
  | .done fs ps us =>
    (fs.filter fun f => decide (f.1 = p)).map (fun f => .result (.linked f.2)) ++
    (ps.filter fun f => decide (f.1 = p)).map (fun f => .result (.part f.2)) ++
    (us.filter fun f => decide (f.1 = p)).map (fun f => .result (.unl f.2))
  | .failed => []
  | .invalidated q again => if q = p ∧ again = false then [.deleted] else []

/-- Specification: the facts about a file in a history. -/
def facts (evs : List Ev) (p : Nat) : List Fact := evs.flatMap (factsOf p)

/-- Specification: the result of the last compilation of the file that gave one. -/
def lastOutcome (fs : List Fact) : Option Outcome :=
  (fs.filterMap fun f => match f with | .result o => some o | _ => none).getLast?

/-- Specification: the result of the last compilation that was started, if it gave one. -/
def current (fs : List Fact) : Option Outcome :=
  ((fs.filterMap fun f => match f with | .result o => some (some o) | .start => some none | .deleted => none).getLast?).getD none

/-- Specification: the file was linked since it was last deleted. -/
def present (fs : List Fact) : Bool :=
  ((fs.filterMap fun f => match f with | .result (.linked _) => some true | .deleted => some false | _ => none).getLast?).getD false

/-! ### Proof -/

/-- The state says of a path what the facts say. -/
structure Agrees (s : St) (p : Nat) (fs : List Fact) : Prop where
  part : ∀ id, get s.part p = some id ↔ current fs = some (.part id)
  unl : ∀ id, get s.unl p = some id ↔ current fs = some (.unl id)
  pragma : get s.pragmas p = (lastOutcome fs).map Outcome.id
  present : lk s.results p ≠ none ↔ present fs = true
  linked : ∀ id, lk s.results p = some (some id) → lastOutcome fs = some (.linked id)
  placeholder : lk s.results p = some none → ∃ o, lastOutcome fs = some o ∧ ∀ id, o ≠ .linked id

theorem last_result (fs : List Fact) (o : Outcome) : lastOutcome (fs ++ [.result o]) = some o := by
  unfold lastOutcome; simp [List.filterMap_append]

theorem last_start (fs : List Fact) : lastOutcome (fs ++ [.start]) = lastOutcome fs := by
  unfold lastOutcome; simp [List.filterMap_append]

theorem last_deleted (fs : List Fact) : lastOutcome (fs ++ [.deleted]) = lastOutcome fs := by
  unfold lastOutcome; simp [List.filterMap_append]

theorem cur_result (fs : List Fact) (o : Outcome) : current (fs ++ [.result o]) = some o := by
  unfold current; simp [List.filterMap_append]

theorem cur_start (fs : List Fact) : current (fs ++ [.start]) = none := by
  unfold current; simp [List.filterMap_append]

theorem cur_deleted (fs : List Fact) : current (fs ++ [.deleted]) = current fs := by
  unfold current; simp [List.filterMap_append]

theorem pres_linked (fs : List Fact) (id : Nat) : present (fs ++ [.result (.linked id)]) = true := by
  unfold present; simp [List.filterMap_append]

theorem pres_part (fs : List Fact) (id : Nat) : present (fs ++ [.result (.part id)]) = present fs := by
  unfold present; simp [List.filterMap_append]

theorem pres_unl (fs : List Fact) (id : Nat) : present (fs ++ [.result (.unl id)]) = present fs := by
  unfold present; simp [List.filterMap_append]

theorem pres_start (fs : List Fact) : present (fs ++ [.start]) = present fs := by
  unfold present; simp [List.filterMap_append]

theorem pres_deleted (fs : List Fact) : present (fs ++ [.deleted]) = false := by
  unfold present; simp [List.filterMap_append]

/-- The state agrees with the facts for each path, and `results` has no path twice. -/
structure Inv (s : St) (fs : Nat → List Fact) : Prop where
  nodup : (paths s.results).Nodup
  agrees : ∀ p, Agrees s p (fs p)

/-- Adds a fact about one file. -/
def upd (fs : Nat → List Fact) (p : Nat) (f : Fact) : Nat → List Fact := fun q => if q = p then fs q ++ [f] else fs q

/-- The view of a path does not change. -/
theorem Agrees.congr {s t : St} {q : Nat} {fs : List Fact} (h : Agrees s q fs) (h1 : get t.part q = get s.part q)
    (h2 : get t.unl q = get s.unl q) (h3 : get t.pragmas q = get s.pragmas q) (h4 : lk t.results q = lk s.results q) : Agrees t q fs :=
  ⟨fun id => by rw [h1]; exact h.part id, fun id => by rw [h2]; exact h.unl id, by rw [h3]; exact h.pragma,
    by rw [h4]; exact h.present, fun id => by rw [h4]; exact h.linked id, by rw [h4]; exact h.placeholder⟩

theorem inv_pre {s : St} {fs : Nat → List Fact} (h : Inv s fs) (p : Nat) : Inv (step s (.pre p)) (upd fs p .start) := by
  refine ⟨h.nodup, fun q => ?_⟩
  have hq := h.agrees q
  unfold upd
  by_cases e : q = p
  · subst e
    rw [if_pos rfl]
    refine ⟨fun id => ?_, fun id => ?_, ?_, ?_, fun id hid => ?_, fun hn => ?_⟩
    · rw [cur_start]; show get (del s.part q) q = _ ↔ _; rw [get_del_self]; simp
    · rw [cur_start]; show get (del s.unl q) q = _ ↔ _; rw [get_del_self]; simp
    · rw [last_start]; exact hq.pragma
    · rw [pres_start]; exact hq.present
    · rw [last_start]; exact hq.linked id hid
    · rw [last_start]; exact hq.placeholder hn
  · rw [if_neg e]
    exact hq.congr (get_del_ne _ e) (get_del_ne _ e) rfl rfl

theorem inv_deleted {s : St} {fs : Nat → List Fact} (h : Inv s fs) (p : Nat) :
    Inv (step s (.invalidated p false)) (upd fs p .deleted) := by
  have hs : step s (.invalidated p false) = { s with results := removeFirst p s.results } := rfl
  rw [hs]
  have hl := lk_removeFirst p s.results h.nodup
  refine ⟨h.nodup.sublist ((removeFirst_sublist p s.results).map _), fun q => ?_⟩
  have hq := h.agrees q
  unfold upd
  by_cases e : q = p
  · subst e
    rw [if_pos rfl]
    have hln : lk (removeFirst q s.results) q = none := by rw [hl, if_pos rfl]
    refine ⟨fun id => ?_, fun id => ?_, ?_, ?_, fun id hid => ?_, fun hn => ?_⟩
    · rw [cur_deleted]; exact hq.part id
    · rw [cur_deleted]; exact hq.unl id
    · rw [last_deleted]; exact hq.pragma
    · rw [pres_deleted]; show lk (removeFirst q s.results) q ≠ none ↔ _; rw [hln]; simp
    · have hid : lk (removeFirst q s.results) q = _ := hid
      rw [hln] at hid; cases hid
    · have hn : lk (removeFirst q s.results) q = _ := hn
      rw [hln] at hn; cases hn
  · rw [if_neg e]
    exact hq.congr rfl rfl rfl (by show lk (removeFirst p s.results) q = _; rw [hl, if_neg e])

theorem inv_linked {s : St} {fs : Nat → List Fact} (h : Inv s fs) (p id : Nat) :
    Inv (addFile s (p, id)) (upd fs p (.result (.linked id))) := by
  have key : (paths (addFile s (p, id)).results).Nodup ∧ (addFile s (p, id)).part = del s.part p ∧ (addFile s (p, id)).unl = del s.unl p ∧
      (∀ q, lk (addFile s (p, id)).results q = if q = p then some (some id) else lk s.results q) ∧
      (∀ q, get (addFile s (p, id)).pragmas q = if q = p then some id else get s.pragmas q) := by
    unfold addFile
    by_cases hf : found p s.results = true
    · rw [if_pos hf]
      refine ⟨?_, rfl, rfl, fun q => ?_, fun q => ?_⟩
      · show (paths (replaceFirst p (some id) s.results)).Nodup
        rw [paths_replaceFirst]; exact h.nodup
      · show lk (replaceFirst p (some id) s.results) q = _
        rw [lk_replaceFirst]
        by_cases e : q = p
        · rw [if_pos e, if_pos e]
          cases hl : lk s.results p with
          | none => exact absurd hl (found_iff.1 hf)
          | some r => rfl
        · rw [if_neg e, if_neg e]
      · show get (updatePragmas s.pragmas p id) q = _
        have hp : get s.pragmas p ≠ none := by
          rw [(h.agrees p).pragma]
          cases hl : lk s.results p with
          | none => exact absurd hl (found_iff.1 hf)
          | some r =>
            cases r with
            | some i => rw [(h.agrees p).linked i hl]; simp
            | none => obtain ⟨o, ho, _⟩ := (h.agrees p).placeholder hl; rw [ho]; simp
        unfold updatePragmas
        cases hg : get s.pragmas p with
        | none => exact absurd hg hp
        | some i =>
          simp only
          by_cases e : q = p
          · subst e; rw [if_pos rfl, get_set_self]
          · rw [if_neg e, get_set_ne _ _ e]
    · rw [if_neg hf]
      have hn : lk s.results p = none := by
        cases hl : lk s.results p with
        | none => rfl
        | some r => exact absurd (found_iff.2 (by rw [hl]; simp)) hf
      refine ⟨?_, rfl, rfl, fun q => ?_, fun q => ?_⟩
      · show (paths (s.results ++ [⟨p, some id⟩])).Nodup
        unfold paths
        rw [List.map_append, List.nodup_append]
        refine ⟨h.nodup, by simp, ?_⟩
        intro a ha b hb e
        simp at hb
        subst hb
        subst e
        exact lk_none.1 hn ha
      · show lk (s.results ++ [⟨p, some id⟩]) q = _
        rw [lk_append]
        by_cases e : q = p
        · subst e; rw [hn, if_pos rfl]; rfl
        · rw [if_neg e, if_neg (fun e' => e e'.symm)]; simp
      · show get (set s.pragmas p id) q = _
        by_cases e : q = p
        · subst e; rw [if_pos rfl, get_set_self]
        · rw [if_neg e, get_set_ne _ _ e]
  obtain ⟨k1, k2, k3, k4, k5⟩ := key
  refine ⟨k1, fun q => ?_⟩
  have hq := h.agrees q
  unfold upd
  by_cases e : q = p
  · subst e
    rw [if_pos rfl]
    refine ⟨fun i => ?_, fun i => ?_, ?_, ?_, fun i hi => ?_, fun hn => ?_⟩
    · rw [cur_result, k2, get_del_self]; simp
    · rw [cur_result, k3, get_del_self]; simp
    · rw [last_result, k5, if_pos rfl]; rfl
    · rw [pres_linked, k4, if_pos rfl]; simp
    · rw [k4, if_pos rfl] at hi; cases hi; rw [last_result]
    · rw [k4, if_pos rfl] at hn; cases hn
  · rw [if_neg e]
    exact hq.congr (by rw [k2, get_del_ne _ e]) (by rw [k3, get_del_ne _ e]) (by rw [k5, if_neg e]) (by rw [k4, if_neg e])

theorem inv_part {s : St} {fs : Nat → List Fact} (h : Inv s fs) (p id : Nat) :
    Inv (addPartial s (p, id)) (upd fs p (.result (.part id))) := by
  have hl := lk_replaceFirst p none s.results
  refine ⟨by show (paths (replaceFirst p none s.results)).Nodup; rw [paths_replaceFirst]; exact h.nodup, fun q => ?_⟩
  have hq := h.agrees q
  unfold upd
  by_cases e : q = p
  · subst e
    rw [if_pos rfl]
    have hlq : lk (replaceFirst q none s.results) q = (lk s.results q).map (fun _ => none) := by rw [hl, if_pos rfl]
    refine ⟨fun i => ?_, fun i => ?_, ?_, ?_, fun i hi => ?_, fun hn => ?_⟩
    · rw [cur_result]; show get (set s.part q id) q = _ ↔ _; rw [get_set_self]; simp
    · rw [cur_result]; show get (del s.unl q) q = _ ↔ _; rw [get_del_self]; simp
    · rw [last_result]; show get (set s.pragmas q id) q = _; rw [get_set_self]; rfl
    · rw [pres_part, ← hq.present]; show lk (replaceFirst q none s.results) q ≠ none ↔ _; rw [hlq]; simp
    · have hi : lk (replaceFirst q none s.results) q = _ := hi
      rw [hlq] at hi; cases hh : lk s.results q <;> rw [hh] at hi <;> simp at hi
    · rw [last_result]; exact ⟨_, rfl, by simp⟩
  · rw [if_neg e]
    exact hq.congr (get_set_ne _ _ e) (get_del_ne _ e) (get_set_ne _ _ e)
      (by show lk (replaceFirst p none s.results) q = _; rw [hl, if_neg e])

theorem inv_unl {s : St} {fs : Nat → List Fact} (h : Inv s fs) (p id : Nat) :
    Inv (addUnlinked s (p, id)) (upd fs p (.result (.unl id))) := by
  have hl := lk_replaceFirst p none s.results
  refine ⟨by show (paths (replaceFirst p none s.results)).Nodup; rw [paths_replaceFirst]; exact h.nodup, fun q => ?_⟩
  have hq := h.agrees q
  unfold upd
  by_cases e : q = p
  · subst e
    rw [if_pos rfl]
    have hlq : lk (replaceFirst q none s.results) q = (lk s.results q).map (fun _ => none) := by rw [hl, if_pos rfl]
    refine ⟨fun i => ?_, fun i => ?_, ?_, ?_, fun i hi => ?_, fun hn => ?_⟩
    · rw [cur_result]; show get (del s.part q) q = _ ↔ _; rw [get_del_self]; simp
    · rw [cur_result]; show get (set s.unl q id) q = _ ↔ _; rw [get_set_self]; simp
    · rw [last_result]; show get (set s.pragmas q id) q = _; rw [get_set_self]; rfl
    · rw [pres_unl, ← hq.present]; show lk (replaceFirst q none s.results) q ≠ none ↔ _; rw [hlq]; simp
    · have hi : lk (replaceFirst q none s.results) q = _ := hi
      rw [hlq] at hi; cases hh : lk s.results q <;> rw [hh] at hi <;> simp at hi
    · rw [last_result]; exact ⟨_, rfl, by simp⟩
  · rw [if_neg e]
    exact hq.congr (get_del_ne _ e) (get_set_ne _ _ e) (get_set_ne _ _ e)
      (by show lk (replaceFirst p none s.results) q = _; rw [hl, if_neg e])

theorem inv_foldl (add : St → Nat × Nat → St) (mk : Nat → Outcome)
    (hadd : ∀ {s fs}, Inv s fs → ∀ p id, Inv (add s (p, id)) (upd fs p (.result (mk id)))) :
    ∀ (l : List (Nat × Nat)) {s : St} {fs : Nat → List Fact}, Inv s fs →
      Inv (l.foldl add s) (fun q => fs q ++ (l.filter fun f => decide (f.1 = q)).map fun f => .result (mk f.2)) := by
  intro l
  induction l with
  | nil => intro s fs h; simpa using h
  | cons f l ih =>
    intro s fs h
    have := ih (hadd h f.1 f.2)
    rw [List.foldl_cons]
    refine cast ?_ this
    congr 1
    funext q
    unfold upd
    by_cases e : f.1 = q
    · simp [e]
    · simp [e, Ne.symm e]

theorem inv_step {s : St} {fs : Nat → List Fact} (h : Inv s fs) (e : Ev) : Inv (step s e) (fun q => fs q ++ factsOf q e) := by
  cases e with
  | pre p =>
    refine cast ?_ (inv_pre h p)
    congr 1
    funext q
    unfold upd factsOf
    by_cases e : q = p
    · simp [e]
    · simp [e, Ne.symm e]
  | done a b c =>
    have h1 := inv_foldl addFile Outcome.linked inv_linked a h
    have h2 := inv_foldl addPartial Outcome.part inv_part b h1
    have h3 := inv_foldl addUnlinked Outcome.unl inv_unl c h2
    refine cast ?_ h3
    congr 1
    funext q
    unfold factsOf
    simp
  | failed => simpa [factsOf, step] using h
  | invalidated p again =>
    cases again with
    | true => simpa [factsOf, step] using h
    | false =>
      refine cast ?_ (inv_deleted h p)
      congr 1
      funext q
      unfold upd factsOf
      by_cases e : q = p
      · simp [e]
      · simp [e, Ne.symm e]

theorem inv_run (evs : List Ev) : Inv (run evs) (facts evs) := by
  have : ∀ (evs : List Ev) (s : St) (fs : Nat → List Fact), Inv s fs → Inv (evs.foldl step s) (fun q => fs q ++ facts evs q) := by
    intro evs
    induction evs with
    | nil => intro s fs h; simpa [facts] using h
    | cons e evs ih =>
      intro s fs h
      have := ih _ _ (inv_step h e)
      rw [List.foldl_cons]
      refine cast ?_ this
      congr 1
      funext q
      simp [facts]
  have h0 : Inv St.init (fun _ => []) :=
    ⟨List.nodup_nil, fun p => ⟨by simp [St.init, Assoc.get, current], by simp [St.init, Assoc.get, current], rfl, by simp [St.init, lk, present],
      (by intro id h; cases h), (by intro h; cases h)⟩⟩
  have := this evs St.init (fun _ => []) h0
  simp only [List.nil_append] at this
  exact this

/-! ### C63 -/

/-- C63: after any history of compilations and deletions each file has at most one entry among the results;
it has one exactly if it was linked since it was last deleted; and an entry with a linked result holds the
result of the last compilation of the file that gave one. -/
theorem C63_results (evs : List Ev) :
    ((run evs).results.map Entry.path).Nodup ∧
    (∀ p, (∃ e ∈ (run evs).results, e.path = p) ↔ present (facts evs p) = true) ∧
    (∀ e ∈ (run evs).results, ∀ id, e.res = some id → lastOutcome (facts evs e.path) = some (.linked id)) ∧
    (∀ e ∈ (run evs).results, e.res = none → ∃ o, lastOutcome (facts evs e.path) = some o ∧ ∀ id, o ≠ .linked id) := by
  have h := inv_run evs
  refine ⟨h.nodup, fun p => ?_, fun e he id hid => ?_, fun e he hn => ?_⟩
  · rw [← (h.agrees p).present, ne_eq, lk_none, Decidable.not_not]
    unfold paths
    rw [List.mem_map]
  · exact (h.agrees e.path).linked id (by rw [lk_of_mem h.nodup he, hid])
  · exact (h.agrees e.path).placeholder (by rw [lk_of_mem h.nodup he, hn])

/-- C63: a file is recorded as partially linked, or as unlinked, exactly if its last compilation ended so; never
as both. -/
theorem C63_records (evs : List Ev) (p : Nat) :
    (∀ id, get (run evs).part p = some id ↔ current (facts evs p) = some (.part id)) ∧
    (∀ id, get (run evs).unl p = some id ↔ current (facts evs p) = some (.unl id)) ∧
    ¬ ((get (run evs).part p).isSome ∧ (get (run evs).unl p).isSome) := by
  have h := (inv_run evs).agrees p
  refine ⟨h.part, h.unl, ?_⟩
  rintro ⟨h1, h2⟩
  obtain ⟨a, ha⟩ := Option.isSome_iff_exists.1 h1
  obtain ⟨b, hb⟩ := Option.isSome_iff_exists.1 h2
  have h3 := (h.part a).1 ha
  rw [(h.unl b).1 hb] at h3
  cases h3

/-- C63: the pragmas of a file are those of its last result. -/
theorem C63_pragmas (evs : List Ev) (p : Nat) : get (run evs).pragmas p = (lastOutcome (facts evs p)).map Outcome.id :=
  ((inv_run evs).agrees p).pragma

/-- Specification: what a lookup should give for an outcome. -/
def Outcome.found : Outcome → Found
  | .linked i => .linked i
  | .part i => .part i
  | .unl i => .unl i

/-- C63: a lookup gives the result of the last compilation of the file, unless it was linked and the file was
deleted since. -/
theorem C63_lookup (evs : List Ev) (p : Nat) (o : Outcome) (hc : current (facts evs p) = some o)
    (hp : (∃ id, o = .linked id) → present (facts evs p) = true) : findParse (run evs) p = some o.found := by
  have hv := inv_run evs
  have h := hv.agrees p
  unfold findParse
  cases o with
  | unl id => rw [(h.unl id).2 hc]; rfl
  | part id =>
    have hu : get (run evs).unl p = none := by
      cases hg : get (run evs).unl p with
      | none => rfl
      | some j => have := (h.unl j).1 hg; rw [hc] at this; cases this
    rw [hu, (h.part id).2 hc]; rfl
  | linked id =>
    have hu : get (run evs).unl p = none := by
      cases hg : get (run evs).unl p with
      | none => rfl
      | some j => have := (h.unl j).1 hg; rw [hc] at this; cases this
    have hpt : get (run evs).part p = none := by
      cases hg : get (run evs).part p with
      | none => rfl
      | some j => have := (h.part j).1 hg; rw [hc] at this; cases this
    rw [hu, hpt]
    have hl : lastOutcome (facts evs p) = some (.linked id) := by
      generalize facts evs p = fs at hc
      unfold current at hc
      unfold lastOutcome
      induction fs using List.reverseRecOn with
      | nil => simp at hc
      | append_singleton fs f ih =>
        cases f with
        | start => simp [List.filterMap_append] at hc
        | result o =>
          simp [List.filterMap_append] at hc ⊢
          exact hc
        | deleted =>
          simp only [List.filterMap_append, List.filterMap_cons, List.filterMap_nil, List.append_nil] at hc ⊢
          exact ih hc
    have hr := h.present.2 (hp ⟨id, rfl⟩)
    simp only
    unfold lk at hr
    cases hf : (run evs).results.find? fun e => decide (e.path = p) with
    | none => rw [hf] at hr; exact absurd rfl hr
    | some e =>
      have hlk : lk (run evs).results p = some e.res := by unfold lk; rw [hf]; rfl
      obtain ⟨ep, er⟩ := e
      cases er with
      | some i =>
        have := h.linked i hlk
        rw [hl] at this
        cases this
        rfl
      | none =>
        obtain ⟨o, ho, hno⟩ := h.placeholder hlk
        rw [hl] at ho
        cases ho
        exact absurd rfl (hno id)

private def exEvs : List Ev :=
  [.pre 1, .pre 2, .done [(1, 10), (2, 20)] [] [], .pre 1, .done [] [(1, 11)] [], .pre 2, .failed, .pre 3, .done [] [] [(3, 30)],
   .invalidated 2 false]
example : (run exEvs).results = [⟨1, none⟩] ∧ (run exEvs).part = [(1, 11)] ∧ (run exEvs).unl = [(3, 30)] := by decide
example : findParse (run exEvs) 1 = some (.part 11) ∧ findParse (run exEvs) 2 = none ∧ findParse (run exEvs) 3 = some (.unl 30) := by decide
example : current (facts exEvs 1) = some (.part 11) ∧ current (facts exEvs 2) = none := by decide

end Verif.Compile
