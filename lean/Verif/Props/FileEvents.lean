import Verif.Model.FileEvents
import Verif.Props.Documents
/-!
# Properties of file notifications: C67
-/
namespace Verif.FileEvents

open Verif.Documents Verif.Resolver

/-! ### Which paths are recompiled -/

theorem mem_deletedPaths (s : State) (es : List Entry) (p : Path) :
    p ∈ deletedPaths s es ↔ ∃ e ∈ es, e.mod.action = .delete ∧ s.uriToPath e.mod.uri = some p := by
  induction es with
  | nil => simp [deletedPaths]
  | cons e es ih =>
    unfold deletedPaths
    by_cases h : e.mod.action = .delete
    · rw [if_pos h]
      cases hp : s.uriToPath e.mod.uri with
      | none => simp [ih, h, hp]
      | some q => simp [ih, h, hp, eq_comm]
    · rw [if_neg h]; simp [ih, h]

theorem mem_changedPaths (s : State) (es : List Entry) (p : Path) :
    p ∈ changedPaths s es ↔ ∃ e ∈ es, ¬ (e.mod.action = .open ∧ e.mod.languageID ≠ "protobuf") ∧
      e.mod.action ≠ .close ∧ s.uriToPath e.mod.uri = some p := by
  induction es with
  | nil => simp [changedPaths]
  | cons e es ih =>
    unfold changedPaths
    by_cases h : e.mod.action = .open ∧ e.mod.languageID ≠ "protobuf"
    · rw [if_pos h, ih]
      constructor
      · rintro ⟨x, hx, hr⟩; exact ⟨x, List.mem_cons_of_mem _ hx, hr⟩
      · rintro ⟨x, hx, h1, h2, h3⟩
        rcases List.mem_cons.1 hx with rfl | hx
        · exact absurd h h1
        · exact ⟨x, hx, h1, h2, h3⟩
    · rw [if_neg h]
      cases hp : s.uriToPath e.mod.uri with
      | none =>
        simp only [ih]
        constructor
        · rintro ⟨x, hx, hr⟩; exact ⟨x, List.mem_cons_of_mem _ hx, hr⟩
        · rintro ⟨x, hx, h1, h2, h3⟩
          rcases List.mem_cons.1 hx with rfl | hx
          · rw [hp] at h3; cases h3
          · exact ⟨x, hx, h1, h2, h3⟩
      | some q =>
        simp only
        by_cases hc : e.mod.action = .close
        · rw [if_pos hc, ih]
          constructor
          · rintro ⟨x, hx, hr⟩; exact ⟨x, List.mem_cons_of_mem _ hx, hr⟩
          · rintro ⟨x, hx, h1, h2, h3⟩
            rcases List.mem_cons.1 hx with rfl | hx
            · exact absurd hc h2
            · exact ⟨x, hx, h1, h2, h3⟩
        · rw [if_neg hc, List.mem_cons, ih]
          constructor
          · rintro (rfl | ⟨x, hx, hr⟩)
            · exact ⟨e, by simp, h, hc, hp⟩
            · exact ⟨x, List.mem_cons_of_mem _ hx, hr⟩
          · rintro ⟨x, hx, h1, h2, h3⟩
            rcases List.mem_cons.1 hx with rfl | hx
            · rw [hp] at h3; exact .inl (Option.some.inj h3).symm
            · exact .inr ⟨x, hx, h1, h2, h3⟩

/-- **C67** (part): a notification recompiles the paths that deleted documents had before and those that
all other documents of the notification have afterwards, except documents that are closed or opened in another
language; and nothing else. -/
theorem C67_recompiled (s : State) (es : List Entry) (p : Path) : p ∈ (didModify s es).recompile ↔
    (∃ e ∈ es, e.mod.action = .delete ∧ s.uriToPath e.mod.uri = some p) ∨
    (∃ e ∈ es, ¬ (e.mod.action = .open ∧ e.mod.languageID ≠ "protobuf") ∧ e.mod.action ≠ .close ∧
      (didModify s es).state.uriToPath e.mod.uri = some p) := by
  show p ∈ deletedPaths s es ++ changedPaths _ es ↔ _
  rw [List.mem_append, mem_deletedPaths, mem_changedPaths]
  rfl

/-! ### The paths of documents -/

/-- The document that a modification is about. -/
theorem step_pathOf_ne (s : State) (e : Entry) (u : Uri) (h : e.mod.uri ≠ u) : (s.step e.op).pathOf u = s.pathOf u := by
  have h' : u ≠ e.mod.uri := Ne.symm h
  unfold Entry.op
  split
  · rfl
  · rfl
  · unfold State.step
    simp only
    split
    · split
      · rfl
      · simp [upd, h']
      · rfl
      · split
        · split <;> simp [State.setBoth, upd, h']
        · rfl
    · rfl
  · unfold State.step
    simp only
    split
    · split
      · rfl
      · simp [upd, h']
      · rfl
      · split
        · split <;> simp [State.setBoth, upd, h']
        · rfl
    · rfl
  · unfold State.step
    simp only
    split <;> simp [State.setBoth, upd, h']
  · unfold State.step
    simp [upd, h']

theorem run_pathOf_ne (es : List Entry) : ∀ (s : State) (u : Uri), (∀ e ∈ es, e.mod.uri ≠ u) →
    (updateMappings s es).pathOf u = s.pathOf u := by
  induction es with
  | nil => intro s u _; rfl
  | cons e es ih =>
    intro s u h
    have : updateMappings s (e :: es) = updateMappings (s.step e.op) es := rfl
    rw [this, ih _ u (fun x hx => h x (List.mem_cons_of_mem _ hx)), step_pathOf_ne s e u (h e (by simp))]

/-- **C67** (part): documents that a notification is not about keep their paths. -/
theorem C67_others_kept (s : State) (es : List Entry) (u : Uri) (h : ∀ e ∈ es, e.mod.uri ≠ u) :
    (didModify s es).state.uriToPath u = s.uriToPath u := run_pathOf_ne es s u h

theorem updateMappings_append (s : State) (a b : List Entry) : updateMappings s (a ++ b) = updateMappings (updateMappings s a) b := by
  simp [updateMappings, State.run]

/-- **C67** (part): a document whose last modification in a notification is its deletion has no path afterwards, whatever
the state was. -/
theorem C67_forgotten (s : State) (pre post : List Entry) (e : Entry) (hd : e.mod.action = .delete)
    (h : ∀ x ∈ post, x.mod.uri ≠ e.mod.uri) : (didModify s (pre ++ e :: post)).state.uriToPath e.mod.uri = none := by
  show (updateMappings s (pre ++ e :: post)).pathOf e.mod.uri = none
  rw [updateMappings_append]
  have : updateMappings (updateMappings s pre) (e :: post) = updateMappings ((updateMappings s pre).step e.op) post := rfl
  rw [this, run_pathOf_ne post _ _ h]
  have : e.op = .delete e.mod.uri := by simp [Entry.op, hd]
  rw [this]
  simp [State.step, upd]

/-- **C67** (part): a document whose last modification in a notification is its creation has a path afterwards: that of its Go
module, or its path in the folder, if the file can be opened and looked up. -/
theorem C67_created (s : State) (pre post : List Entry) (e : Entry) (hd : e.mod.action = .create)
    (h : ∀ x ∈ post, x.mod.uri ≠ e.mod.uri) : ((e.lookup = .noModule → (didModify s (pre ++ e :: post)).state.uriToPath e.mod.uri = some e.rel) ∧
      ∀ p, e.lookup = .found p → (didModify s (pre ++ e :: post)).state.uriToPath e.mod.uri = some p) := by
  have key : (didModify s (pre ++ e :: post)).state.uriToPath e.mod.uri =
      ((updateMappings s pre).step (.create e.mod.uri e.lookup e.rel)).pathOf e.mod.uri := by
    show (updateMappings s (pre ++ e :: post)).pathOf e.mod.uri = _
    rw [updateMappings_append]
    have : updateMappings (updateMappings s pre) (e :: post) = updateMappings ((updateMappings s pre).step e.op) post := rfl
    rw [this, run_pathOf_ne post _ _ h]
    have : e.op = .create e.mod.uri e.lookup e.rel := by simp [Entry.op, hd]
    rw [this]
  rw [key]
  refine ⟨fun hl => ?_, fun p hl => ?_⟩ <;> rw [hl] <;> simp [State.step, State.setBoth, upd]

/-! ### The batch -/

/-- Specification: a notification in which no document occurs twice. -/
def Distinct (es : List Entry) : Prop := (es.map (fun e => e.mod.uri)).Nodup

theorem delete_unresolvable {s : State} {es : List Entry} (hd : Distinct es) {e : Entry} (he : e ∈ es)
    (ha : e.mod.action = .delete) : (updateMappings s es).uriToPath e.mod.uri = none := by
  obtain ⟨pre, post, rfl⟩ := List.append_of_mem he
  refine C67_forgotten s pre post e ha ?_
  intro x hx hxe
  unfold Distinct at hd
  simp only [List.map_append, List.map_cons] at hd
  have h1 := (List.nodup_append.1 hd).2.1
  have h2 := (List.nodup_cons.1 h1).1
  exact h2 (List.mem_map.2 ⟨x, hx, hxe⟩)

/-- **C67** (partial): a notification in which every document occurs once, at most one is deleted and all others have a path
afterwards: the deletion is left out of the batch and everything else is processed in order. Missing: several
deletions, see `C67_delete_violated` and `C67_rename_violated`. -/
theorem C67_batch_partial (s : State) (es : List Entry) (hd : Distinct es)
    (h1 : (es.filter (fun e => decide (e.mod.action = .delete))).length ≤ 1)
    (h2 : ∀ e ∈ es, e.mod.action ≠ .delete → (didModify s es).state.uriToPath e.mod.uri ≠ none) :
    (didModify s es).batch = .ok ((es.map Entry.mod).filter (fun m => decide (m.action ≠ .delete))) := by
  have key : ∀ e ∈ es, Unresolvable (fun u => ((updateMappings s es).uriToPath u).isSome) e.mod ↔ e.mod.action = .delete := by
    intro e he
    constructor
    · intro hu
      by_cases ha : e.mod.action = .delete
      · exact ha
      · have := h2 e he ha
        have hu := hu.1
        cases hp : (updateMappings s es).uriToPath e.mod.uri with
        | none => exact absurd hp this
        | some q => simp [hp] at hu
    · intro ha
      refine ⟨by simp [delete_unresolvable hd he ha], fun ho => ?_⟩
      rw [ha] at ho; cases ho
  have e1 : (es.map Entry.mod).filter (fun m => decide (Unresolvable (fun u => ((updateMappings s es).uriToPath u).isSome) m)) =
      (es.map Entry.mod).filter (fun m => decide (m.action = .delete)) := by
    apply List.filter_congr
    intro m hm
    obtain ⟨e, he, rfl⟩ := List.mem_map.1 hm
    simp only [key e he]
  have e2 : (es.map Entry.mod).filter (fun m => !decide (Unresolvable (fun u => ((updateMappings s es).uriToPath u).isSome) m)) =
      (es.map Entry.mod).filter (fun m => decide (m.action ≠ .delete)) := by
    apply List.filter_congr
    intro m hm
    obtain ⟨e, he, rfl⟩ := List.mem_map.1 hm
    simp [key e he]
  show processedBatch _ _ = _
  rw [C06_drop_at_most_one_partial, e2]
  rw [e1, List.filter_map, List.length_map]
  exact h1

theorem toDelete_all (resolves : String → Bool) (ms : List Modification) (h : ∀ m ∈ ms, isDropped resolves m = true) :
    ∀ i, toDelete resolves i ms = (List.range ms.length).map (· + i) := by
  induction ms with
  | nil => intro i; rfl
  | cons m ms ih =>
    intro i
    unfold toDelete
    rw [if_pos (h m (by simp)), ih (fun x hx => h x (List.mem_cons_of_mem _ hx)), List.length_cons, List.range_succ_eq_map, List.map_cons,
      List.map_map, Nat.zero_add]
    congr 1
    apply List.map_congr_left
    intro a _
    simp; omega

/-- Deleting more entries than are left ends in a panic. -/
theorem deleteAll_panic {α : Type} (is : List Nat) : ∀ (l : List α), (∃ i, is.getLast? = some i ∧ l.length + 1 ≤ i + is.length) →
    deleteAll l is = .panic := by
  induction is with
  | nil => rintro l ⟨i, hi, _⟩; cases hi
  | cons j is ih =>
    rintro l ⟨i, hi, hl⟩
    unfold deleteAll sliceDelete
    by_cases hj : j + 1 ≤ l.length
    · rw [if_pos hj]
      simp only
      cases is with
      | nil =>
        cases hi
        simp at hl
        omega
      | cons k is =>
        refine ih _ ⟨i, by rwa [List.getLast?_cons_cons] at hi, ?_⟩
        simp only [List.length_append, List.length_take, List.length_drop, List.length_cons] at hl ⊢
        omega
    · rw [if_neg hj]

/-- The code violates C67: a notification of two or more deleted files always crashes the server. -/
theorem C67_delete_violated (s : State) (uris : List Uri) (hn : uris.Nodup) (h : 2 ≤ uris.length) :
    (didModify s (deleteEntries uris)).batch = .panic := by
  have hd : Distinct (deleteEntries uris) := by
    unfold Distinct deleteEntries
    rw [List.map_map]
    simpa [Function.comp_def] using hn
  have hall : ∀ m ∈ (deleteEntries uris).map Entry.mod,
      isDropped (fun u => ((updateMappings s (deleteEntries uris)).uriToPath u).isSome) m = true := by
    intro m hm
    obtain ⟨e, he, rfl⟩ := List.mem_map.1 hm
    have ha : e.mod.action = .delete := by
      obtain ⟨u, _, rfl⟩ := List.mem_map.1 he
      rfl
    rw [isDropped_iff, decide_eq_true_eq]
    refine ⟨by simp [delete_unresolvable hd he ha], fun ho => ?_⟩
    rw [ha] at ho; cases ho
  show processedBatch _ _ = _
  unfold processedBatch
  rw [toDelete_all _ _ hall]
  have hlen : ((deleteEntries uris).map Entry.mod).length = uris.length := by simp [deleteEntries]
  apply deleteAll_panic
  refine ⟨uris.length - 1, ?_, ?_⟩
  · rw [hlen, List.getLast?_map, List.getLast?_range]
    rw [if_neg (by omega)]
    rfl
  · rw [hlen]
    simp only [List.length_map, List.length_range]
    omega

/-- The code violates C67: when two files are renamed, the creation of the second one is not processed, but the deletion of
its old name is; for all (different) names, whatever the paths of the new files. -/
theorem C67_rename_violated (s : State) (o1 n1 o2 n2 : Uri) (p1 p2 r1 r2 : Path) (hn : [o1, n1, o2, n2].Nodup) :
    (didModify s (renameEntries [(o1, n1, .found p1, r1), (o2, n2, .found p2, r2)])).batch =
      .ok [{ uri := n1, action := .create, version := -1, languageID := "" },
           { uri := o2, action := .delete, version := -1, languageID := "" }] := by
  have hd : Distinct (renameEntries [(o1, n1, .found p1, r1), (o2, n2, .found p2, r2)]) := hn
  simp only [List.nodup_cons, List.mem_cons, List.not_mem_nil, or_false, not_or] at hn
  obtain ⟨⟨h1, h2, h3⟩, ⟨h4, h5⟩, h6, -⟩ := hn
  show processedBatch _ _ = _
  have e : renameEntries [(o1, n1, .found p1, r1), (o2, n2, .found p2, r2)] =
      [{ mod := { uri := o1, action := .delete, version := -1, languageID := "" } },
       { mod := { uri := n1, action := .create, version := -1, languageID := "" }, lookup := .found p1, rel := r1 },
       { mod := { uri := o2, action := .delete, version := -1, languageID := "" } },
       { mod := { uri := n2, action := .create, version := -1, languageID := "" }, lookup := .found p2, rel := r2 }] := rfl
  have u1 := delete_unresolvable (s := s) hd (e := { mod := { uri := o1, action := .delete, version := -1, languageID := "" } }) (by rw [e]; simp) rfl
  have u2 := delete_unresolvable (s := s) hd (e := { mod := { uri := o2, action := .delete, version := -1, languageID := "" } }) (by rw [e]; simp) rfl
  have c1 := (C67_created s [{ mod := { uri := o1, action := .delete, version := -1, languageID := "" } }]
    [{ mod := { uri := o2, action := .delete, version := -1, languageID := "" } },
       { mod := { uri := n2, action := .create, version := -1, languageID := "" }, lookup := .found p2, rel := r2 }]
    { mod := { uri := n1, action := .create, version := -1, languageID := "" }, lookup := .found p1, rel := r1 } rfl
    (by intro x hx; simp at hx; rcases hx with rfl | rfl <;> simp_all [eq_comm])).2 p1 rfl
  have c2 := (C67_created s [{ mod := { uri := o1, action := .delete, version := -1, languageID := "" } },
       { mod := { uri := n1, action := .create, version := -1, languageID := "" }, lookup := .found p1, rel := r1 },
       { mod := { uri := o2, action := .delete, version := -1, languageID := "" } }] []
    { mod := { uri := n2, action := .create, version := -1, languageID := "" }, lookup := .found p2, rel := r2 } rfl
    (by intro x hx; cases hx)).2 p2 rfl
  rw [e] at u1 u2
  have c1 : (updateMappings s [{ mod := { uri := o1, action := .delete, version := -1, languageID := "" } },
       { mod := { uri := n1, action := .create, version := -1, languageID := "" }, lookup := .found p1, rel := r1 },
       { mod := { uri := o2, action := .delete, version := -1, languageID := "" } },
       { mod := { uri := n2, action := .create, version := -1, languageID := "" }, lookup := .found p2, rel := r2 }]).uriToPath n1 = some p1 := c1
  have c2 : (updateMappings s [{ mod := { uri := o1, action := .delete, version := -1, languageID := "" } },
       { mod := { uri := n1, action := .create, version := -1, languageID := "" }, lookup := .found p1, rel := r1 },
       { mod := { uri := o2, action := .delete, version := -1, languageID := "" } },
       { mod := { uri := n2, action := .create, version := -1, languageID := "" }, lookup := .found p2, rel := r2 }]).uriToPath n2 = some p2 := c2
  rw [e]
  unfold processedBatch
  simp only [List.map_cons, List.map_nil, toDelete, isDropped, u1, u2, c1, c2]
  simp [deleteAll, sliceDelete]

/-! ### Examples -/

/-- A server that knows two documents. -/
def sample : State := State.empty.run [.create "a" .noModule ['a'], .create "b" (.found ['m', '/', 'b']) ['b']]

/-- One file renamed: processed as it should be. -/
example : (didModify sample (renameEntries [("a", "c", .noModule, ['c'])])).batch =
    .ok [{ uri := "c", action := .create, version := -1, languageID := "" }] := by decide

example : (didModify sample (renameEntries [("a", "c", .noModule, ['c'])])).recompile = [['a'], ['c']] := by decide

example : Distinct (renameEntries [("a", "c", .noModule, ['c'])]) := by unfold Distinct; decide

example : (didModify sample (deleteEntries ["a", "b"])).batch = .panic := by decide

end Verif.FileEvents
