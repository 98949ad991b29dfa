import Verif.Model.Resolver

/-!
# C10, C11, C12, C59
-/
namespace Verif.Resolver

/-! ## C10: URIs and paths -/

/-- The path is usable for document `u`: non-empty, without `;`, and not the path of
another document at present. -/
def Fresh (s : State) (u : Uri) (p : Path) : Prop :=
  p ≠ [] ∧ ';' ∉ p ∧ ∀ v, v ≠ u → s.uriToPath v ≠ some p

/-- Every path a modification assigns is usable at the time. -/
def Admissible (s : State) : Op → Prop
  | .change u (.found p) => Fresh s u p
  | .create u .noModule rel => Fresh s u rel
  | .create u (.found p) _ => Fresh s u p
  | .translate u p _ => Fresh s u p
  | _ => True

/-- All modifications of a history are admissible when they happen. -/
def AdmissibleRun : State → List Op → Prop
  | _, [] => True
  | s, op :: ops => Admissible s op ∧ AdmissibleRun (s.step op) ops

/-- A document is (re-)created or re-resolved only if it has no path yet or keeps it. -/
def NoRecreate (s : State) : Op → Prop
  | .create u .noModule rel => s.uriToPath u = none ∨ s.uriToPath u = some rel
  | .create u (.found p) _ => s.uriToPath u = none ∨ s.uriToPath u = some p
  | .translate u p _ => s.uriToPath u = none ∨ s.uriToPath u = some p
  | _ => True

def NoRecreateRun : State → List Op → Prop
  | _, [] => True
  | s, op :: ops => NoRecreate s op ∧ NoRecreateRun (s.step op) ops

/-- Invariant: path-to-document is a left inverse of document-to-path. -/
def Inv (s : State) : Prop :=
  ∀ u p, s.pathOf u = some p → s.uriOf p = some u ∧ p ≠ [] ∧ ';' ∉ p

/-- Invariant for the other direction. -/
def InvB (s : State) : Prop := ∀ p u, s.uriOf p = some u → s.pathOf u = some p

theorem Inv.setBoth {s : State} (h : Inv s) {u : Uri} {p : Path} (hf : Fresh s u p) :
    Inv (s.setBoth u p) := by
  obtain ⟨h1, h2, h3⟩ := hf
  intro v q hq
  simp only [State.setBoth, upd] at hq ⊢
  by_cases hv : v = u
  · subst hv
    simp at hq; subst hq; simp [h1, h2]
  · simp only [hv, if_false] at hq
    have hqp : q ≠ p := fun e => h3 v hv (by simpa [State.uriToPath, e] using hq)
    simpa [hqp] using h v q hq

theorem Inv.remove {s : State} (h : Inv s) (u : Uri) (src : Uri → Option ImportSource) :
    Inv { pathOf := upd s.pathOf u none, uriOf := upd s.uriOf (goGet (s.pathOf u)) none,
          sourceOf := src } := by
  intro v q hq
  simp only [upd] at hq ⊢
  by_cases hv : v = u
  · simp [hv] at hq
  · simp only [hv, if_false] at hq
    obtain ⟨hi, hne, hs⟩ := h v q hq
    refine ⟨?_, hne, hs⟩
    have : q ≠ goGet (s.pathOf u) := by
      intro e
      cases hp : s.pathOf u with
      | none => rw [hp] at e; exact hne e
      | some q' =>
        rw [hp] at e
        have e' : q = q' := e
        subst e'
        rw [(h u q hp).1] at hi
        exact hv (Option.some.inj hi).symm
    simpa [this] using hi

theorem Inv.step {s : State} (h : Inv s) (op : Op) (ha : Admissible s op) : Inv (s.step op) := by
  cases op with
  | open_ u => exact h
  | close u => exact h
  | change u l =>
    simp only [State.step]
    split
    · cases l with
      | openFailed => exact h
      | failed => exact h
      | noModule => exact h.remove u _
      | found p =>
        simp only
        split
        · rename_i hne
          have hset := h.setBoth ha
          split
          · rename_i hex
            intro v q hq
            obtain ⟨hi, hn, hs⟩ := hset v q hq
            refine ⟨?_, hn, hs⟩
            have : q ≠ goGet (s.pathOf u) := by
              intro e
              cases hp : s.pathOf u with
              | none => rw [hp] at hex; exact hex rfl
              | some q' =>
                rw [hp] at e hne
                have e' : q = q' := e
                subst e'
                have hne' : p ≠ q := hne
                have hold := (h u q hp).1
                have hvu : v = u := by
                  simp only [State.setBoth, upd] at hq
                  by_cases hv : v = u
                  · exact hv
                  · simp only [hv, if_false] at hq
                    have := (h v q hq).1
                    rw [hold] at this
                    exact (Option.some.inj this).symm
                subst hvu
                simp [State.setBoth, upd] at hq
                exact hne' hq
            simp only [upd, this, if_false]
            exact hi
          · exact hset
        · exact h
    · exact h
  | create u l rel =>
    cases l with
    | openFailed => exact h
    | failed => exact h
    | noModule => exact (h.setBoth ha)
    | found p => exact (h.setBoth ha)
  | delete u => exact h.remove u _
  | translate u p src => exact (h.setBoth ha)

theorem Inv.run {s : State} (h : Inv s) (ops : List Op) (ha : AdmissibleRun s ops) :
    Inv (s.run ops) := by
  induction ops generalizing s with
  | nil => exact h
  | cons op ops ih => exact ih (h.step op ha.1) ha.2

theorem InvB.setBoth {s : State} (h : InvB s) {u : Uri} {p : Path}
    (hf : Fresh s u p) (hn : s.pathOf u = none ∨ s.pathOf u = some p) :
    InvB (s.setBoth u p) := by
  intro q v hq
  simp only [State.setBoth, upd] at hq ⊢
  by_cases hqp : q = p
  · subst hqp; simp at hq; subst hq; simp
  · simp only [hqp, if_false] at hq
    have hv := h q v hq
    by_cases hvu : v = u
    · subst hvu
      rcases hn with hn | hn
      · rw [hn] at hv; cases hv
      · rw [hn] at hv; exact absurd (Option.some.inj hv).symm hqp
    · simpa [hvu] using hv

theorem InvB.remove {s : State} (h : InvB s) (u : Uri) (src : Uri → Option ImportSource) :
    InvB { pathOf := upd s.pathOf u none, uriOf := upd s.uriOf (goGet (s.pathOf u)) none,
           sourceOf := src } := by
  intro q v hq
  simp only [upd] at hq ⊢
  by_cases e : q = goGet (s.pathOf u)
  · simp [e] at hq
  · simp only [e, if_false] at hq
    have hv := h q v hq
    by_cases hvu : v = u
    · subst hvu; rw [hv] at e; exact absurd rfl e
    · simpa [hvu] using hv

theorem InvB.step {s : State} (hi : Inv s) (h : InvB s) (op : Op) (ha : Admissible s op)
    (hn : NoRecreate s op) : InvB (s.step op) := by
  cases op with
  | open_ u => exact h
  | close u => exact h
  | change u l =>
    simp only [State.step]
    split
    · cases l with
      | openFailed => exact h
      | failed => exact h
      | noModule => exact h.remove u _
      | found p =>
        simp only
        split
        · rename_i hne
          cases hp : s.pathOf u with
          | none =>
            simp only [goGet, Option.getD_none, ne_eq, not_true_eq_false, if_false]
            exact h.setBoth ha (Or.inl hp)
          | some q =>
            have hq := hi u q hp
            simp only [goGet, Option.getD_some, ne_eq, hq.2.1, not_false_eq_true, if_true]
            intro r v hr
            simp only [State.setBoth, upd] at hr ⊢
            by_cases hrq : r = q
            · simp [hrq] at hr
            · simp only [hrq, if_false] at hr
              by_cases hrp : r = p
              · subst hrp; simp at hr; subst hr; simp
              · simp only [hrp, if_false] at hr
                have hv := h r v hr
                by_cases hvu : v = u
                · subst hvu; rw [hp] at hv; exact absurd (Option.some.inj hv).symm hrq
                · simpa [hvu] using hv
        · exact h
    · exact h
  | create u l rel =>
    cases l with
    | openFailed => exact h
    | failed => exact h
    | noModule => exact h.setBoth ha hn
    | found p => exact h.setBoth ha hn
  | delete u => exact h.remove u _
  | translate u p src => exact h.setBoth ha hn

theorem InvB.run {s : State} (hi : Inv s) (h : InvB s) (ops : List Op) (ha : AdmissibleRun s ops)
    (hn : NoRecreateRun s ops) : InvB (s.run ops) := by
  induction ops generalizing s with
  | nil => exact h
  | cons op ops ih => exact ih (hi.step op ha.1) (h.step hi op ha.1 hn.1) ha.2 hn.2

theorem Inv.empty : Inv State.empty := fun _ _ h => by simp [State.empty] at h
theorem InvB.empty : InvB State.empty := fun _ _ h => by simp [State.empty] at h

theorem takeWhile_noSemi (p : Path) (h : ';' ∉ p) : p.takeWhile (· ≠ ';') = p := by
  induction p with
  | nil => rfl
  | cons c t ih =>
    simp only [List.mem_cons, not_or] at h
    have hc : (decide (c ≠ ';')) = true := by simpa using fun e => h.1 e.symm
    rw [List.takeWhile_cons, if_pos hc, ih h.2]

/-- C10, partial: as long as no modification assigns a path that another document
currently has (nor an empty path or one with a `;`), the document found for a
document's path is that document, after any history. Missing: histories in which two
documents get the same path (see `C10_shared_path_violated`). -/
theorem C10_round_trip_partial (ops : List Op) (h : AdmissibleRun State.empty ops)
    (u : Uri) (p : Path) (hp : (State.empty.run ops).uriToPath u = some p) :
    (State.empty.run ops).pathToURI p = some u := by
  obtain ⟨h1, _, h3⟩ := Inv.run Inv.empty ops h u p hp
  rw [State.pathToURI, takeWhile_noSemi p h3]; exact h1

/-- C10, partial: if moreover documents are not created again under another path, the
two lookups are inverse to each other. -/
theorem C10_inverse_partial (ops : List Op) (h : AdmissibleRun State.empty ops)
    (hn : NoRecreateRun State.empty ops) (u : Uri) (p : Path) (hp : ';' ∉ p) :
    (State.empty.run ops).uriToPath u = some p ↔ (State.empty.run ops).pathToURI p = some u := by
  constructor
  · exact C10_round_trip_partial ops h u p
  · intro hq
    rw [State.pathToURI, takeWhile_noSemi p hp] at hq
    exact InvB.run Inv.empty InvB.empty ops h hn p u hq

/-- C10, partial (unconditional part): directly after a document was created or resolved
under a path without `;`, both lookups agree on it, whatever happened before. -/
theorem C10_after_create_partial (ops : List Op) (u : Uri) (p rel : Path) (hp : ';' ∉ p) :
    let s := State.empty.run (ops ++ [.create u (.found p) rel])
    s.uriToPath u = some p ∧ s.pathToURI p = some u := by
  have e : p.takeWhile (· ≠ ';') = p := takeWhile_noSemi p hp
  simp only [State.run, List.foldl_append, List.foldl_cons, List.foldl_nil, State.step,
    State.setBoth, State.uriToPath, State.pathToURI, upd, e, if_true, and_self]

/-- C10, partial: a document that has its path because of its `go_package` gets a new path when the `go_package`
changes; the old path leads nowhere then. -/
theorem C10_after_change_partial (ops : List Op) (u : Uri) (p q rel : Path) (hp : ';' ∉ p) (hq : ';' ∉ q) :
    let s := State.empty.run (ops ++ [.create u (.found p) rel, .change u (.found q)])
    s.uriToPath u = some q ∧ s.pathToURI q = some u ∧ (p ≠ q → p ≠ [] → s.pathToURI p = none) := by
  have e : p.takeWhile (· ≠ ';') = p := takeWhile_noSemi p hp
  have e2 : q.takeWhile (· ≠ ';') = q := takeWhile_noSemi q hq
  simp only [State.run, List.foldl_append, List.foldl_cons, List.foldl_nil, State.step, State.setBoth,
    State.uriToPath, State.pathToURI, upd, e, e2, if_true, goGet, Option.getD_some]
  by_cases h : q = p
  · subst h; simp [upd]
  · by_cases h0 : p = []
    · subst h0; simp [upd, h]
    · simp [upd, h, h0]

/-- C10 (part): the path of an imported document changes with its `go_package` exactly if it was found by means of the
Go module of the workspace; every other imported document keeps its path. -/
theorem C10_after_import (ops : List Op) (u : Uri) (p q : Path) (src : ImportSource) :
    (State.empty.run (ops ++ [.translate u p src, .change u (.found q)])).uriToPath u =
      some (if src = .localGoModule then q else p) := by
  simp only [State.run, List.foldl_append, List.foldl_cons, List.foldl_nil, State.step, State.setBoth,
    State.uriToPath, upd, if_true, goGet, Option.getD_some, Option.some.injEq]
  by_cases hs : src = .localGoModule
  · subst hs
    by_cases h : q = p
    · subst h; simp [upd]
    · by_cases h0 : p = []
      · subst h0; simp [upd, h]
      · simp [upd, h, h0]
  · simp [upd, hs]

/-- C10 (part): a document that has its path because of its place in the workspace keeps it when it changes. -/
theorem C10_change_keeps (ops : List Op) (u : Uri) (rel : Path) (l : Lookup) :
    (State.empty.run (ops ++ [.create u .noModule rel, .change u l])).uriToPath u = some rel := by
  simp [State.run, State.step, State.setBoth, State.uriToPath, upd]

/-- A deleted document has no path, whatever happened before. -/
theorem C10_after_delete (ops : List Op) (u : Uri) :
    (State.empty.run (ops ++ [.delete u])).uriToPath u = none := by
  simp [State.run, State.step, State.uriToPath, upd]

/-- C10 is violated: two documents with the same file name and the same go_package get
the same path; the path of the first one then leads to the second one, and after the
second one is deleted the first one's path leads nowhere. -/
theorem C10_shared_path_violated :
    let p := "ex.com/m/a.proto".toList
    let s := State.empty.run [.create "file:///x/a.proto" (.found p) [],
      .create "file:///y/a.proto" (.found p) []]
    (s.uriToPath "file:///x/a.proto" = some p ∧ s.pathToURI p = some "file:///y/a.proto") ∧
    (s.step (.delete "file:///y/a.proto")).uriToPath "file:///x/a.proto" = some p ∧
    (s.step (.delete "file:///y/a.proto")).pathToURI p = none := by
  decide

/-- C10 is violated also in the other direction: creating a document again with another
go_package leaves the old path behind, pointing to the document. -/
theorem C10_stale_path_violated :
    let p := "ex.com/old/a.proto".toList
    let q := "ex.com/new/a.proto".toList
    let s := State.empty.run [.create "file:///x/a.proto" (.found p) [],
      .create "file:///x/a.proto" (.found q) []]
    s.pathToURI p = some "file:///x/a.proto" ∧ s.uriToPath "file:///x/a.proto" = some q := by
  decide

/-- C10 is violated for file names with a `;`: the path of the document is not found. -/
theorem C10_semicolon_violated :
    let p := "dir/a;b.proto".toList
    let s := State.empty.run [.create "file:///ws/dir/a;b.proto" .noModule p]
    s.uriToPath "file:///ws/dir/a;b.proto" = some p ∧ s.pathToURI p = none := by
  decide

/-- Non-trivial case: two documents, one re-mapped, one deleted. -/
example : AdmissibleRun State.empty
      [.create "u" (.found "m/a".toList) [], .create "v" .noModule "b".toList,
       .change "u" (.found "n/a".toList), .delete "v", .create "v" (.found "m/a".toList) []] ∧
    NoRecreateRun State.empty
      [.create "u" (.found "m/a".toList) [], .create "v" .noModule "b".toList,
       .change "u" (.found "n/a".toList), .delete "v", .create "v" (.found "m/a".toList) []] := by
  constructor
  · refine ⟨⟨by decide, by decide, fun v hv => ?_⟩, ⟨by decide, by decide, fun v hv => ?_⟩,
      ⟨by decide, by decide, fun v hv => ?_⟩, trivial, ⟨by decide, by decide, fun v hv => ?_⟩, trivial⟩
    · simp [State.uriToPath, State.empty]
    · simp only [State.uriToPath, State.step, State.setBoth, upd, State.empty]
      split <;> simp
    · simp only [State.uriToPath, State.step, State.setBoth, upd, State.empty]
      split
      · simp
      · simp
    · by_cases hu : v = "u" <;>
        simp [State.uriToPath, State.step, State.setBoth, upd, State.empty, goGet, hu, hv]
  · refine ⟨Or.inl rfl, Or.inl ?_, trivial, trivial, Or.inl ?_, trivial⟩ <;> decide

/-! ## C11: suffix matching -/

/-- The first `n` directories of `target` stand in `source` from position `start` on. -/
def Overlaps (target source : List Str) (start n : Nat) : Prop :=
  n ≤ target.length ∧ n ≤ (source.drop start).length ∧
    target.take n = (source.drop start).take n

theorem le_scoreAt (target src : List Str) (n : Nat) :
    n ≤ scoreAt target src ↔ n ≤ target.length ∧ n ≤ src.length ∧ target.take n = src.take n := by
  induction src generalizing target n with
  | nil => cases n <;> simp [scoreAt]
  | cons s ss ih =>
    cases target with
    | nil => cases n <;> simp [scoreAt]
    | cons t ts =>
      cases n with
      | zero => simp
      | succ n =>
        simp only [scoreAt]
        split
        · rename_i h
          simp [ih ts n, h]
        · rename_i h
          simp [h]

theorem overlaps_iff (target source : List Str) (start n : Nat) :
    Overlaps target source start n ↔ n ≤ scoreAt target (source.drop start) :=
  (le_scoreAt _ _ _).symm

theorem appendBoth_snd (a : List Str) (start : Nat) (t : List Str) (b : Str) :
    (appendBoth a start t b).2 = a.take start ++ t ++ [b] := by
  simp only [appendBoth, appendInto]
  split <;> simp

theorem appendBoth_take (a : List Str) (start : Nat) (t : List Str) (b : Str)
    (h : start ≤ a.length) :
    (appendBoth a start t b).1.take start = a.take start ∧
    (appendBoth a start t b).1.length = a.length := by
  simp only [appendBoth, appendInto]
  split
  · rename_i hle
    simp only
    split
    · rename_i h2
      simp only [List.length_append, List.length_take, List.length_drop, List.length_cons,
        List.length_nil] at h2 ⊢
      constructor
      · rw [List.take_append, List.take_append, List.take_take]
        simp [List.take_append, h]
      · omega
    · simp only [List.length_append, List.length_take, List.length_drop]
      constructor
      · simp [h]
      · omega
  · simp

theorem appendBoth_far (a : List Str) (start : Nat) (t : List Str) (b : Str)
    (h : a.length < start + t.length) : (appendBoth a start t b).1 = a := by
  simp only [appendBoth, appendInto]
  rw [if_neg (by omega), if_neg (by omega)]

theorem score_pos_congr (target a s : List Str) (start : Nat) (hs : start < a.length)
    (hl : a.length = s.length) (h : a.take (start + 1) = s.take (start + 1)) :
    0 < scoreAt target (a.drop start) ↔ 0 < scoreAt target (s.drop start) := by
  have ha : a.drop start = a[start] :: a.drop (start + 1) := List.drop_eq_getElem_cons hs
  have hs' : s.drop start = s[start]'(hl ▸ hs) :: s.drop (start + 1) :=
    List.drop_eq_getElem_cons (hl ▸ hs)
  have e : a[start] = s[start]'(hl ▸ hs) := by
    have h1 : (a.take (start + 1))[start]'(by simp; omega) = a[start] := List.getElem_take
    have h2 : (s.take (start + 1))[start]'(by simp; omega) = s[start]'(hl ▸ hs) :=
      List.getElem_take
    rw [← h1, ← h2]; congr 1
  rw [ha, hs', e]
  cases target with
  | nil => simp [scoreAt]
  | cons t ts => simp only [scoreAt]; split <;> simp

theorem collect_spec (target : List Str) (base : Str) (s : List Str) (k : Nat) (a : List Str)
    (hk : k ≤ s.length) (hl : a.length = s.length) (ht : a.take k = s.take k) :
    (∀ m ∈ collect target base k a, ∃ start < k, 0 < scoreAt target (s.drop start) ∧
      m.parts = s.take start ++ target ++ [base]) ∧
    (∀ start < k, 0 < scoreAt target (s.drop start) →
      ∃ m ∈ collect target base k a, m.parts = s.take start ++ target ++ [base]) := by
  induction k generalizing a with
  | zero => simp [collect]
  | succ k ih =>
    have htk : a.take k = s.take k := by
      have := congrArg (List.take k) ht
      simpa [List.take_take, Nat.min_eq_left (Nat.le_succ k)] using this
    have hc := score_pos_congr target a s k (by omega) hl ht
    simp only [collect]
    split
    · rename_i hp
      obtain ⟨t1, t2⟩ := appendBoth_take a k target base (by omega)
      obtain ⟨i1, i2⟩ := ih (appendBoth a k target base).1 (by omega) (by omega) (by rw [t1, htk])
      constructor
      · intro m hm
        rcases List.mem_cons.mp hm with e | hm
        · refine ⟨k, by omega, hc.mp hp, ?_⟩
          rw [e, ← htk]; exact appendBoth_snd a k target base
        · obtain ⟨st, h1, h2⟩ := i1 m hm
          exact ⟨st, by omega, h2⟩
      · intro st hst hsc
        by_cases e : st = k
        · subst e
          refine ⟨_, List.mem_cons_self, ?_⟩
          rw [← htk]; exact appendBoth_snd a st target base
        · obtain ⟨m, hm, e⟩ := i2 st (by omega) hsc
          exact ⟨m, List.mem_cons_of_mem _ hm, e⟩
    · rename_i hp
      obtain ⟨i1, i2⟩ := ih a (by omega) hl htk
      constructor
      · intro m hm
        obtain ⟨st, h1, h2⟩ := i1 m hm
        exact ⟨st, by omega, h2⟩
      · intro st hst hsc
        by_cases e : st = k
        · subst e; exact absurd (hc.mpr hsc) hp
        · exact i2 st (by omega) hsc

theorem scoreAt_pos_lt (target s : List Str) (start : Nat)
    (h : 0 < scoreAt target (s.drop start)) : start < s.length := by
  by_cases hs : start < s.length
  · exact hs
  · rw [List.drop_eq_nil_of_le (by omega)] at h; simp [scoreAt] at h

/-- C11, the decision: the search succeeds exactly if the first target directory occurs
in the source directory. -/
theorem C11_found (target : List Str) (base : Str) (source : List Str) :
    FindSuffix target base source none ↔
      ∀ start, ¬ Overlaps target (fixRoot source) start 1 := by
  simp only [FindSuffix, overlaps_iff]
  obtain ⟨c1, c2⟩ := collect_spec target base (fixRoot source) _ (fixRoot source)
    (Nat.le_refl _) rfl rfl
  constructor
  · intro h st hs
    obtain ⟨m, hm, _⟩ := c2 st (scoreAt_pos_lt _ _ _ hs) hs
    rw [h] at hm; cases hm
  · intro h
    apply List.eq_nil_iff_forall_not_mem.mpr
    intro m hm
    obtain ⟨st, _, hp, _⟩ := c1 m hm
    exact h st hp

/-- C11, partial: the result is always built from the original source directory at a
position where the target overlaps it. Missing: that the overlap is a best one, see
`C11_best_partial` and `C11_best_violated`. -/
theorem C11_candidate_partial (target : List Str) (base : Str) (source parts : List Str)
    (h : FindSuffix target base source (some parts)) :
    ∃ start, Overlaps target (fixRoot source) start 1 ∧
      parts = (fixRoot source).take start ++ target ++ [base] := by
  obtain ⟨m, hm, e, _⟩ := h
  obtain ⟨c1, _⟩ := collect_spec target base (fixRoot source) _ (fixRoot source)
    (Nat.le_refl _) rfl rfl
  obtain ⟨st, _, hp, hs⟩ := c1 m hm
  exact ⟨st, (overlaps_iff _ _ _ _).mpr hp, by rw [← e, hs]⟩

/-- C11: the result for a source with an absolute path is an absolute path: its first part is a slash, if the target is not absolute
itself. -/
theorem C11_absolute (target : List Str) (base : Str) (source parts : List Str) (ht : target.head? ≠ some ['/'])
    (h : FindSuffix target base ([] :: source) (some parts)) : parts.head? = some "/".toList := by
  obtain ⟨start, ho, hp⟩ := C11_candidate_partial target base _ parts h
  cases start with
  | zero =>
    obtain ⟨h1, -, h3⟩ := ho
    cases target with
    | nil => simp at h1
    | cons a t =>
      simp only [fixRoot, List.drop_zero, List.take_succ_cons, List.take_zero, List.cons.injEq, and_true] at h3
      subst h3
      exact absurd rfl ht
  | succ n =>
    rw [hp]
    rfl

example (parts : List Str) (h : FindSuffix [['b']] ['f'] [[], ['a'], ['b']] (some parts)) : parts.head? = some "/".toList :=
  C11_absolute _ _ _ _ (by decide) h

theorem collect_none (target : List Str) (base : Str) (k : Nat) (a s : List Str)
    (hk : k ≤ s.length) (hl : a.length = s.length) (ht : a.take k = s.take k)
    (h : ∀ start < k, ¬ 0 < scoreAt target (s.drop start)) : collect target base k a = [] := by
  apply List.eq_nil_iff_forall_not_mem.mpr
  intro m hm
  obtain ⟨st, h1, h2, _⟩ := (collect_spec target base s k a hk hl ht).1 m hm
  exact h st h1 h2

theorem collect_exact (target : List Str) (base : Str) (s : List Str)
    (hyp : ∀ start, 0 < scoreAt target (s.drop start) →
      s.length < start + target.length ∨ ∀ st' < start, ¬ 0 < scoreAt target (s.drop st'))
    (k : Nat) (hk : k ≤ s.length) :
    (∀ m ∈ collect target base k s, ∃ start < k, m.score = scoreAt target (s.drop start) ∧
      0 < m.score ∧ m.parts = s.take start ++ target ++ [base]) ∧
    (∀ start < k, 0 < scoreAt target (s.drop start) →
      ∃ m ∈ collect target base k s, m.score = scoreAt target (s.drop start)) := by
  induction k with
  | zero => simp [collect]
  | succ k ih =>
    obtain ⟨i1, i2⟩ := ih (by omega)
    simp only [collect]
    split
    · rename_i hp
      have hrest : collect target base k (appendBoth s k target base).1 = collect target base k s := by
        rcases hyp k hp with hf | hn
        · rw [appendBoth_far _ _ _ _ hf]
        · obtain ⟨t1, t2⟩ := appendBoth_take s k target base (by omega)
          rw [collect_none target base k _ s (by omega) t2 t1 hn,
            collect_none target base k s s (by omega) rfl rfl hn]
      rw [hrest]
      constructor
      · intro m hm
        rcases List.mem_cons.mp hm with e | hm
        · subst e
          exact ⟨k, by omega, rfl, hp, appendBoth_snd s k target base⟩
        · obtain ⟨st, h1, h2⟩ := i1 m hm
          exact ⟨st, by omega, h2⟩
      · intro st hst hsc
        by_cases e : st = k
        · subst e; exact ⟨_, List.mem_cons_self, rfl⟩
        · obtain ⟨m, hm, e⟩ := i2 st (by omega) hsc
          exact ⟨m, List.mem_cons_of_mem _ hm, e⟩
    · rename_i hp
      constructor
      · intro m hm
        obtain ⟨st, h1, h2⟩ := i1 m hm
        exact ⟨st, by omega, h2⟩
      · intro st hst hsc
        by_cases e : st = k
        · subst e; exact absurd hsc hp
        · exact i2 st (by omega) hsc

/-- C11, partial: the result is a candidate of best overlap provided that, at every
overlapping position except the first, the target reaches beyond the end of the source
directory (so that Go's `append` does not overwrite the source parts). In particular
this holds if the first target directory occurs only once in the source. -/
theorem C11_best_partial (target : List Str) (base : Str) (source parts : List Str)
    (hyp : ∀ start, Overlaps target (fixRoot source) start 1 →
      (fixRoot source).length < start + target.length ∨
      ∀ st' < start, ¬ Overlaps target (fixRoot source) st' 1)
    (h : FindSuffix target base source (some parts)) :
    ∃ start n, 0 < n ∧ Overlaps target (fixRoot source) start n ∧
      parts = (fixRoot source).take start ++ target ++ [base] ∧
      ∀ st' n', Overlaps target (fixRoot source) st' n' → n' ≤ n := by
  simp only [overlaps_iff] at hyp ⊢
  obtain ⟨m, hm, e, hmax⟩ := h
  obtain ⟨c1, c2⟩ := collect_exact target base (fixRoot source) hyp _ (Nat.le_refl _)
  obtain ⟨st, _, hsc, hpos, hparts⟩ := c1 m hm
  refine ⟨st, m.score, hpos, by omega, by rw [← e, hparts], fun st' n' hn => ?_⟩
  by_cases hz : n' = 0
  · omega
  · have hp : 0 < scoreAt target ((fixRoot source).drop st') := by omega
    obtain ⟨m', hm', e'⟩ := c2 st' (scoreAt_pos_lt _ _ _ hp) hp
    have := hmax m' hm'
    omega

/-- The shortened form of a list of one-letter directories, for the witnesses below. -/
def dirs (s : String) : List Str := s.toList.map (fun c => [c])

/-- C11 is violated: `append` overwrites the source parts, which inflates the score of a
later candidate. Importing `a/a/a/a/x` from a file in `a/a/z/a/a/a`: the only possible
result is the candidate at position 0, which overlaps in two directories, although the
candidate at position 3 overlaps in three. -/
theorem C11_best_violated :
    (∀ r, FindSuffix (dirs "aaaa") "x".toList (dirs "aazaaa") r →
      r = some (dirs "aaaax")) ∧
    FindSuffix (dirs "aaaa") "x".toList (dirs "aazaaa") (some (dirs "aaaax")) ∧
    Overlaps (dirs "aaaa") (dirs "aazaaa") 3 3 ∧
    ¬ Overlaps (dirs "aaaa") (dirs "aazaaa") 0 3 := by
  have hc : collect (dirs "aaaa") "x".toList 6 (dirs "aazaaa") =
      [⟨dirs "aazaaaaaax", 1⟩, ⟨dirs "aazaaaaax", 2⟩, ⟨dirs "aazaaaax", 3⟩,
       ⟨dirs "aaaaax", 1⟩, ⟨dirs "aaaax", 4⟩] := by decide
  have hl : fixRoot (dirs "aazaaa") = dirs "aazaaa" := by decide
  have hlen : (dirs "aazaaa").length = 6 := by decide
  refine ⟨fun r hr => ?_, ?_, by simp [Overlaps, dirs], by simp [Overlaps, dirs]⟩
  · simp only [FindSuffix, hl, hlen, hc] at hr
    cases r with
    | none => simp at hr
    | some parts =>
      obtain ⟨m, hm, e, hmax⟩ := hr
      have h4 := hmax ⟨dirs "aaaax", 4⟩ (by simp)
      simp only [List.mem_cons, List.not_mem_nil, or_false] at hm
      rcases hm with e' | e' | e' | e' | e' <;> subst e' <;> simp at h4 <;> simp [← e]
  · simp only [FindSuffix, hl, hlen, hc]
    exact ⟨⟨dirs "aaaax", 4⟩, by simp, rfl, by simp⟩

/-- Non-trivial case of the hypotheses (the example of the source comment):
`store/storepb/types.proto` imported from `.../thanos/pkg/store/storepb`. -/
example : FindSuffix ["store".toList, "storepb".toList] "types.proto".toList
    ["thanos".toList, "pkg".toList, "store".toList, "storepb".toList]
    (some ["thanos".toList, "pkg".toList, "store".toList, "storepb".toList, "types.proto".toList]) :=
  ⟨⟨["thanos".toList, "pkg".toList, "store".toList, "storepb".toList, "types.proto".toList], 2⟩,
    by decide, rfl, by decide⟩

/-! ## C12: go_package -/

/-- `line` is a go_package option line with value `v`, written with blanks between the
words and without further quotes. -/
def IsGoPackageLine (line v : Str) : Prop :=
  ∃ w1 w2 w3 rest, line = kwOption ++ w1 ++ kwGoPackage ++ w2 ++ '=' :: w3 ++
      '"' :: v ++ '"' :: rest ∧
    (∀ c ∈ w1, isSpace c = true) ∧ (∀ c ∈ w2, isSpace c = true) ∧ (∀ c ∈ w3, isSpace c = true) ∧
    '"' ∉ v ∧ '"' ∉ rest

/-- `line` cannot hold a go_package option: it does not start with `option` or does not
mention `go_package`. -/
def Irrelevant (line : Str) : Prop :=
  ¬ kwOption <+: line ∨ ¬ kwGoPackage <:+: line

theorem scanTo_append (c : Char) (a b d : Str) (h : c ∉ b) :
    scanTo c (a ++ b ++ c :: d) a.length = a.length + b.length := by
  have : (List.drop a.length (a ++ b ++ c :: d)).takeWhile (· ≠ c) = b := by
    rw [List.append_assoc, List.drop_left]
    induction b with
    | nil => simp
    | cons x t ih =>
      simp only [List.mem_cons, not_or] at h
      have hx : decide (x ≠ c) = true := by simpa using fun e => h.1 e.symm
      rw [List.cons_append, List.takeWhile_cons, if_pos hx, ih h.2]
  unfold scanTo
  rw [this]

theorem takeWhile_semi_of_mem (v1 v2 : Str) (h : ';' ∉ v1) :
    (v1 ++ ';' :: v2).takeWhile (· ≠ ';') = v1 := by
  induction v1 with
  | nil => simp
  | cons x t ih =>
    simp only [List.mem_cons, not_or] at h
    have hx : decide (x ≠ ';') = true := by simpa using fun e => h.1 e.symm
    rw [List.cons_append, List.takeWhile_cons, if_pos hx, ih h.2]

theorem slice_append (a v r : Str) (n : Nat) (hn : n = a.length + v.length) :
    slice (a ++ v ++ r) a.length n = v := by
  subst hn
  simp [slice]

theorem not_mem_blank {w : Str} (h : ∀ c ∈ w, isSpace c = true) (c : Char)
    (hc : isSpace c = false) : c ∉ w := fun hm => by simp [h c hm] at hc

/-- The value of a go_package line is found, up to the first `;`. -/
theorem scanLine_value {line v : Str} (h : IsGoPackageLine line v)
    (hv : v.takeWhile (· ≠ ';') ≠ []) : scanLine line = some (v.takeWhile (· ≠ ';')) := by
  obtain ⟨w1, w2, w3, rest, hl, b1, b2, b3, hq, hr⟩ := h
  have n1g : 'g' ∉ kwOption ++ w1 := by
    intro hm
    rcases List.mem_append.mp hm with h | h
    · exact absurd h (by decide)
    · exact not_mem_blank b1 'g' (by decide) h
  -- option prefix
  have hopt : kwOption.isPrefixOf line = true := by
    rw [hl]; simp only [List.append_assoc]
    exact List.isPrefixOf_iff_prefix.mpr ⟨_, rfl⟩
  -- go_package index
  have hidx : indexSub kwGoPackage line = some (kwOption ++ w1).length := by
    have e : line = (kwOption ++ w1) ++ kwGoPackage ++
        (w2 ++ '=' :: w3 ++ '"' :: v ++ '"' :: rest) := by
      rw [hl]; simp
    rw [e]
    exact indexSub_append 'g' "o_package".toList _ _ n1g
  -- '='
  have heq : scanTo '=' line (kwOption ++ w1).length =
      (kwOption ++ w1 ++ kwGoPackage ++ w2).length := by
    have e : line = (kwOption ++ w1) ++ (kwGoPackage ++ w2) ++ '=' ::
        (w3 ++ '"' :: v ++ '"' :: rest) := by rw [hl]; simp
    rw [e, scanTo_append]
    · simp only [List.length_append]; omega
    · intro hm
      rcases List.mem_append.mp hm with h | h
      · exact absurd h (by decide)
      · exact not_mem_blank b2 '=' (by decide) h
  -- opening quote
  have hquo : scanTo '"' line (kwOption ++ w1 ++ kwGoPackage ++ w2).length =
      (kwOption ++ w1 ++ kwGoPackage ++ w2 ++ '=' :: w3).length := by
    have e : line = (kwOption ++ w1 ++ kwGoPackage ++ w2) ++ ('=' :: w3) ++ '"' ::
        (v ++ '"' :: rest) := by rw [hl]; simp
    rw [e, scanTo_append]
    · simp only [List.length_append]
    · intro hm
      rcases List.mem_cons.mp hm with h | h
      · exact absurd h (by decide)
      · exact not_mem_blank b3 '"' (by decide) h
  -- abbreviations
  generalize hpre : kwOption ++ w1 ++ kwGoPackage ++ w2 ++ '=' :: w3 ++ ['"'] = pre
  have hprelen : (kwOption ++ w1 ++ kwGoPackage ++ w2 ++ '=' :: w3).length + 1 =
      pre.length := by
    rw [← hpre]; simp only [List.length_append, List.length_cons, List.length_nil]
  have hline : line = pre ++ v ++ '"' :: rest := by rw [hl, ← hpre]; simp
  have hpresemi : ';' ∉ pre := by
    rw [← hpre]; intro hm
    simp only [List.mem_append, List.mem_cons, List.not_mem_nil, or_false] at hm
    rcases hm with ((((h | h) | h) | h) | h) | h
    · exact absurd h (by decide)
    · exact not_mem_blank b1 ';' (by decide) h
    · exact absurd h (by decide)
    · exact not_mem_blank b2 ';' (by decide) h
    · rcases h with h | h
      · exact absurd h (by decide)
      · exact not_mem_blank b3 ';' (by decide) h
    · exact absurd h (by decide)
  have hlast : lastIndexChar '"' line = some (pre ++ v).length := by
    rw [hline]; exact lastIndexChar_append '"' _ _ hr
  have hnotend : ¬ (kwOption ++ w1 ++ kwGoPackage ++ w2 ++ '=' :: w3).length =
      line.length := by
    rw [hline]; simp only [List.length_append, List.length_cons] at *; omega
  simp only [scanLine, hopt, if_true, hidx, heq, hquo, hlast]
  rw [if_neg hnotend, hprelen]
  by_cases hs : ';' ∈ v
  · -- a `;name` part
    obtain ⟨v1, v2, hv12, hv1⟩ : ∃ v1 v2, v = v1 ++ ';' :: v2 ∧ ';' ∉ v1 := by
      cases hc : cut ';' v with
      | none => exact absurd hs (cut_eq_none.mp hc)
      | some r => exact ⟨r.1, r.2, (cut_eq_some (a := r.1) (b := r.2)).mp hc⟩
    have htw : v.takeWhile (· ≠ ';') = v1 := by rw [hv12]; exact takeWhile_semi_of_mem v1 v2 hv1
    rw [htw] at hv ⊢
    have hsemi : indexChar ';' line = some (pre ++ v1).length := by
      have e : line = (pre ++ v1) ++ (';' :: v2 ++ '"' :: rest) := by rw [hline, hv12]; simp
      rw [e, indexChar_append]
      · simp [indexChar]
      · simp [hpresemi, hv1]
    have hpos : 0 < v1.length := List.length_pos_iff.mpr hv
    have c : pre.length < (pre ++ v1).length ∧ (pre ++ v1).length < (pre ++ v).length := by
      rw [hv12]; simp only [List.length_append, List.length_cons]; omega
    simp only [endIndex, hsemi, if_pos c]
    rw [if_neg (by omega)]
    have e : line = pre ++ v1 ++ (';' :: v2 ++ '"' :: rest) := by rw [hline, hv12]; simp
    rw [e, slice_append _ _ _ _ (by simp)]
  · -- the whole value
    have htw : v.takeWhile (· ≠ ';') = v := takeWhile_noSemi v hs
    rw [htw] at hv ⊢
    have hpos : 0 < v.length := List.length_pos_iff.mpr hv
    have hend : endIndex line pre.length (pre ++ v).length = (pre ++ v).length := by
      rw [endIndex, hline, indexChar_append ';' (pre ++ v) _ (by simp [hpresemi, hs])]
      cases indexChar ';' ('"' :: rest) with
      | none => rfl
      | some j =>
        simp only [Option.map_some]
        rw [if_neg (by omega)]
    have c2 : ¬ (pre ++ v).length ≤ pre.length := by simp only [List.length_append]; omega
    rw [hend, if_neg c2, hline, slice_append _ _ _ _ (by simp)]

theorem scanLine_irrelevant {line : Str} (h : Irrelevant line) : scanLine line = none := by
  simp only [scanLine]
  split
  · rename_i hp
    cases hi : indexSub kwGoPackage line with
    | none => rfl
    | some i =>
      obtain ⟨b, hb, _⟩ := indexSub_infix _ _ _ hi
      rcases h with h | h
      · exact absurd (List.isPrefixOf_iff_prefix.mp hp) h
      · exact absurd ⟨line.take i, b, hb.symm⟩ h
  · rfl

/-- C12, partial: if the first line of the file that may hold a go_package option is one
with a single quoted value, the result is that value up to its first `;`.
Missing: lines with further quotes (`C12_quote_violated`) and values starting with `;`. -/
theorem C12_value_partial (before after : List Str) (line v : Str)
    (hb : ∀ l ∈ before, Irrelevant l) (h : IsGoPackageLine line v)
    (hv : v.takeWhile (· ≠ ';') ≠ []) :
    fastLookup (before ++ line :: after) = some (v.takeWhile (· ≠ ';')) := by
  induction before with
  | nil => simp only [fastLookup, List.nil_append, List.findSome?_cons, scanLine_value h hv]
  | cons l ls ih =>
    have := ih (fun x hx => hb x (List.mem_cons_of_mem _ hx))
    simpa only [fastLookup, List.cons_append, List.findSome?_cons,
      scanLine_irrelevant (hb l List.mem_cons_self)] using this

/-- C12: a file none of whose lines may hold a go_package option has none. -/
theorem C12_nothing (lines : List Str) (h : ∀ l ∈ lines, Irrelevant l) :
    fastLookup lines = none := by
  induction lines with
  | nil => rfl
  | cons l ls ih =>
    simpa only [fastLookup, List.findSome?_cons, scanLine_irrelevant (h l List.mem_cons_self)]
      using ih (fun x hx => h x (List.mem_cons_of_mem _ hx))

/-- C12 is violated: a quote in a trailing comment becomes part of the package. -/
theorem C12_quote_violated :
    IsGoPackageLine "option go_package = \"foo\"; // a bar".toList "foo".toList ∧
    fastLookup ["option go_package = \"foo\"; // a bar".toList] = some "foo".toList ∧
    fastLookup ["option go_package = \"foo\"; // a \"bar\"".toList] = some "foo\"".toList := by
  refine ⟨⟨" ".toList, " ".toList, " ".toList, "; // a bar".toList, ?_⟩, ?_, ?_⟩
  · decide
  · decide
  · decide

/-- C12 is violated: for a value that consists of a package name only, the `;name` part
is returned. -/
theorem C12_name_only_violated :
    fastLookup ["option go_package = \";foo\";".toList] = some ";foo".toList := by decide

/-- Non-trivial case. -/
example : (∀ l ∈ ["syntax = \"proto3\";".toList, "option foo = \"x\";".toList], Irrelevant l) ∧
    IsGoPackageLine "option go_package=\"ex.com/m;name\";".toList "ex.com/m;name".toList ∧
    "ex.com/m;name".toList.takeWhile (· ≠ ';') = "ex.com/m".toList := by
  refine ⟨?_, ⟨" ".toList, [], [], ";".toList, by decide⟩, by decide⟩
  intro l hl
  simp only [List.mem_cons, List.not_mem_nil, or_false] at hl
  rcases hl with h | h <;> subst h
  · exact Or.inl (by decide)
  · refine Or.inr fun hi => ?_
    have : 'g' ∈ "option foo = \"x\";".toList := hi.subset (by simp [kwGoPackage])
    exact absurd this (by decide)

/-! ## C59: workspace-local files -/

/-- The file lies inside the folder. -/
def Inside (folder path : Path) : Prop := ∃ rest, path = folder ++ '/' :: rest

/-- Not synthesized, not from the Go module cache, not a built-in file; exists as a
regular file. -/
def RealFile (d : DocInfo) : Prop :=
  d.isFile = true ∧ d.synthetic = false ∧
  (d.source ≠ some .synthetic ∧ d.source ≠ some .goModuleCache ∧ d.source ≠ some .wellKnown) ∧
  d.readable = true ∧ d.regular = true

/-- C59, partial: what is treated as workspace-local is a real file whose path begins
with the folder's path; conversely every real file inside the folder is. Missing: that
the path continues with `/` (`C59_sibling_violated`). -/
theorem C59_local_partial (folder : Path) (d : DocInfo) :
    (isRealWorkspaceLocal folder d = true → RealFile d ∧ folder <+: d.path) ∧
    (RealFile d → Inside folder d.path → isRealWorkspaceLocal folder d = true) := by
  constructor
  · intro h
    simp only [isRealWorkspaceLocal] at h
    simp only [RealFile]
    split at h
    · cases h
    · split at h
      · cases h
      · split at h
        · cases h
        · split at h
          · cases h
          · split at h
            · cases h
            · refine ⟨?_, List.isPrefixOf_iff_prefix.mp h⟩
              simp_all
  · rintro ⟨h1, h2, ⟨h3, h4, h5⟩, h6, h7⟩ ⟨rest, hr⟩
    have hp : folder.isPrefixOf d.path = true := List.isPrefixOf_iff_prefix.mpr ⟨'/' :: rest, hr.symm⟩
    simp [isRealWorkspaceLocal, h1, h2, h3, h4, h5, h6, h7, hp]

/-- C59, partial: exact when no sibling of the folder has a name starting with the
folder's name, i.e. when the path is the folder's or continues with `/`. -/
theorem C59_exact_partial (folder : Path) (d : DocInfo)
    (h : folder <+: d.path → Inside folder d.path) :
    isRealWorkspaceLocal folder d = true ↔ RealFile d ∧ Inside folder d.path := by
  obtain ⟨h1, h2⟩ := C59_local_partial folder d
  exact ⟨fun hl => ⟨(h1 hl).1, h (h1 hl).2⟩, fun ⟨a, b⟩ => h2 a b⟩

/-- C59 is violated: a file in `/ws2` is workspace-local for the folder `/ws`. -/
theorem C59_sibling_violated :
    let d : DocInfo := ⟨true, false, none, true, true, "/ws2/a.proto".toList⟩
    isRealWorkspaceLocal "/ws".toList d = true ∧ ¬ Inside "/ws".toList d.path := by
  refine ⟨by decide, ?_⟩
  rintro ⟨rest, h⟩
  simp at h

example : RealFile ⟨true, false, some .localGoModule, true, true, "/ws/a.proto".toList⟩ ∧
    Inside "/ws".toList "/ws/a.proto".toList :=
  ⟨by simp [RealFile], "a.proto".toList, by decide⟩

end Verif.Resolver
