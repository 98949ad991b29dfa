import Verif.Lemmas.CursorPath

/-!
# C75: the node a cursor is in, and the nodes a selection covers
-/
namespace Verif.CursorPath

/-- C75. The path returned for a cursor leads to a node that contains the cursor, no path to
such a node is longer, and it is the first of the longest in document order; the search
fails exactly if no node contains the cursor.

Full statement: this for every tree. Missing: trees with an rpc that has a body and that
contains the cursor, see `C75_rpc_violated`. -/
theorem C75_cursor_partial (root : Node) (p : Pos)
    (hrpc : ∀ path len i, At (fun _ => True) root path len i → i.kind = .rpc →
      i.semicolon = none → ¬ Covers i p) :
    match findPathIntersectingToken root p with
    | none => ∀ f, ¬ Candidate root p f
    | some f => Candidate root p f ∧
        ∀ g, Candidate root p g → g.len ≤ f.len ∧ (before g.path f.path = true → g.len < f.len) := by
  have hmem : ∀ f, f ∈ collect p [] 1 root ↔ Candidate root p f := by
    intro f
    rw [mem_collect]
    unfold Candidate
    constructor
    · rintro ⟨q, l, i, ha, hf⟩
      have hp := here_path hf
      simp only [List.nil_append] at hp
      rw [hp]
      refine ⟨i, l, ha, ?_⟩
      unfold here at hf
      rcases List.mem_append.mp hf with hf | hf
      · split at hf
        · rename_i he
          rw [List.mem_singleton] at hf
          have hr : ¬ (i.kind = .rpc ∧ i.semicolon = none) := by
            rintro ⟨hk, hs⟩
            unfold eligible at he
            rw [hk, hs] at he
            cases hc : i.close <;> rw [hc] at he <;> simp at he
          left
          rw [eligible_iff i p hr] at he
          rw [hf]
          exact ⟨rfl, Nat.add_comm _ _, he.1, he.2⟩
        · simp at hf
      · split at hf
        · rename_i he
          rw [List.mem_singleton] at hf
          right
          rw [hf]
          exact ⟨rfl, by show 1 + l + 1 = l + 2; omega, he.1, he.2⟩
        · simp at hf
    · rintro ⟨i, l, ha, h⟩
      refine ⟨f.path, l, i, ha, ?_⟩
      unfold here
      rw [List.mem_append]
      rcases h with ⟨h1, h2, h3, h4⟩ | ⟨h1, h2, h3, h4⟩
      · left
        have hr : ¬ (i.kind = .rpc ∧ i.semicolon = none) := by
          rintro ⟨hk, hs⟩
          exact hrpc _ _ _ ha hk hs h4
        rw [if_pos ((eligible_iff i p hr).mpr ⟨h3, h4⟩), List.mem_singleton]
        obtain ⟨a, b, c⟩ := f
        simp only at h1 h2
        rw [h1, h2, Nat.add_comm]
        rfl
      · right
        rw [if_pos ⟨h3, h4⟩, List.mem_singleton]
        obtain ⟨a, b, c⟩ := f
        simp only at h1 h2
        rw [h1, h2]
        simp only [List.nil_append, Found.mk.injEq, true_and]
        omega
  have hord := collect_ordered p [] 1 root
  unfold findPathIntersectingToken
  cases hc : collect p [] 1 root with
  | nil =>
    intro f hf
    rw [← hmem, hc] at hf
    simp at hf
  | cons f rest =>
    rw [hc] at hord hmem
    simp only
    have hl : longest f (f :: rest) = longest f rest := by
      conv => lhs; unfold longest
      rw [if_neg (by omega)]
    rw [hl]
    obtain ⟨l1, l2, he, h1, h2⟩ := longest_spec f rest
    generalize longest f rest = r at *
    refine ⟨(hmem r).mp (by rw [he]; simp), ?_⟩
    intro g hg
    rw [← hmem, he] at hg
    rw [he] at hord
    have hp := (List.pairwise_append.mp hord).2.1
    rw [List.pairwise_cons] at hp
    rcases List.mem_append.mp hg with hg | hg
    · have := h1 g hg
      exact ⟨by omega, fun _ => this⟩
    · rcases List.mem_cons.mp hg with rfl | hg
      · exact ⟨Nat.le_refl _, fun h => by rw [before_irrefl] at h; cases h⟩
      · refine ⟨h2 g hg, fun h => ?_⟩
        rw [hp.1 g hg] at h
        cases h

/-- C75. The paths returned for a selection are exactly those of the recorded nodes that are
longest, in document order; the search fails exactly if no node is recorded. -/
theorem C75_selection (v : Kind → Visit) (root : Node) :
    match findPathsEnclosingRange v root with
    | none => ∀ f, ¬ Recorded v root f
    | some l => l ≠ [] ∧ l.Pairwise (fun a b => before a.path b.path = true) ∧
        ∀ f, f ∈ l ↔ Recorded v root f ∧ ∀ g, Recorded v root g → g.len ≤ f.len := by
  have hmem : ∀ f, f ∈ recs v [] 1 root ↔ Recorded v root f := by
    intro f
    rw [mem_recs]
    unfold Recorded
    constructor
    · rintro ⟨q, l, i, ha, hr, hf⟩
      rw [hf]
      exact ⟨i, l, ha, hr, rfl, Nat.add_comm _ _⟩
    · rintro ⟨i, l, ha, hr, h1, h2⟩
      refine ⟨f.path, l, i, ha, hr, ?_⟩
      obtain ⟨a, b, c⟩ := f
      simp only at h1 h2
      rw [h1, h2, Nat.add_comm]
      rfl
  by_cases hne : recs v [] 1 root = []
  · have hres : findPathsEnclosingRange v root = none := by
      unfold findPathsEnclosingRange
      rw [visit_eq, hne]
      rfl
    rw [hres]
    intro f hf
    rw [← hmem, hne] at hf
    simp at hf
  · obtain ⟨pre, m, he, hpre, hle, x, hx, hxm⟩ := keep_spec _ hne
    have hord := recs_ordered v [] 1 root
    generalize hR : recs v [] 1 root = R at *
    have hFne : R.filter (fun f => f.len == m) ≠ [] := by
      apply List.ne_nil_of_mem (a := x)
      simp [hx, hxm]
    have hFm : ∀ z ∈ (R.filter (fun f => f.len == m)), z.len = m := by
      intro z hz
      simpa using (List.mem_filter.mp hz).2
    generalize hF : R.filter (fun f => f.len == m) = F at *
    have hres : findPathsEnclosingRange v root = some F := by
      unfold findPathsEnclosingRange
      rw [visit_eq, hR, he, List.reverse_append]
      cases hr : F.reverse with
      | nil => exact absurd (List.reverse_eq_nil_iff.mp hr) hFne
      | cons f fs =>
        simp only [List.cons_append]
        have hall : ∀ z ∈ f :: fs, z.len = m := by
          intro z hz
          apply hFm z
          rw [← hr] at hz
          exact List.mem_reverse.mp hz
        rw [hall f (by simp), lowerBound_spec m fs pre.reverse
          (fun z hz => hall z (by simp [hz])) (fun z hz => hpre z (List.mem_reverse.mp hz))]
        have : F = (f :: fs).reverse := by rw [← hr, List.reverse_reverse]
        rw [this, List.reverse_cons]
    rw [hres]
    refine ⟨hFne, ?_, ?_⟩
    · rw [← hF]; exact hord.filter _
    · intro f
      rw [← hF, List.mem_filter, hmem]
      constructor
      · rintro ⟨h1, h2⟩
        refine ⟨h1, fun g hg => ?_⟩
        have := hle g ((hmem g).mpr hg)
        simp at h2
        omega
      · rintro ⟨h1, h2⟩
        refine ⟨h1, ?_⟩
        have a := hle f ((hmem f).mpr h1)
        have b := h2 x ((hmem x).mp hx)
        simp; omega

/-- C75. The same for the visitor of the server's own searches: all nodes are recorded to which a cursor can be attributed, and no other;
groups, map fields and nodes of other kinds hide what is below them. -/
theorem C75_selection_default (root : Node) :
    match findPathsEnclosingRange defaultVisitor root with
    | none => ∀ f, ¬ RecordedAs (fun k => Addressable k ∨ k = .file) Addressable root f
    | some l => l ≠ [] ∧ l.Pairwise (fun a b => before a.path b.path = true) ∧
        ∀ f, f ∈ l ↔ RecordedAs (fun k => Addressable k ∨ k = .file) Addressable root f ∧
          ∀ g, RecordedAs (fun k => Addressable k ∨ k = .file) Addressable root g → g.len ≤ f.len := by
  have he : ∀ f, Recorded defaultVisitor root f ↔ RecordedAs (fun k => Addressable k ∨ k = .file) Addressable root f := by
    intro f
    unfold Recorded RecordedAs
    have h1 : (fun j : Info => defaultVisitor j.kind ≠ .skip) = fun j => Addressable j.kind ∨ j.kind = .file := by
      funext j
      cases j.kind <;> simp [defaultVisitor, Addressable]
    have h2 : ∀ k, defaultVisitor k = .record ↔ Addressable k := by
      intro k
      cases k <;> simp [defaultVisitor, Addressable]
    rw [h1]
    simp only [h2]
  simpa only [he] using C75_selection defaultVisitor root

/-- C75. The same for the visitor of the refactorings of fields: messages, groups, fields and map fields are recorded, and only these and
the file are entered. -/
theorem C75_selection_fields (root : Node) :
    match findPathsEnclosingRange newFieldVisitor root with
    | none => ∀ f, ¬ RecordedAs (fun k => FieldLike k ∨ k = .file) FieldLike root f
    | some l => l ≠ [] ∧ l.Pairwise (fun a b => before a.path b.path = true) ∧
        ∀ f, f ∈ l ↔ RecordedAs (fun k => FieldLike k ∨ k = .file) FieldLike root f ∧
          ∀ g, RecordedAs (fun k => FieldLike k ∨ k = .file) FieldLike root g → g.len ≤ f.len := by
  have he : ∀ f, Recorded newFieldVisitor root f ↔ RecordedAs (fun k => FieldLike k ∨ k = .file) FieldLike root f := by
    intro f
    unfold Recorded RecordedAs
    have h1 : (fun j : Info => newFieldVisitor j.kind ≠ .skip) = fun j => FieldLike j.kind ∨ j.kind = .file := by
      funext j
      cases j.kind <;> simp [newFieldVisitor, FieldLike]
    have h2 : ∀ k, newFieldVisitor k = .record ↔ FieldLike k := by
      intro k
      cases k <;> simp [newFieldVisitor, FieldLike]
    rw [h1]
    simp only [h2]
  simpa only [he] using C75_selection newFieldVisitor root

/-! ### A file with a service

```
service S {
  rpc A(X) returns (Y) {
  }
  rpc B(X) returns (Y);
}
```
-/

def rpcBody : Node := .mk
  { kind := .rpc, start := ⟨1, 2⟩, stop := ⟨2, 3⟩, semicolon := none,
    close := some ⟨⟨2, 3⟩, false⟩, incomplete := false, sepHit := false } true []
def rpcPlain : Node := .mk
  { kind := .rpc, start := ⟨3, 2⟩, stop := ⟨3, 23⟩, semicolon := some ⟨⟨3, 23⟩, false⟩,
    close := none, incomplete := false, sepHit := false } true []
def svcInfo : Info :=
  { kind := .service, start := ⟨0, 0⟩, stop := ⟨4, 1⟩, semicolon := none,
    close := some ⟨⟨4, 1⟩, false⟩, incomplete := false, sepHit := false }
def fileInfo : Info :=
  { kind := .file, start := ⟨0, 0⟩, stop := ⟨5, 0⟩, semicolon := none, close := none,
    incomplete := false, sepHit := false }
def svcTree : Node := .mk fileInfo true [(2, .mk svcInfo true [(2, rpcBody), (2, rpcPlain)])]

/-- On line 3 the cursor is in the rpc `B`: the file, the service, its second child. -/
example : findPathIntersectingToken svcTree ⟨3, 10⟩ = some ⟨[0, 1], false, 5⟩ := by decide +kernel

/-- There the theorem applies: the rpc with a body does not contain the cursor. -/
example : ∀ path len i, At (fun _ => True) svcTree path len i → i.kind = .rpc →
    i.semicolon = none → ¬ Covers i ⟨3, 10⟩ := by
  intro path len i h hk hs
  cases h with
  | here => cases hk
  | kid _ _ k st n pa le j _ hkid h =>
    match k, hkid with
    | 0, hkid =>
      simp only [List.getElem?_cons_zero, Option.some.injEq, Prod.mk.injEq] at hkid
      obtain ⟨_, rfl⟩ := hkid
      cases h with
      | here => cases hk
      | kid _ _ k st n pa le j _ hkid h =>
        match k, hkid with
        | 0, hkid =>
          simp only [List.getElem?_cons_zero, Option.some.injEq, Prod.mk.injEq] at hkid
          obtain ⟨_, rfl⟩ := hkid
          cases h with
          | here => decide
          | kid _ _ k st n pa le j _ hkid h => simp at hkid
        | 1, hkid =>
          simp only [List.getElem?_cons_succ, List.getElem?_cons_zero, Option.some.injEq,
            Prod.mk.injEq] at hkid
          obtain ⟨_, rfl⟩ := hkid
          cases h with
          | here => cases hs
          | kid _ _ k st n pa le j _ hkid h => simp at hkid

/-- C75 fails for an rpc with a body: the cursor between its braces is attributed to the
service, although the rpc contains it and has the longer path. -/
theorem C75_rpc_violated :
    Candidate svcTree ⟨2, 0⟩ ⟨[0, 0], false, 5⟩ ∧
      findPathIntersectingToken svcTree ⟨2, 0⟩ = some ⟨[0], false, 3⟩ := by
  refine ⟨⟨_, 4, .kid _ _ 0 2 _ _ 2 _ trivial rfl
    (.kid _ _ 0 2 _ _ 0 _ trivial rfl (.here _ _)), Or.inl ⟨rfl, rfl, trivial, ?_⟩⟩, ?_⟩
  · decide
  · decide +kernel

/-- The default visitor finds the two rpcs of the service. -/
example : findPathsEnclosingRange defaultVisitor svcTree =
    some [⟨[0, 0], false, 5⟩, ⟨[0, 1], false, 5⟩] := by decide +kernel

/-- The visitor of the field refactoring does not enter a service. -/
example : findPathsEnclosingRange newFieldVisitor svcTree = none := by decide +kernel

end Verif.CursorPath
