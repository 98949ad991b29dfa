import Verif.Model.CodeActions
/-!
# Properties of code action requests: C29, C30
-/
namespace Verif.CodeActions

/-! ## C29: merging organize-imports actions -/

/-- Specification: the edits of a map of changes, each with its document. -/
def flat (m : List (Uri × List Edit)) : List (Uri × Edit) := m.flatMap (fun d => d.2.map (fun e => (d.1, e)))

/-- Specification: the edits of all organize-imports actions of a list. -/
def requested (as : List Action) : List (Uri × Edit) :=
  (as.filter (fun a => decide (a.kind = organizeImports))).flatMap (fun a => flat (a.edit.getD []))

/-- Specification: the other actions. -/
def others (as : List Action) : List Action := as.filter (fun a => decide (a.kind ≠ organizeImports))

/-- One step of the loops, on one edit. -/
def aggPair (s : Agg) (x : Uri × Edit) : Agg := aggEdit x.1 s x.2

theorem aggDoc_foldl (m : List (Uri × List Edit)) (s : Agg) : m.foldl aggDoc s = (flat m).foldl aggPair s := by
  induction m generalizing s with
  | nil => rfl
  | cons d m ih =>
    have : flat (d :: m) = d.2.map (fun e => (d.1, e)) ++ flat m := rfl
    rw [List.foldl_cons, ih, this, List.foldl_append]
    congr 1
    unfold aggDoc
    generalize d.2 = l
    induction l generalizing s with
    | nil => rfl
    | cons e l ih2 => rw [List.foldl_cons, ih2, List.map_cons, List.foldl_cons]; rfl

theorem aggLoop_eq (as : List Action) (hed : ∀ a ∈ as, a.kind = organizeImports → a.edit ≠ none)
    (f : List Action) (s : Agg) :
    aggLoop as (f, s) = some (f ++ others as, (requested as).foldl aggPair s) := by
  induction as generalizing f s with
  | nil => simp [aggLoop, others, requested]
  | cons a as ih =>
    unfold aggLoop
    have ih := ih (fun b hb => hed b (List.mem_cons_of_mem _ hb))
    by_cases hk : a.kind = organizeImports
    · rw [if_pos hk]
      have ho : others (a :: as) = others as := by simp [others, hk]
      cases he : a.edit with
      | none => exact absurd he (hed a List.mem_cons_self hk)
      | some ch =>
        have hr : requested (a :: as) = flat ch ++ requested as := by simp [requested, hk, he]
        simp only
        rw [ih, ho, hr, List.foldl_append, aggDoc_foldl]
    · rw [if_neg hk, ih]
      have ho : others (a :: as) = a :: others as := by simp [others, hk]
      have hr : requested (a :: as) = requested as := by simp [requested, hk]
      rw [ho, hr, List.append_assoc]
      rfl

/-- The edits that are kept. -/
def kept : List Str → List (Uri × Edit) → List (Uri × Edit)
  | _, [] => []
  | seen, x :: xs =>
    if x.2.newText.length > 0 then
      if x.2.newText ∈ seen then kept seen xs else x :: kept (x.2.newText :: seen) xs
    else x :: kept seen xs

theorem del_of_not_mem {m : List (Uri × List Edit)} {u : Uri} (h : u ∉ Assoc.keys m) : Assoc.del m u = m := by
  unfold Assoc.del
  rw [List.filter_eq_self]
  intro e he
  have : e.1 ≠ u := fun hu => h (hu ▸ Assoc.mem_keys_of_mem (v := e.2) he)
  simpa using this

theorem flat_get_del {m : List (Uri × List Edit)} (hn : (Assoc.keys m).Nodup) (u : Uri) :
    (((Assoc.get m u).getD []).map (fun e => (u, e)) ++ flat (Assoc.del m u)).Perm (flat m) := by
  induction m with
  | nil => exact List.Perm.refl _
  | cons d m ih =>
    have hk : Assoc.keys (d :: m) = d.1 :: Assoc.keys m := rfl
    rw [hk, List.nodup_cons] at hn
    have ih := ih hn.2
    by_cases hd : d.1 = u
    · have hg : Assoc.get (d :: m) u = some d.2 := by simp [Assoc.get, hd]
      have hdel : Assoc.del (d :: m) u = m := by
        have : Assoc.del (d :: m) u = Assoc.del m u := by simp [Assoc.del, hd]
        rw [this]
        exact del_of_not_mem (hd ▸ hn.1)
      rw [hg, hdel, ← hd]
      exact List.Perm.refl _
    · have hg : Assoc.get (d :: m) u = Assoc.get m u := by simp [Assoc.get, hd]
      have hdel : Assoc.del (d :: m) u = d :: Assoc.del m u := by simp [Assoc.del, hd]
      rw [hg, hdel]
      have h1 : flat (d :: Assoc.del m u) = d.2.map (fun e => (d.1, e)) ++ flat (Assoc.del m u) := rfl
      have h2 : flat (d :: m) = d.2.map (fun e => (d.1, e)) ++ flat m := rfl
      rw [h1, h2, ← List.append_assoc]
      refine (List.Perm.append_right _ List.perm_append_comm).trans ?_
      rw [List.append_assoc]
      exact List.Perm.append_left _ ih

theorem flat_addEdit {m : List (Uri × List Edit)} (hn : (Assoc.keys m).Nodup) (u : Uri) (e : Edit) :
    (flat (addEdit m u e)).Perm (flat m ++ [(u, e)]) := by
  have : flat (addEdit m u e) =
      (((Assoc.get m u).getD []).map (fun e => (u, e)) ++ [(u, e)]) ++ flat (Assoc.del m u) := by
    simp only [flat, addEdit, Assoc.set, List.flatMap_cons, List.map_append, List.map_cons, List.map_nil]
  rw [this, List.append_assoc]
  refine (List.Perm.append_left _ List.perm_append_comm).trans ?_
  rw [← List.append_assoc]
  exact List.Perm.append_right _ (flat_get_del hn u)

theorem aggPair_foldl (xs : List (Uri × Edit)) (s : Agg) (hn : (Assoc.keys s.changes).Nodup) :
    (flat (xs.foldl aggPair s).changes).Perm (flat s.changes ++ kept s.seen xs) := by
  induction xs generalizing s with
  | nil => simp [kept]
  | cons x xs ih =>
    rw [List.foldl_cons]
    unfold kept
    have hadd : (Assoc.keys (addEdit s.changes x.1 x.2)).Nodup := Assoc.nodup_set hn _ _
    by_cases h1 : x.2.newText.length > 0
    · by_cases h2 : x.2.newText ∈ s.seen
      · have : aggPair s x = s := by simp only [aggPair, aggEdit, if_pos h1, if_pos h2]
        rw [if_pos h1, if_pos h2, this]
        exact ih s hn
      · have : aggPair s x = ⟨addEdit s.changes x.1 x.2, x.2.newText :: s.seen⟩ := by
          simp only [aggPair, aggEdit, if_pos h1, if_neg h2]
        rw [if_pos h1, if_neg h2, this]
        refine (ih _ hadd).trans ?_
        refine (List.Perm.append_right _ (flat_addEdit hn x.1 x.2)).trans ?_
        rw [List.append_assoc]
        exact List.Perm.refl _
    · have : aggPair s x = { s with changes := addEdit s.changes x.1 x.2 } := by
        simp only [aggPair, aggEdit, if_neg h1]
      rw [if_neg h1, this]
      refine (ih _ hadd).trans ?_
      refine (List.Perm.append_right _ (flat_addEdit hn x.1 x.2)).trans ?_
      rw [List.append_assoc]
      exact List.Perm.refl _

theorem flat_nil_iff_aux (xs : List (Uri × Edit)) (s : Agg) (h : ∀ d ∈ s.changes, d.2 ≠ []) :
    ∀ d ∈ (xs.foldl aggPair s).changes, d.2 ≠ [] := by
  have hadd : ∀ (m : List (Uri × List Edit)) (u : Uri) (e : Edit), (∀ d ∈ m, d.2 ≠ []) →
      ∀ d ∈ addEdit m u e, d.2 ≠ [] := by
    intro m u e hm d hd
    rcases Assoc.mem_set.1 hd with rfl | ⟨hd, _⟩
    · simp
    · exact hm d hd
  induction xs generalizing s with
  | nil => exact h
  | cons x xs ih =>
    refine ih _ ?_
    unfold aggPair aggEdit
    split
    · split
      · exact h
      · exact hadd _ _ _ h
    · exact hadd _ _ _ h

/-- The result of merging. -/
theorem aggregate_eq (as : List Action) (hed : ∀ a ∈ as, a.kind = organizeImports → a.edit ≠ none) :
    ∃ ch, (flat ch).Perm (kept [] (requested as)) ∧ (ch = [] ↔ kept [] (requested as) = []) ∧
      aggregate as = some (others as ++
        if ch = [] then [] else [⟨"Organize Imports", organizeImports, some ch⟩]) := by
  refine ⟨((requested as).foldl aggPair {}).changes, ?_, ?_, ?_⟩
  · have := aggPair_foldl (requested as) {} (by simp [Assoc.keys])
    simpa [flat] using this
  · have hp := aggPair_foldl (requested as) {} (by simp [Assoc.keys])
    have hp : (flat ((requested as).foldl aggPair {}).changes).Perm (kept [] (requested as)) := by
      simpa [flat] using hp
    have hne := flat_nil_iff_aux (requested as) {} (by simp)
    constructor
    · intro h
      rw [h] at hp
      exact List.nil_perm.1 hp
    · intro h
      rw [h] at hp
      have hf := List.perm_nil.1 hp
      revert hne hf
      generalize ((requested as).foldl aggPair {}).changes = ch
      intro hne hf
      match ch with
      | [] => rfl
      | d :: ch =>
        exfalso
        have h1 := hne d List.mem_cons_self
        simp only [flat, List.flatMap_cons, List.append_eq_nil_iff, List.map_eq_nil_iff] at hf
        exact h1 hf.1
  · match as, hed with
    | [], _ => simp [aggregate, others, requested]
    | a :: as, hed =>
      have := aggLoop_eq (a :: as) hed [] {}
      rw [List.nil_append] at this
      simp only [aggregate]
      rw [this]
      simp only
      split
      · rw [List.append_nil]
      · rfl

/-- **C29** (part): merging never fails on actions with edits, keeps all other actions unchanged and
in order, and adds at most one action, at the end, of kind organize-imports. -/
theorem C29_others (as : List Action) (hed : ∀ a ∈ as, a.kind = organizeImports → a.edit ≠ none) :
    ∃ tail, aggregate as = some (others as ++ tail) ∧ tail.length ≤ 1 ∧
      ∀ a ∈ tail, a.kind = organizeImports := by
  obtain ⟨ch, _, _, h⟩ := aggregate_eq as hed
  refine ⟨_, h, ?_, ?_⟩
  · split <;> simp
  · intro a ha
    split at ha
    · cases ha
    · rw [List.mem_singleton] at ha
      rw [ha]

theorem others_append (as bs : List Action) : others (as ++ bs) = others as ++ others bs := by
  simp [others]

theorem requested_append (as bs : List Action) : requested (as ++ bs) = requested as ++ requested bs := by
  simp [requested]

theorem requested_others (as : List Action) : requested (others as) = [] := by
  unfold requested others
  rw [List.filter_filter]
  have : (as.filter fun a => decide (a.kind = organizeImports) && decide (a.kind ≠ organizeImports)) = [] := by
    rw [List.filter_eq_nil_iff]
    intro a _
    simp
  rw [this]
  rfl

theorem requested_aggregate (as r : List Action) (hed : ∀ a ∈ as, a.kind = organizeImports → a.edit ≠ none)
    (h : aggregate as = some r) : (requested r).Perm (kept [] (requested as)) := by
  obtain ⟨ch, h1, _, h2⟩ := aggregate_eq as hed
  rw [h2] at h
  have h := Option.some.inj h
  subst h
  rw [requested_append, requested_others, List.nil_append]
  refine List.Perm.trans ?_ h1
  split
  · rename_i hc
    subst hc
    exact List.Perm.refl _
  · simp [requested]

theorem kept_sublist (seen : List Str) (xs : List (Uri × Edit)) : (kept seen xs).Sublist xs := by
  induction xs generalizing seen with
  | nil => exact List.Sublist.refl _
  | cons x xs ih =>
    unfold kept
    split
    · split
      · exact (ih _).cons x
      · exact (ih _).cons_cons x
    · exact (ih _).cons_cons x

/-- **C29** (part): the merged action contains no edit that was not requested, none of them more
often than it was requested. -/
theorem C29_sound (as r : List Action) (hed : ∀ a ∈ as, a.kind = organizeImports → a.edit ≠ none)
    (h : aggregate as = some r) : ∃ l, (requested r).Perm l ∧ l.Sublist (requested as) :=
  ⟨_, requested_aggregate as r hed h, kept_sublist _ _⟩

theorem kept_texts_nodup (seen : List Str) (xs : List (Uri × Edit)) :
    (((kept seen xs).map (fun x => x.2.newText)).filter (fun t => decide (t ≠ []))).Nodup ∧
    ∀ x ∈ kept seen xs, x.2.newText ≠ [] → x.2.newText ∉ seen := by
  induction xs generalizing seen with
  | nil => simp [kept]
  | cons x xs ih =>
    unfold kept
    split
    · rename_i h1
      have hne : x.2.newText ≠ [] := List.length_pos_iff.1 h1
      split
      · exact ih seen
      · rename_i h2
        have ih := ih (x.2.newText :: seen)
        refine ⟨?_, ?_⟩
        · rw [List.map_cons, List.filter_cons_of_pos (by simpa using hne), List.nodup_cons]
          refine ⟨?_, ih.1⟩
          intro hm
          rw [List.mem_filter, List.mem_map] at hm
          obtain ⟨⟨y, hy, hxy⟩, _⟩ := hm
          exact ih.2 y hy (hxy ▸ hne) (hxy ▸ List.mem_cons_self)
        · intro y hy hyn
          rcases List.mem_cons.1 hy with rfl | hy
          · exact h2
          · exact fun hs => ih.2 y hy hyn (List.mem_cons_of_mem _ hs)
    · rename_i h1
      have he : x.2.newText = [] := List.length_eq_zero_iff.1 (by omega)
      have ih := ih seen
      refine ⟨?_, ?_⟩
      · rw [List.map_cons, List.filter_cons_of_neg (by simpa using he)]
        exact ih.1
      · intro y hy hyn
        rcases List.mem_cons.1 hy with rfl | hy
        · exact absurd he hyn
        · exact ih.2 y hy hyn

theorem kept_complete (seen : List Str) (xs : List (Uri × Edit)) (x : Uri × Edit) (hx : x ∈ xs) :
    x ∈ kept seen xs ∨ (x.2.newText ≠ [] ∧ (x.2.newText ∈ seen ∨ ∃ y ∈ kept seen xs, y.2.newText = x.2.newText)) := by
  induction xs generalizing seen with
  | nil => cases hx
  | cons z xs ih =>
    unfold kept
    rcases List.mem_cons.1 hx with rfl | hx
    · split
      · rename_i h1
        have hne : x.2.newText ≠ [] := List.length_pos_iff.1 h1
        split
        · rename_i h2
          exact .inr ⟨hne, .inl h2⟩
        · exact .inl List.mem_cons_self
      · exact .inl List.mem_cons_self
    · split
      · split
        · exact ih seen hx
        · rcases ih (z.2.newText :: seen) hx with h | ⟨h, h' | ⟨y, hy, hyx⟩⟩
          · exact .inl (List.mem_cons_of_mem _ h)
          · rcases List.mem_cons.1 h' with h' | h'
            · exact .inr ⟨h, .inr ⟨z, List.mem_cons_self, h'.symm⟩⟩
            · exact .inr ⟨h, .inl h'⟩
          · exact .inr ⟨h, .inr ⟨y, List.mem_cons_of_mem _ hy, hyx⟩⟩
      · rcases ih seen hx with h | ⟨h, h' | ⟨y, hy, hyx⟩⟩
        · exact .inl (List.mem_cons_of_mem _ h)
        · exact .inr ⟨h, .inl h'⟩
        · exact .inr ⟨h, .inr ⟨y, List.mem_cons_of_mem _ hy, hyx⟩⟩

theorem kept_deletions (seen : List Str) (xs : List (Uri × Edit)) :
    (kept seen xs).filter (fun x => decide (x.2.newText = [])) = xs.filter (fun x => decide (x.2.newText = [])) := by
  induction xs generalizing seen with
  | nil => rfl
  | cons x xs ih =>
    unfold kept
    split
    · rename_i h1
      have hne : x.2.newText ≠ [] := List.length_pos_iff.1 h1
      split
      · rw [ih, List.filter_cons_of_neg (by simpa using hne)]
      · rw [List.filter_cons_of_neg (by simpa using hne), List.filter_cons_of_neg (by simpa using hne), ih]
    · rename_i h1
      have he : x.2.newText = [] := List.length_eq_zero_iff.1 (by omega)
      rw [List.filter_cons_of_pos (by simpa using he), List.filter_cons_of_pos (by simpa using he), ih]

/-- **C29** (part): of the requested insertions and replacements with the same text exactly one is
kept, and every requested deletion is kept. -/
theorem C29_texts (as r : List Action) (hed : ∀ a ∈ as, a.kind = organizeImports → a.edit ≠ none)
    (h : aggregate as = some r) :
    (∀ x ∈ requested as, x.2.newText ≠ [] →
      ((requested r).filter (fun y => decide (y.2.newText = x.2.newText))).length = 1) ∧
    ∀ x ∈ requested as, x.2.newText = [] → x ∈ requested r := by
  have hp := requested_aggregate as r hed h
  refine ⟨fun x hx hne => ?_, fun x hx he => ?_⟩
  · rw [(hp.filter _).length_eq]
    obtain ⟨y, hy, hyx⟩ : ∃ y ∈ kept [] (requested as), y.2.newText = x.2.newText := by
      rcases kept_complete [] (requested as) x hx with h | ⟨_, h | h⟩
      · exact ⟨x, h, rfl⟩
      · cases h
      · exact h
    have hnd := (kept_texts_nodup [] (requested as)).1
    generalize kept [] (requested as) = l at hy hnd
    have hcount : (l.filter (fun y => decide (y.2.newText = x.2.newText))).length
        = ((l.map (fun x => x.2.newText)).filter (fun t => decide (t ≠ []))).count x.2.newText := by
      rw [List.count_filter (by simpa using hne), List.count_eq_countP, List.countP_map,
        List.countP_eq_length_filter]
      congr 1
      refine List.filter_congr ?_
      intro z _
      by_cases hz : z.2.newText = x.2.newText
      · simp [Function.comp, hz]
      · simp [Function.comp, hz]
    rw [hcount]
    have hmem : x.2.newText ∈ (l.map (fun x => x.2.newText)).filter (fun t => decide (t ≠ [])) := by
      rw [List.mem_filter]
      exact ⟨List.mem_map.2 ⟨y, hy, hyx⟩, by simpa using hne⟩
    have h1 := List.nodup_iff_count.1 hnd x.2.newText
    have h2 := List.count_pos_iff.2 hmem
    omega
  · rw [hp.mem_iff]
    rcases kept_complete [] (requested as) x hx with h | ⟨h, _⟩
    · exact h
    · exact absurd he h

/-- **C29** (partial): if no two different requested edits have the same text and no deletion is
requested twice, the merged action contains each requested edit exactly once. Missing: edits with the
same text in several documents or places, and repeated deletions, for which the property fails. -/
theorem C29_exactly_once_partial (as r : List Action)
    (hed : ∀ a ∈ as, a.kind = organizeImports → a.edit ≠ none)
    (htext : ∀ x ∈ requested as, ∀ y ∈ requested as, x.2.newText ≠ [] → x.2.newText = y.2.newText → x = y)
    (hdel : ((requested as).filter (fun x => decide (x.2.newText = []))).Nodup)
    (h : aggregate as = some r) :
    (requested r).Nodup ∧ ∀ x, x ∈ requested r ↔ x ∈ requested as := by
  have hp := requested_aggregate as r hed h
  rw [hp.nodup_iff]
  refine ⟨?_, fun x => ?_⟩
  · -- no duplicates among the kept ones
    have h1 := (kept_texts_nodup [] (requested as)).1
    rw [← kept_deletions []] at hdel
    revert h1 hdel
    generalize kept [] (requested as) = l
    intro hdel h1
    induction l with
    | nil => exact List.nodup_nil
    | cons x l ih =>
      rw [List.nodup_cons]
      by_cases he : x.2.newText = []
      · rw [List.map_cons, List.filter_cons_of_neg (by simpa using he)] at h1
        rw [List.filter_cons_of_pos (by simpa using he), List.nodup_cons] at hdel
        exact ⟨fun hm => hdel.1 (List.mem_filter.2 ⟨hm, by simpa using he⟩), ih hdel.2 h1⟩
      · rw [List.map_cons, List.filter_cons_of_pos (by simpa using he), List.nodup_cons] at h1
        rw [List.filter_cons_of_neg (by simpa using he)] at hdel
        refine ⟨fun hm => h1.1 ?_, ih hdel h1.2⟩
        exact List.mem_filter.2 ⟨List.mem_map.2 ⟨x, hm, rfl⟩, by simpa using he⟩
  · rw [hp.mem_iff]
    constructor
    · exact fun hx => (kept_sublist _ _).subset hx
    · intro hx
      rcases kept_complete [] (requested as) x hx with h | ⟨hne, h | ⟨y, hy, hyx⟩⟩
      · exact h
      · cases h
      · have := htext y ((kept_sublist _ _).subset hy) x hx (hyx ▸ hne) hyx
        exact this ▸ hy

/-- Some actions: a quick fix between two organize-imports actions. -/
def sampleActions : List Action :=
  [⟨"a", organizeImports, some [("f", [⟨0, ['x']⟩])]⟩, ⟨"q", quickFix, none⟩,
   ⟨"b", organizeImports, some [("f", [⟨1, ['y']⟩, ⟨2, []⟩])]⟩]

example : (∀ a ∈ sampleActions, a.kind = organizeImports → a.edit ≠ none) ∧
    (∀ x ∈ requested sampleActions, ∀ y ∈ requested sampleActions,
      x.2.newText ≠ [] → x.2.newText = y.2.newText → x = y) ∧
    ((requested sampleActions).filter (fun x => decide (x.2.newText = []))).Nodup := by decide

example : aggregate sampleActions = some [⟨"q", quickFix, none⟩,
    ⟨"Organize Imports", organizeImports, some [("f", [⟨0, ['x']⟩, ⟨1, ['y']⟩, ⟨2, []⟩])]⟩] := by decide

/-- The code violates C29: the same import added to two documents is merged into one edit, so that
the second document is not changed. -/
theorem C29_cross_document_violated :
    aggregate [⟨"a", organizeImports, some [("f", [⟨0, ['x']⟩])]⟩, ⟨"b", organizeImports, some [("g", [⟨0, ['x']⟩])]⟩]
      = some [⟨"Organize Imports", organizeImports, some [("f", [⟨0, ['x']⟩])]⟩] := by decide

/-- The code violates C29: the same deletion requested by two actions is contained twice. -/
theorem C29_deletion_violated :
    aggregate [⟨"a", organizeImports, some [("f", [⟨0, []⟩])]⟩, ⟨"b", organizeImports, some [("f", [⟨0, []⟩])]⟩]
      = some [⟨"Organize Imports", organizeImports, some [("f", [⟨0, []⟩, ⟨0, []⟩])]⟩] := by decide

/-! ## C30: kind filters -/

/-- Specification: `k` is `o` or one of its sub-kinds. -/
def SubKind (o k : Kind) : Prop := k = o ∨ ∃ rest, k = o ++ '.' :: rest

theorem matchesOnly_iff (o k : Kind) : matchesOnly o k = true ↔ SubKind o k := by
  unfold matchesOnly SubKind
  rw [Bool.or_eq_true, decide_eq_true_eq, List.isPrefixOf_iff_prefix]
  constructor
  · rintro (h | ⟨t, h⟩)
    · exact .inl h.symm
    · refine .inr ⟨t, ?_⟩
      rw [← h]
      simp
  · rintro (h | ⟨t, h⟩)
    · exact .inl h.symm
    · refine .inr ⟨t, ?_⟩
      rw [h]
      simp

theorem wants_set (w : List (Kind × Bool)) (k j : Kind) (b : Bool) :
    wants (Assoc.set w k b) j = if j = k then b else wants w j := by
  unfold wants
  by_cases h : j = k
  · subst h
    rw [Assoc.get_set_self, if_pos rfl]
    rfl
  · rw [Assoc.get_set_ne _ _ h, if_neg h]

theorem wants_wantSupported (order : List Kind) (w : List (Kind × Bool)) (o k : Kind) :
    wants (wantSupported order w o) k = true ↔ wants w k = true ∨ (k ∈ order ∧ SubKind o k) := by
  unfold wantSupported
  induction order generalizing w with
  | nil => simp
  | cons a order ih =>
    rw [List.foldl_cons, ih]
    by_cases hm : matchesOnly o a = true
    · have ha := (matchesOnly_iff o a).1 hm
      rw [if_pos hm, wants_set, List.mem_cons]
      by_cases hka : k = a
      · subst hka
        simp [ha]
      · simp [hka]
    · have ha := fun h => hm ((matchesOnly_iff o a).2 h)
      rw [if_neg hm, List.mem_cons]
      constructor
      · rintro (h | ⟨h1, h2⟩)
        · exact .inl h
        · exact .inr ⟨.inr h1, h2⟩
      · rintro (h | ⟨rfl | h1, h2⟩)
        · exact .inl h
        · exact absurd h2 ha
        · exact .inr ⟨h1, h2⟩

theorem wants_wantOne (order explicit : List Kind) (w : List (Kind × Bool)) (o k : Kind) :
    wants (wantOne order explicit w o) k = true ↔
      wants w k = true ∨ (k ∈ order ∧ SubKind o k) ∨ (k = o ∧ o ∈ explicit) := by
  unfold wantOne
  simp only
  rw [wants_set]
  by_cases hk : k = o
  · rw [if_pos hk, Bool.or_eq_true, decide_eq_true_eq]
    have := wants_wantSupported order w o o
    unfold wants at this
    rw [this]
    subst hk
    simp [or_assoc, wants]
  · rw [if_neg hk, wants_wantSupported]
    simp [hk]

theorem wants_foldl (order explicit only : List Kind) (w : List (Kind × Bool)) (k : Kind) :
    wants (only.foldl (wantOne order explicit) w) k = true ↔
      wants w k = true ∨ (k ∈ order ∧ ∃ o ∈ only, SubKind o k) ∨ (k ∈ only ∧ k ∈ explicit) := by
  induction only generalizing w with
  | nil => simp
  | cons o only ih =>
    rw [List.foldl_cons, ih, wants_wantOne]
    constructor
    · rintro ((h | ⟨h1, h2⟩ | ⟨rfl, h⟩) | ⟨h1, p, hp, h2⟩ | ⟨h1, h2⟩)
      · exact .inl h
      · exact .inr (.inl ⟨h1, o, List.mem_cons_self, h2⟩)
      · exact .inr (.inr ⟨List.mem_cons_self, h⟩)
      · exact .inr (.inl ⟨h1, p, List.mem_cons_of_mem _ hp, h2⟩)
      · exact .inr (.inr ⟨List.mem_cons_of_mem _ h1, h2⟩)
    · rintro (h | ⟨h1, p, hp, h2⟩ | ⟨h1, h2⟩)
      · exact .inl (.inl h)
      · rcases List.mem_cons.1 hp with rfl | hp
        · exact .inl (.inr (.inl ⟨h1, h2⟩))
        · exact .inr (.inl ⟨h1, p, hp, h2⟩)
      · rcases List.mem_cons.1 h1 with rfl | h1
        · exact .inl (.inr (.inr ⟨rfl, h2⟩))
        · exact .inr (.inr ⟨h1, h2⟩)

theorem foldl_ne_nil (order explicit only : List Kind) (w : List (Kind × Bool)) (h : only ≠ []) :
    only.foldl (wantOne order explicit) w ≠ [] := by
  rcases List.eq_nil_or_concat only with rfl | ⟨l, o, rfl⟩
  · exact absurd rfl h
  · rw [List.concat_eq_append, List.foldl_append]
    simp [wantOne, Assoc.set]

/-- **C30** (partial): for a non-empty filter the supported kinds that are wanted are exactly those
that equal or are sub-kinds of a requested kind, whatever the iteration order of the map; for an
empty filter all supported kinds are wanted. Missing: the error for a filter without any supported
kind, which is never reported (`C30_error_violated`). -/
theorem C30_offered_partial (order explicit only : List Kind) (horder : order.Perm supported) :
    ∃ want, requestedKinds order explicit only = some want ∧
      ∀ k ∈ supported, (wants want k = true ↔ only = [] ∨ (∃ o ∈ only, SubKind o k) ∨ (k ∈ only ∧ k ∈ explicit)) := by
  by_cases h : only = []
  · subst h
    refine ⟨supported.map (fun k => (k, true)), rfl, ?_⟩
    intro k hk
    have hn : (Assoc.keys (supported.map (fun k => (k, true)))).Nodup := by decide
    have : Assoc.get (supported.map (fun k => (k, true))) k = some true :=
      Assoc.get_of_mem hn (List.mem_map.2 ⟨k, hk, rfl⟩)
    simp [wants, this]
  · have hl : only.length ≠ 0 := fun h0 => h (List.length_eq_zero_iff.1 h0)
    have hne := foldl_ne_nil order explicit only [] h
    have hl2 : (only.foldl (wantOne order explicit) []).length ≠ 0 :=
      fun h0 => hne (List.length_eq_zero_iff.1 h0)
    refine ⟨only.foldl (wantOne order explicit) [], ?_, ?_⟩
    · unfold requestedKinds
      simp only [if_neg hl, if_neg hl2]
    · intro k hk
      rw [wants_foldl]
      have h0 : ¬ wants [] k = true := by simp [wants, Assoc.get]
      have hko := horder.mem_iff.2 hk
      simp [h0, h, hko]

/-- **C30** (part): nothing outside the supported kinds is ever wanted, except kinds that are given
only on explicit request and were requested. -/
theorem C30_nothing_else (order explicit only : List Kind) (horder : order.Perm supported)
    (want : List (Kind × Bool)) (hw : requestedKinds order explicit only = some want) (k : Kind)
    (hk : wants want k = true) : k ∈ supported ∨ (k ∈ only ∧ k ∈ explicit) := by
  unfold requestedKinds at hw
  simp only at hw
  by_cases h : only.length = 0
  · rw [if_pos h] at hw
    have : want = supported.map (fun k => (k, true)) := (Option.some.inj hw).symm
    subst this
    left
    unfold wants at hk
    cases hg : Assoc.get (supported.map (fun k => (k, true))) k with
    | none => rw [hg] at hk; cases hk
    | some b =>
      obtain ⟨j, hj, he⟩ := List.mem_map.1 (Assoc.get_mem hg)
      cases he
      exact hj
  · simp only [if_neg h] at hw
    split at hw
    · cases hw
    · cases hw
      rw [wants_foldl] at hk
      rcases hk with hk | ⟨hk, _⟩ | hk
      · simp [wants, Assoc.get] at hk
      · exact .inl (horder.mem_iff.1 hk)
      · exact .inr hk

/-- The code violates C30: for a filter that names no supported kind, no error is reported. In fact
it never is, for any filter. -/
theorem C30_error_violated (order explicit : List Kind) (o : Kind) :
    requestedKinds order explicit [o] ≠ none := by
  have hne := foldl_ne_nil order explicit [o] [] (by simp)
  have hl : ([o].foldl (wantOne order explicit) []).length ≠ 0 :=
    fun h0 => hne (List.length_eq_zero_iff.1 h0)
  unfold requestedKinds
  simp only [List.length_cons, List.length_nil, Nat.zero_add, Nat.one_ne_zero, if_false]
  rw [if_neg hl]
  simp

example : requestedKinds supported [] [['x']] = some [(['x'], false)] := by decide
example : ∃ w, requestedKinds supported [] ["refactor".toList] = some w ∧ wants w refactorInline = true ∧
    wants w quickFix = false := ⟨_, rfl, by decide⟩

/-- **C30** (end to end): every action returned by a request is of a kind that was asked for: it is
in the wanted set. Assumes that the import search and the analyzers return actions of the kind they
are asked for. -/
theorem C30_actions (order explicit : List Kind) (imports : Str → Kind → List Action)
    (refactors : Kind → List Action) (himp : ∀ n k, ∀ a ∈ imports n k, a.kind = k)
    (href : ∀ k, ∀ a ∈ refactors k, a.kind = k) (linked mapperOk : Bool) (only : List Kind)
    (diags : List Diag) (want : List (Kind × Bool)) (hw : requestedKinds order explicit only = some want)
    (actions : List Action)
    (h : getCodeActions order explicit imports refactors linked mapperOk only diags = .ok actions) :
    ∀ a ∈ actions, wants want a.kind = true := by
  unfold getCodeActions at h
  rw [hw] at h
  simp only at h
  have hfinish : ∀ l : List Action, (∀ a ∈ l, wants want a.kind = true) → finish want l = .ok actions →
      ∀ a ∈ actions, wants want a.kind = true := by
    intro l hl hf
    unfold finish at hf
    split at hf
    · rename_i horg
      cases hag : aggregate l with
      | none => rw [hag] at hf; cases hf
      | some r =>
        rw [hag] at hf
        cases hf
        -- every action is an old one or the merged one
        have hold : ∀ (as : List Action) (f : List Action) (s : Agg) f' s', aggLoop as (f, s) = some (f', s') →
            ∀ a ∈ f', a ∈ f ∨ a ∈ as := by
          intro as
          induction as with
          | nil => intro f s f' s' h a ha; cases h; exact .inl ha
          | cons b as ih =>
            intro f s f' s' h a ha
            unfold aggLoop at h
            split at h
            · cases he : b.edit with
              | none => rw [he] at h; cases h
              | some ch =>
                rw [he] at h
                rcases ih _ _ _ _ h a ha with h | h
                · exact .inl h
                · exact .inr (List.mem_cons_of_mem _ h)
            · rcases ih _ _ _ _ h a ha with h | h
              · rcases List.mem_append.1 h with h | h
                · exact .inl h
                · rw [List.mem_singleton] at h
                  exact .inr (h ▸ List.mem_cons_self)
              · exact .inr (List.mem_cons_of_mem _ h)
        intro a ha
        unfold aggregate at hag
        split at hag
        · cases hag; cases ha
        · cases hal : aggLoop l ([], {}) with
          | none => rw [hal] at hag; cases hag
          | some p =>
            obtain ⟨f', s'⟩ := p
            rw [hal] at hag
            simp only at hag
            have hf' : ∀ a ∈ f', wants want a.kind = true := by
              intro a ha
              rcases hold l [] {} f' s' hal a ha with h | h
              · cases h
              · exact hl a h
            split at hag
            · cases hag
              exact hf' a ha
            · cases hag
              rcases List.mem_append.1 ha with ha | ha
              · exact hf' a ha
              · rw [List.mem_singleton] at ha
                rw [ha]
                exact horg
    · cases hf
      exact hl
  have hdiag : ∀ (ds : List Diag) l, diagLoop imports want ds = some l → ∀ a ∈ l, wants want a.kind = true := by
    intro ds
    induction ds with
    | nil => intro l hl; cases hl; simp
    | cons d ds ih =>
      intro l hl
      unfold diagLoop at hl
      split at hl
      · exact ih l hl
      · split at hl
        · cases hl
        · cases hrest : diagLoop imports want ds with
          | none => rw [hrest] at hl; cases hl
          | some rest =>
            rw [hrest] at hl
            cases hl
            intro a ha
            rcases List.mem_append.1 ha with ha | ha
            · rcases List.mem_append.1 ha with ha | ha
              · unfold toActions at ha
                obtain ⟨r, _, hr⟩ := List.mem_filterMap.1 ha
                split at hr
                · cases hr
                · split at hr
                  · cases hr; assumption
                  · cases hr
              · cases hu : d.undeclared with
                | none => rw [hu] at ha; cases ha
                | some n =>
                  rw [hu] at ha
                  simp only [undeclaredActions] at ha
                  by_cases hn0 : n = []
                  · rw [if_pos hn0] at ha; cases ha
                  · rw [if_neg hn0] at ha
                    cases hk : undeclaredKind want with
                    | none => rw [hk] at ha; cases ha
                    | some k =>
                      rw [hk] at ha
                      simp only at ha
                      have hka : a.kind = k := by
                        split at ha
                        · cases ha
                        · exact himp n k a ha
                      rw [hka]
                      unfold undeclaredKind at hk
                      split at hk
                      · cases hk; assumption
                      · split at hk
                        · cases hk; assumption
                        · split at hk
                          · cases hk; assumption
                          · cases hk
            · exact ih rest hrest a ha
  cases hd : diagLoop imports want diags with
  | none => rw [hd] at h; cases h
  | some result =>
    rw [hd] at h
    simp only at h
    have hres := hdiag diags result hd
    split at h
    · split at h
      · refine hfinish _ ?_ h
        intro a ha
        rcases List.mem_append.1 ha with ha | ha
        · exact hres a ha
        · unfold refactorActions at ha
          obtain ⟨k, hk, ha⟩ := List.mem_flatMap.1 ha
          rw [href k a ha]
          exact (List.mem_filter.1 hk).2
      · cases h
    · exact hfinish _ hres h

example : getCodeActions supported [] (fun _ k => [⟨"i", k, some []⟩]) (fun k => [⟨"r", k, none⟩]) true true
    [quickFix] [⟨true, true, [⟨"x", quickFix, some "u", []⟩, ⟨"y", fixAll, some "u", []⟩], some ['n']⟩]
    = .ok [⟨"x", quickFix, some [("u", [])]⟩, ⟨"i", quickFix, some []⟩] := by decide

end Verif.CodeActions
