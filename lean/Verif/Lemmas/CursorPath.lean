import Verif.Spec.CursorPath
import Mathlib.Data.List.Induction
import Mathlib.Data.List.Pairwise

namespace Verif.CursorPath

theorem before_irrefl (a : List Nat) : before a a = false := by
  induction a with
  | nil => rfl
  | cons x xs ih => simp [before, ih]

theorem before_append_left (p a b : List Nat) : before (p ++ a) (p ++ b) = before a b := by
  induction p with
  | nil => rfl
  | cons x xs ih => simp [before, ih]

theorem before_nil (a : List Nat) : before a [] = false := by cases a <;> rfl

theorem intersect_iff (s e p : Pos) : intersect s e p = true ↔ s.le p ∧ p.le e := by
  obtain ⟨sl, sc⟩ := s
  obtain ⟨el, ec⟩ := e
  obtain ⟨pl, pc⟩ := p
  simp only [intersect, Pos.le, Pos.lt, Pos.mk.injEq]
  split
  · rename_i h
    simp at h
    simp
    omega
  · rename_i h
    simp at h ⊢
    omega

theorem exclusive_iff (i : Info) (c : Option Close) (p : Pos) :
    intersectsLocationExclusive i c p = true ↔
      i.start.le p ∧ BeforeEnd i c p := by
  unfold BeforeEnd
  cases c with
  | none => simp [intersectsLocationExclusive, intersectsLocation, intersect_iff]
  | some c =>
    simp only [intersectsLocationExclusive]
    by_cases hv : c.virtual = true
    · simp [hv, intersectsLocation, intersect_iff]
    · simp only [hv, Bool.false_eq_true, if_false]
      by_cases h : intersect i.start c.stop p = true
      · rw [if_pos h]
        rw [intersect_iff] at h
        obtain ⟨⟨el, ec⟩, _⟩ := c
        obtain ⟨pl, pc⟩ := p
        constructor
        · intro h'
          refine ⟨h.1, ?_⟩
          have h2 := h.2
          simp only [Pos.le, Pos.lt, Pos.mk.injEq, Bool.or_eq_true, decide_eq_true_eq] at h' h2 ⊢
          omega
        · rintro ⟨-, h'⟩
          simp only [Pos.lt, Bool.or_eq_true, decide_eq_true_eq] at h' ⊢
          omega
      · rw [if_neg h]
        rw [intersect_iff] at h
        simp only [Bool.false_eq_true, false_iff]
        intro ⟨h1, h2⟩
        exact h ⟨h1, Or.inl h2⟩

/-- An rpc that is not closed by a semicolon is never eligible; any other node is eligible
exactly if it is addressable and covers the cursor. -/
theorem eligible_iff (i : Info) (p : Pos) (h : ¬ (i.kind = .rpc ∧ i.semicolon = none)) :
    eligible i p = true ↔ Addressable i.kind ∧ Covers i p := by
  unfold eligible Covers closing Addressable
  cases hk : i.kind <;> simp only [hk, exclusive_iff, true_and, false_and] at h ⊢
  case rpc =>
    cases hs : i.semicolon with
    | none => exact absurd hs h
    | some s => simp only [exclusive_iff]
  case extend =>
    by_cases hi : i.incomplete = true
    · simp [hi, BeforeEnd, intersectsLocation, intersect_iff]
    · simp [hi, exclusive_iff]
  all_goals simp [BeforeEnd, intersectsLocation, intersect_iff]

mutual
theorem mem_collect (p : Pos) (path : List Nat) (len : Nat) (f : Found) :
    (n : Node) → (f ∈ collect p path len n ↔
      ∃ q l i, At (fun _ => True) n q l i ∧ f ∈ here i p (path ++ q) (len + l))
  | .mk i entered kids => by
    unfold collect
    cases entered with
    | false =>
      simp only [Bool.false_eq_true, if_false, List.not_mem_nil, false_iff]
      rintro ⟨q, l, j, h, _⟩
      cases h
    | true =>
      simp only [if_true, List.mem_append]
      rw [mem_collectKids p path len 0 f kids]
      constructor
      · rintro (h | ⟨k, steps, n, hk, q, l, j, ha, hf⟩)
        · exact ⟨[], 0, i, .here _ _, by simpa using h⟩
        · refine ⟨k :: q, steps + l, j, .kid _ _ _ _ _ _ _ _ trivial hk ha, ?_⟩
          simpa [Nat.add_assoc] using hf
      · rintro ⟨q, l, j, h, hf⟩
        cases h with
        | here => left; simpa using hf
        | kid _ _ k steps n path' len' _ _ hk ha =>
          right
          exact ⟨k, steps, n, hk, path', len', j, ha, by simpa [Nat.add_assoc] using hf⟩
theorem mem_collectKids (p : Pos) (path : List Nat) (len k0 : Nat) (f : Found) :
    (kids : List (Nat × Node)) → (f ∈ collectKids p path len k0 kids ↔
      ∃ k steps n, kids[k]? = some (steps, n) ∧ ∃ q l i, At (fun _ => True) n q l i ∧
        f ∈ here i p (path ++ (k0 + k) :: q) (len + steps + l))
  | [] => by simp [collectKids]
  | (steps, n) :: rest => by
    unfold collectKids
    rw [List.mem_append, mem_collect p (path ++ [k0]) (len + steps) f n,
      mem_collectKids p path len (k0 + 1) f rest]
    constructor
    · rintro (⟨q, l, i, ha, hf⟩ | ⟨k, steps', n', hk, q, l, i, ha, hf⟩)
      · exact ⟨0, steps, n, rfl, q, l, i, ha, by simpa using hf⟩
      · refine ⟨k + 1, steps', n', by simpa using hk, q, l, i, ha, ?_⟩
        have : k0 + 1 + k = k0 + (k + 1) := by omega
        rwa [this] at hf
    · rintro ⟨k, steps', n', hk, q, l, i, ha, hf⟩
      cases k with
      | zero =>
        simp only [List.getElem?_cons_zero, Option.some.injEq, Prod.mk.injEq] at hk
        obtain ⟨rfl, rfl⟩ := hk
        left
        exact ⟨q, l, i, ha, by simpa using hf⟩
      | succ k =>
        right
        refine ⟨k, steps', n', by simpa using hk, q, l, i, ha, ?_⟩
        have : k0 + 1 + k = k0 + (k + 1) := by omega
        rwa [this]
end

theorem here_path {i : Info} {p : Pos} {path : List Nat} {len : Nat} {f : Found}
    (h : f ∈ here i p path len) : f.path = path := by
  unfold here at h
  rw [List.mem_append] at h
  rcases h with h | h
  · split at h
    · rw [List.mem_singleton] at h; rw [h]
    · simp at h
  · split at h
    · rw [List.mem_singleton] at h; rw [h]
    · simp at h

/-- No element comes before an earlier one. -/
def Ordered (l : List Found) : Prop := l.Pairwise (fun a b => before b.path a.path = false)

mutual
theorem collect_ordered (p : Pos) (path : List Nat) (len : Nat) :
    (n : Node) → Ordered (collect p path len n)
  | .mk i entered kids => by
    unfold collect
    cases entered with
    | false => exact List.Pairwise.nil
    | true =>
      simp only [if_true]
      refine List.pairwise_append.mpr ⟨?_, collectKids_ordered p path len 0 kids, ?_⟩
      · have : ∀ a ∈ here i p path len, ∀ b ∈ here i p path len, before b.path a.path = false := by
          intro a ha b hb
          rw [here_path ha, here_path hb]
          exact before_irrefl _
        exact List.pairwise_of_forall_mem_list this
      · intro a ha b hb
        rw [here_path ha]
        rw [mem_collectKids] at hb
        obtain ⟨k, steps, n, hk, q, l, j, hat, hf⟩ := hb
        rw [here_path hf]
        have := before_append_left path ((0 + k) :: q) []
        rw [List.append_nil] at this
        rw [this]
        rfl
theorem collectKids_ordered (p : Pos) (path : List Nat) (len k0 : Nat) :
    (kids : List (Nat × Node)) → Ordered (collectKids p path len k0 kids)
  | [] => List.Pairwise.nil
  | (steps, n) :: rest => by
    unfold collectKids
    refine List.pairwise_append.mpr ⟨collect_ordered p _ _ n,
      collectKids_ordered p path len (k0 + 1) rest, ?_⟩
    intro a ha b hb
    rw [mem_collect] at ha
    obtain ⟨q, l, i, _, hf⟩ := ha
    rw [mem_collectKids] at hb
    obtain ⟨k, steps', n', hk, q', l', j, _, hf'⟩ := hb
    rw [here_path hf, here_path hf', List.append_assoc, before_append_left]
    simp only [List.singleton_append, before]
    have h1 : ¬ (k0 + 1 + k < k0) := by omega
    have h2 : ((k0 + 1 + k) == k0) = false := by simp; omega
    simp [h1, h2]
end

/-- The loop returns the first of the longest paths. -/
theorem longest_spec (best : Found) (l : List Found) :
    ∃ l1 l2, best :: l = l1 ++ longest best l :: l2 ∧ (∀ x ∈ l1, x.len < (longest best l).len)
      ∧ ∀ x ∈ l2, x.len ≤ (longest best l).len := by
  induction l generalizing best with
  | nil => exact ⟨[], [], rfl, by simp, by simp⟩
  | cons f rest ih =>
    unfold longest
    split
    · rename_i h
      obtain ⟨l1, l2, he, h1, h2⟩ := ih f
      refine ⟨best :: l1, l2, by rw [he]; rfl, ?_, h2⟩
      intro x hx
      rcases List.mem_cons.mp hx with rfl | hx
      · cases l1 with
        | nil =>
          simp only [List.nil_append, List.cons.injEq] at he
          rw [← he.1]; exact h
        | cons y ys =>
          simp only [List.cons_append, List.cons.injEq] at he
          have := h1 y (by simp)
          rw [← he.1] at this
          omega
      · exact h1 x hx
    · rename_i h
      obtain ⟨l1, l2, he, h1, h2⟩ := ih best
      cases l1 with
      | nil =>
        simp only [List.nil_append, List.cons.injEq] at he
        refine ⟨[], f :: rest, by rw [← he.1]; rfl, by simp, ?_⟩
        intro x hx
        rcases List.mem_cons.mp hx with rfl | hx
        · rw [← he.1]; omega
        · exact h2 x (by rw [← he.2]; exact hx)
      | cons y ys =>
        simp only [List.cons_append, List.cons.injEq] at he
        refine ⟨y :: f :: ys, l2, by
          have h2 := he.2
          rw [he.1] at h2 ⊢
          simp only [List.cons_append]
          rw [← h2], ?_, h2⟩
        intro x hx
        have hy := h1 y (by simp)
        rw [← he.1] at hy
        rcases List.mem_cons.mp hx with rfl | hx
        · exact h1 x (by simp)
        · rcases List.mem_cons.mp hx with rfl | hx
          · omega
          · exact h1 x (by simp [hx])

/-! ### The selection -/

mutual
/-- The recorded paths, in document order. -/
def recs (v : Kind → Visit) (path : List Nat) (len : Nat) : Node → List Found
  | .mk i entered kids =>
    if entered then
      match v i.kind with
      | .skip => []
      | .descend => recsKids v path len 0 kids
      | .record => { path := path, name := false, len := len } :: recsKids v path len 0 kids
    else []
def recsKids (v : Kind → Visit) (path : List Nat) (len k : Nat) : List (Nat × Node) → List Found
  | [] => []
  | (steps, n) :: rest =>
    recs v (path ++ [k]) (len + steps) n ++ recsKids v path len (k + 1) rest
end

/-- The slice after a number of visits. -/
def keep (acc : List Found) (l : List Found) : List Found :=
  l.foldl (fun acc f => visitEnclosingRange f acc) acc

theorem keep_append (acc l1 l2 : List Found) : keep acc (l1 ++ l2) = keep (keep acc l1) l2 := by
  simp [keep]

mutual
theorem visit_eq (v : Kind → Visit) (path : List Nat) (len : Nat) (acc : List Found) :
    (n : Node) → visit v path len acc n = keep acc (recs v path len n)
  | .mk i entered kids => by
    unfold visit recs
    cases entered with
    | false => rfl
    | true =>
      simp only [if_true]
      cases v i.kind with
      | skip => rfl
      | descend => exact visitKids_eq v path len 0 acc kids
      | record => simp only; rw [visitKids_eq v path len 0 _ kids]; rfl
theorem visitKids_eq (v : Kind → Visit) (path : List Nat) (len k : Nat) (acc : List Found) :
    (kids : List (Nat × Node)) →
      visitKids v path len k acc kids = keep acc (recsKids v path len k kids)
  | [] => rfl
  | (steps, n) :: rest => by
    unfold visitKids recsKids
    rw [visitKids_eq v path len (k + 1) _ rest, visit_eq v _ _ _ n, keep_append]
end

mutual
theorem mem_recs (v : Kind → Visit) (path : List Nat) (len : Nat) (f : Found) :
    (n : Node) → (f ∈ recs v path len n ↔
      ∃ q l i, At (fun j => v j.kind ≠ .skip) n q l i ∧ v i.kind = .record ∧
        f = { path := path ++ q, name := false, len := len + l })
  | .mk i entered kids => by
    unfold recs
    cases entered with
    | false =>
      simp only [Bool.false_eq_true, if_false, List.not_mem_nil, false_iff]
      rintro ⟨q, l, j, h, _⟩
      cases h
    | true =>
      have key : ((∃ k steps n, kids[k]? = some (steps, n) ∧ ∃ q l j,
            At (fun j => v j.kind ≠ .skip) n q l j ∧ v j.kind = .record ∧
            f = { path := path ++ (0 + k) :: q, name := false, len := len + steps + l })
            ∧ v i.kind ≠ .skip) ∨ (v i.kind = .record ∧
              f = { path := path, name := false, len := len }) ↔
          ∃ q l j, At (fun j => v j.kind ≠ .skip) (.mk i true kids) q l j ∧ v j.kind = .record ∧
            f = { path := path ++ q, name := false, len := len + l } := by
        constructor
        · rintro (⟨⟨k, steps, n, hk, q, l, j, ha, hr, hf⟩, hs⟩ | ⟨hr, hf⟩)
          · exact ⟨k :: q, steps + l, j, .kid _ _ _ _ _ _ _ _ hs hk ha, hr, by
              simpa [Nat.add_assoc] using hf⟩
          · exact ⟨[], 0, i, .here _ _, hr, by simpa using hf⟩
        · rintro ⟨q, l, j, h, hr, hf⟩
          cases h with
          | here => right; exact ⟨hr, by simpa using hf⟩
          | kid _ _ k steps n path' len' _ hs hk ha =>
            left
            exact ⟨⟨k, steps, n, hk, path', len', j, ha, hr, by
              simpa [Nat.add_assoc] using hf⟩, hs⟩
      rw [← key, ← mem_recsKids v path len 0 f kids]
      simp only [if_true]
      cases hv : v i.kind with
      | skip => simp
      | descend => simp
      | record => simp [or_comm]
theorem mem_recsKids (v : Kind → Visit) (path : List Nat) (len k0 : Nat) (f : Found) :
    (kids : List (Nat × Node)) → (f ∈ recsKids v path len k0 kids ↔
      ∃ k steps n, kids[k]? = some (steps, n) ∧ ∃ q l i,
        At (fun j => v j.kind ≠ .skip) n q l i ∧ v i.kind = .record ∧
        f = { path := path ++ (k0 + k) :: q, name := false, len := len + steps + l })
  | [] => by simp [recsKids]
  | (steps, n) :: rest => by
    unfold recsKids
    rw [List.mem_append, mem_recs v (path ++ [k0]) (len + steps) f n,
      mem_recsKids v path len (k0 + 1) f rest]
    constructor
    · rintro (⟨q, l, i, ha, hr, hf⟩ | ⟨k, steps', n', hk, q, l, i, ha, hr, hf⟩)
      · exact ⟨0, steps, n, rfl, q, l, i, ha, hr, by simpa using hf⟩
      · refine ⟨k + 1, steps', n', by simpa using hk, q, l, i, ha, hr, ?_⟩
        have : k0 + 1 + k = k0 + (k + 1) := by omega
        rwa [this] at hf
    · rintro ⟨k, steps', n', hk, q, l, i, ha, hr, hf⟩
      cases k with
      | zero =>
        simp only [List.getElem?_cons_zero, Option.some.injEq, Prod.mk.injEq] at hk
        obtain ⟨rfl, rfl⟩ := hk
        left
        exact ⟨q, l, i, ha, hr, by simpa using hf⟩
      | succ k =>
        right
        refine ⟨k, steps', n', by simpa using hk, q, l, i, ha, hr, ?_⟩
        have : k0 + 1 + k = k0 + (k + 1) := by omega
        rwa [this]
end

mutual
theorem recs_ordered (v : Kind → Visit) (path : List Nat) (len : Nat) :
    (n : Node) → (recs v path len n).Pairwise (fun a b => before a.path b.path = true)
  | .mk i entered kids => by
    unfold recs
    cases entered with
    | false => exact List.Pairwise.nil
    | true =>
      simp only [if_true]
      cases v i.kind with
      | skip => exact List.Pairwise.nil
      | descend => exact recsKids_ordered v path len 0 kids
      | record =>
        refine List.Pairwise.cons ?_ (recsKids_ordered v path len 0 kids)
        intro b hb
        rw [mem_recsKids] at hb
        obtain ⟨k, steps, n, hk, q, l, j, hat, _, hf⟩ := hb
        rw [hf]
        have := before_append_left path [] ((0 + k) :: q)
        rw [List.append_nil] at this
        simp only
        rw [this]
        rfl
theorem recsKids_ordered (v : Kind → Visit) (path : List Nat) (len k0 : Nat) :
    (kids : List (Nat × Node)) →
      (recsKids v path len k0 kids).Pairwise (fun a b => before a.path b.path = true)
  | [] => List.Pairwise.nil
  | (steps, n) :: rest => by
    unfold recsKids
    refine List.pairwise_append.mpr ⟨recs_ordered v _ _ n,
      recsKids_ordered v path len (k0 + 1) rest, ?_⟩
    intro a ha b hb
    rw [mem_recs] at ha
    obtain ⟨q, l, i, _, _, hf⟩ := ha
    rw [mem_recsKids] at hb
    obtain ⟨k, steps', n', hk, q', l', j, _, _, hf'⟩ := hb
    rw [hf, hf']
    simp only [List.append_assoc]
    rw [before_append_left]
    simp only [List.singleton_append, before]
    have h1 : k0 < k0 + 1 + k := by omega
    simp [h1]
end

/-- After the walk, the last paths of the slice are those of the greatest length. -/
theorem keep_spec (l : List Found) (hl : l ≠ []) :
    ∃ pre m, keep [] l = pre ++ l.filter (fun f => f.len == m) ∧ (∀ x ∈ pre, x.len < m)
      ∧ (∀ x ∈ l, x.len ≤ m) ∧ ∃ x ∈ l, x.len = m := by
  induction l using List.reverseRecOn with
  | nil => exact absurd rfl hl
  | append_singleton l f ih =>
    rw [keep_append]
    by_cases hl' : l = []
    · subst hl'
      exact ⟨[], f.len, by simp [keep, visitEnclosingRange], by simp, by simp, by simp⟩
    · obtain ⟨pre, m, he, hpre, hle, x, hx, hxm⟩ := ih hl'
      rw [he]
      have hmem : x ∈ l.filter (fun f => f.len == m) := by simp [hx, hxm]
      have hne : l.filter (fun f => f.len == m) ≠ [] := List.ne_nil_of_mem hmem
      have hlast : ∃ y, (pre ++ l.filter (fun f => f.len == m)).getLast? = some y ∧ y.len = m := by
        obtain ⟨y, hy⟩ := List.getLast?_isSome.mpr hne |> Option.isSome_iff_exists.mp
        refine ⟨y, by rw [List.getLast?_append, hy]; rfl, ?_⟩
        have := List.mem_of_getLast? hy
        simpa using (List.mem_filter.mp this).2
      obtain ⟨y, hy, hym⟩ := hlast
      have hstep : keep (pre ++ l.filter (fun f => f.len == m)) [f] =
          if f.len ≥ m then (pre ++ l.filter (fun f => f.len == m)) ++ [f]
          else pre ++ l.filter (fun f => f.len == m) := by
        simp only [keep, List.foldl_cons, List.foldl_nil, visitEnclosingRange, hy, hym]
      rw [hstep]
      rcases Nat.lt_trichotomy f.len m with hlt | heq | hgt
      · refine ⟨pre, m, ?_, hpre, ?_, x, by simp [hx], hxm⟩
        · rw [if_neg (by omega), List.filter_append]
          have : (f.len == m) = false := by simp; omega
          simp [this]
        · intro z hz
          rcases List.mem_append.mp hz with hz | hz
          · exact hle z hz
          · rw [List.mem_singleton] at hz; subst hz; omega
      · refine ⟨pre, m, ?_, hpre, ?_, x, by simp [hx], hxm⟩
        · rw [if_pos (by omega), List.filter_append]
          simp [heq]
        · intro z hz
          rcases List.mem_append.mp hz with hz | hz
          · exact hle z hz
          · rw [List.mem_singleton] at hz; subst hz; omega
      · refine ⟨pre ++ l.filter (fun f => f.len == m), f.len, ?_, ?_, ?_, f, by simp, rfl⟩
        · rw [if_pos (by omega), List.filter_append]
          have : l.filter (fun g => g.len == f.len) = [] := by
            rw [List.filter_eq_nil_iff]
            intro z hz
            have := hle z hz
            simp; omega
          simp [this]
        · intro z hz
          rcases List.mem_append.mp hz with hz | hz
          · have := hpre z hz; omega
          · have := (List.mem_filter.mp hz).2
            simp at this; omega
        · intro z hz
          rcases List.mem_append.mp hz with hz | hz
          · have := hle z hz; omega
          · rw [List.mem_singleton] at hz; subst hz; omega

theorem lowerBound_spec (m : Nat) (a b : List Found) (ha : ∀ x ∈ a, x.len = m)
    (hb : ∀ x ∈ b, x.len < m) : lowerBound m (a ++ b) = a := by
  induction a with
  | nil =>
    cases b with
    | nil => rfl
    | cons y ys => simp [lowerBound, hb y (by simp)]
  | cons x xs ih =>
    have hx := ha x (by simp)
    simp only [List.cons_append, lowerBound]
    rw [if_neg (by omega), hx, ih (fun z hz => ha z (by simp [hz]))]

end Verif.CursorPath
