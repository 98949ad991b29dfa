import Verif.Model.Symbols
import Verif.Util.Sort

/-!
# C14, C15: workspace symbols
-/
namespace Verif.Symbols

/-! ## C14 -/

/-- `a` is a better answer than `b`: higher score, then shorter, then alphabetically
first. -/
def Better (a b : Entry) : Prop :=
  b.score < a.score ∨
  (b.score = a.score ∧ (a.sym.length < b.sym.length ∨
    (a.sym.length = b.sym.length ∧ a.sym < b.sym)))

/-- Best-first order of scores. -/
def descending (scores : List Nat) : List Nat := isort (fun a b => decide (b ≤ a)) scores

theorem behind_iff (r si : Entry) : behind r si = true ↔ Better si r := by
  simp only [behind, Better]
  split
  · rename_i h; simp; omega
  · rename_i h
    have h' : r.score = si.score := by simpa using h
    split
    · rename_i h2; simp [h']; omega
    · rename_i h2
      have h2' : r.sym.length = si.sym.length := by simpa using h2
      simp [h', h2']

/-- Replacing the right-hand side by something not better. -/
theorem Better.trans_not {a b c : Entry} (h : Better a b) (hn : ¬ Better c b) : Better a c := by
  simp only [Better] at *
  by_cases e1 : b.score < a.score
  · by_cases e2 : c.score < a.score
    · exact Or.inl e2
    · exact absurd (Or.inl (by omega)) hn
  · rcases h with h | ⟨h1, h⟩
    · exact absurd h e1
    · by_cases e2 : c.score < a.score
      · exact Or.inl e2
      · have e3 : c.score = a.score := by
          by_cases e4 : b.score < c.score
          · exact absurd (Or.inl e4) hn
          · omega
        refine Or.inr ⟨e3, ?_⟩
        have hn' : ¬ (c.sym.length < b.sym.length ∨ (c.sym.length = b.sym.length ∧ c.sym < b.sym)) :=
          fun hh => hn (Or.inr ⟨by omega, hh⟩)
        rcases h with h | ⟨h3, h⟩
        · left
          have : ¬ c.sym.length < b.sym.length := fun hh => hn' (Or.inl hh)
          omega
        · have l1 : ¬ c.sym.length < b.sym.length := fun hh => hn' (Or.inl hh)
          by_cases l2 : a.sym.length < c.sym.length
          · exact Or.inl l2
          · have l3 : c.sym.length = b.sym.length := by omega
            refine Or.inr ⟨by omega, ?_⟩
            have : b.sym ≤ c.sym := List.not_lt.mp (fun hh => hn' (Or.inr ⟨l3, hh⟩))
            exact Decidable.byContradiction fun hac =>
              absurd (List.lt_of_le_of_lt this (List.lt_of_le_of_lt (List.not_lt.mp hac) h))
                (List.lt_irrefl _)

/-- The array is sorted best first. -/
def Sorted (l : List Entry) : Prop := l.Pairwise (fun a b => ¬ Better b a)

theorem Better.score_le {a b : Entry} (h : ¬ Better b a) : b.score ≤ a.score := by
  by_cases e : a.score < b.score
  · exact absurd (Or.inl e) h
  · omega

theorem Better.irrefl (a : Entry) : ¬ Better a a := by
  simp [Better, List.lt_irrefl]

theorem Better.asymm {a b : Entry} (h : Better a b) : ¬ Better b a := by
  simp only [Better] at *
  intro h'
  by_cases e : b.score = a.score
  · by_cases e2 : a.sym.length = b.sym.length
    · have l1 : a.sym < b.sym := by
        rcases h with h | ⟨_, h | ⟨_, h⟩⟩
        · omega
        · omega
        · exact h
      have l2 : b.sym < a.sym := by
        rcases h' with h | ⟨_, h | ⟨_, h⟩⟩
        · omega
        · omega
        · exact h
      exact List.lt_irrefl _ (List.lt_trans l1 l2)
    · omega
  · omega

/-- Invariant of the store: sorted, full length, and everything thrown away (`D`) scores
at most as high as anything kept. -/
structure Inv (k : Nat) (stored A : List Entry) : Prop where
  len : A.length = k
  sorted : Sorted A
  rest : ∃ D, (A ++ D).Perm (stored ++ List.replicate k Entry.zero) ∧
    ∀ d ∈ D, ∀ a ∈ A, d.score ≤ a.score

theorem last_le {A : List Entry} {last : Entry} (hs : Sorted A) (hl : A.getLast? = some last) :
    ∀ a ∈ A, last.score ≤ a.score := by
  obtain ⟨ys, e⟩ := List.getLast?_eq_some_iff.mp hl
  intro a ha
  rw [e] at ha hs
  rcases List.mem_append.mp ha with ha | ha
  · exact Better.score_le ((List.pairwise_append.mp hs).2.2 a ha last (by simp))
  · simp at ha; rw [ha]; exact Nat.le_refl _

theorem store_inv {k : Nat} {L A : List Entry} (hk : 0 < k) (h : Inv k L A) (si : Entry) :
    ∃ A', store A si = some A' ∧ Inv k (si :: L) A' := by
  obtain ⟨hlen, hs, D, hperm, hD⟩ := h
  cases hl : A.getLast? with
  | none => rw [List.getLast?_eq_none_iff] at hl; subst hl; simp at hlen; omega
  | some last =>
    have hmin := last_le hs hl
    have hlast : last ∈ A := List.mem_of_getLast? hl
    by_cases hlow : si.score ≤ last.score
    · refine ⟨A, by simp [store, tooLow, hl, hlow], hlen, hs, si :: D, ?_, ?_⟩
      · exact (List.perm_middle).trans (hperm.cons si)
      · intro d hd a ha
        have := hmin a ha
        rcases List.mem_cons.mp hd with rfl | hd
        · omega
        · exact hD d hd a ha
    · -- binary search
      have mono : ∀ a b, a ≤ b → b < A.length → behindAt A si a = true → behindAt A si b = true := by
        intro a b hab hb h
        have ha : a < A.length := by omega
        simp only [behindAt, List.getElem?_eq_getElem ha, List.getElem?_eq_getElem hb, behind_iff] at h ⊢
        by_cases e : a = b
        · subst e; exact h
        · exact h.trans_not (List.pairwise_iff_getElem.mp hs a b ha hb (by omega))
      obtain ⟨h1, h2, h3⟩ := sortSearch_spec (behindAt A si) A.length mono
      generalize hi : sortSearch A.length (behindAt A si) = i at h1 h2 h3
      have hlt : i < A.length := by
        rcases Nat.lt_or_ge i A.length with h | h
        · exact h
        · have h4 := h2 (A.length - 1) (by omega)
          have e : A[A.length - 1]? = some last := by rw [← List.getLast?_eq_getElem?]; exact hl
          simp only [behindAt, e] at h4
          have : behind last si = true := (behind_iff _ _).mpr (Or.inl (by omega))
          rw [this] at h4; cases h4
      have hst : store A si = some (A.take i ++ si :: (A.drop i).dropLast) := by
        simp [store, tooLow, hl, hlow, hi, hlt]
      have hdrop : (A.drop i).dropLast ++ [last] = A.drop i := by
        have hne : A.drop i ≠ [] := by
          intro e; have := congrArg List.length e; simp at this; omega
        have e2 : (A.drop i).getLast hne = last := by
          have := List.getLast?_drop (l := A) (i := i)
          rw [if_neg (by omega), hl, List.getLast?_eq_some_getLast hne] at this
          exact Option.some.inj this
        rw [← e2]
        exact List.dropLast_concat_getLast hne
      have hA : A.take i ++ ((A.drop i).dropLast ++ [last]) = A := by
        rw [hdrop]; exact List.take_append_drop i A
      have hbefore : ∀ a ∈ A.take i, ¬ Better si a := by
        intro a ha hb
        obtain ⟨n, hn, e⟩ := List.mem_take_iff_getElem.mp ha
        have := h2 n (by omega)
        rw [behindAt, List.getElem?_eq_getElem (by omega)] at this
        have hb' : behind A[n] si = true := (behind_iff _ _).mpr (e ▸ hb)
        simp only at this
        rw [hb'] at this; cases this
      have hafter : ∀ a ∈ A.drop i, Better si a := by
        intro a ha
        obtain ⟨n, hn, e⟩ := List.mem_drop_iff_getElem.mp ha
        have := h3 (i + n) (by omega) (by omega)
        rw [behindAt, List.getElem?_eq_getElem (by omega)] at this
        have := (behind_iff _ _).mp this
        rwa [e] at this
      have hmem : ∀ a ∈ (A.drop i).dropLast, a ∈ A.drop i := fun a ha => List.dropLast_subset _ ha
      refine ⟨_, hst, ?_, ?_, last :: D, ?_, ?_⟩
      · have := congrArg List.length hA
        simp only [List.length_append, List.length_cons, List.length_nil] at this ⊢
        omega
      · have hs' := hs
        rw [← hA] at hs'
        obtain ⟨p1, p2, p3⟩ := List.pairwise_append.mp hs'
        obtain ⟨p4, _, _⟩ := List.pairwise_append.mp p2
        refine List.pairwise_append.mpr ⟨p1, List.pairwise_cons.mpr ⟨?_, p4⟩, ?_⟩
        · intro b hb
          exact (hafter b (hmem b hb)).asymm
        · intro a ha b hb
          rcases List.mem_cons.mp hb with rfl | hb
          · exact hbefore a ha
          · exact p3 a ha b (List.mem_append_left _ hb)
      · have e : (A.take i ++ si :: (A.drop i).dropLast ++ last :: D).Perm (si :: (A ++ D)) := by
          have e1 : A.take i ++ si :: (A.drop i).dropLast ++ last :: D =
              A.take i ++ si :: ((A.drop i).dropLast ++ last :: D) := by simp
          have e2 : A ++ D = A.take i ++ ((A.drop i).dropLast ++ last :: D) := by
            conv => lhs; rw [← hA]
            simp
          rw [e1, e2]
          exact List.perm_middle
        exact e.trans (hperm.cons si)
      · intro d hd a ha
        have hd' : d.score ≤ last.score := by
          rcases List.mem_cons.mp hd with rfl | hd
          · exact Nat.le_refl _
          · exact hD d hd last hlast
        rcases List.mem_append.mp ha with ha | ha
        · have := hmin a (List.mem_of_mem_take ha); omega
        · rcases List.mem_cons.mp ha with rfl | ha
          · omega
          · have := hmin a (List.mem_of_mem_drop (hmem a ha)); omega

theorem foldlM_inv {k : Nat} (hk : 0 < k) (xs : List Entry) {L A : List Entry} (h : Inv k L A) :
    ∃ A', xs.foldlM store A = some A' ∧ ∃ L', L'.Perm (xs ++ L) ∧ Inv k L' A' := by
  induction xs generalizing L A with
  | nil => exact ⟨A, rfl, L, List.Perm.refl _, h⟩
  | cons x xs ih =>
    obtain ⟨A1, h1, h2⟩ := store_inv hk h x
    obtain ⟨A2, h3, L', h4, h5⟩ := ih h2
    refine ⟨A2, ?_, L', ?_, h5⟩
    · rw [List.foldlM_cons, h1]; exact h3
    · exact h4.trans List.perm_middle

theorem results_eq {β : Type} (resolve : Entry → Option β) (A : List Entry) :
    results resolve A = (A.takeWhile (fun e => decide (0 < e.score))).filterMap resolve := by
  induction A with
  | nil => rfl
  | cons a t ih =>
    simp only [results, List.takeWhile_cons]
    by_cases h : a.score = 0
    · simp [h]
    · have h' : decide (0 < a.score) = true := by simp; omega
      simp only [h, if_false, h', if_true, List.filterMap_cons]
      cases resolve a <;> simp [ih]

theorem takeWhile_eq_filter {A : List Entry} (hs : Sorted A) :
    A.takeWhile (fun e => decide (0 < e.score)) = A.filter (fun e => decide (0 < e.score)) := by
  induction A with
  | nil => rfl
  | cons a t ih =>
    obtain ⟨h1, h2⟩ := List.pairwise_cons.mp hs
    simp only [List.takeWhile_cons, List.filter_cons]
    split
    · rw [ih h2]
    · rename_i h
      symm
      apply List.filter_eq_nil_iff.mpr
      intro b hb
      have := Better.score_le (h1 b hb)
      simp at h ⊢; omega

theorem descending_unique {l l' : List Nat} (hp : l.Perm l')
    (hs : l.Pairwise (fun a b => b ≤ a)) : l = descending l' := by
  have hs' : (descending l').Pairwise (fun a b => b ≤ a) := by
    refine (isort_pairwise (le := fun a b => decide (b ≤ a)) ?_ ?_ l').imp ?_
    · intro a b; simp; omega
    · intro a b c h1 h2; simp at *; omega
    · intro a b h; simpa using h
  refine List.Perm.eq_of_pairwise ?_ hs hs' (hp.trans (isort_perm _ _).symm)
  intro a b _ _ h1 h2; omega

/-- C14: for any sequence of stored symbols and any resolver, the store never fails, and
the answer consists of the resolved forms of symbols `kept` such that: they are among the
stored ones (each as often at most as it was stored), they are ordered best first, and
their scores are the 100 highest of all positive scores. -/
theorem C14_best {β : Type} (xs : List Entry) (resolve : Entry → Option β) :
    ∃ (arr kept rest : List Entry), storeAll maxSymbols xs = some arr ∧
      results resolve arr = kept.filterMap resolve ∧
      (kept ++ rest).Perm xs ∧
      kept.Pairwise (fun a b => ¬ Better b a) ∧
      kept.map Entry.score = (descending ((xs.map Entry.score).filter (0 < ·))).take 100 := by
  have h0 : Inv maxSymbols [] (List.replicate maxSymbols Entry.zero) := by
    refine ⟨by simp, ?_, [], by simp, by simp⟩
    refine List.pairwise_replicate.mpr (Or.inr (Better.irrefl _))
  obtain ⟨A, hA, L, hL, hlen, hs, D, hperm, hD⟩ := foldlM_inv (by decide) xs h0
  have hL' : L.Perm xs := by simpa using hL
  let pos : Entry → Bool := fun e => decide (0 < e.score)
  have hfz : ((List.replicate maxSymbols Entry.zero).filter pos) = [] := by
    apply List.filter_eq_nil_iff.mpr
    intro e he
    rw [List.eq_of_mem_replicate he]; decide
  have hfp : (A.filter pos ++ D.filter pos).Perm (xs.filter pos) := by
    have := (hperm.filter pos)
    rw [List.filter_append, List.filter_append, hfz, List.append_nil] at this
    exact this.trans (hL'.filter pos)
  have hks : Sorted (A.filter pos) := List.Pairwise.filter pos hs
  refine ⟨A, A.filter pos, D.filter pos ++ xs.filter (fun e => !pos e), hA, ?_, ?_, hks, ?_⟩
  · rw [results_eq, takeWhile_eq_filter hs]
  · rw [← List.append_assoc]
    exact (hfp.append_right _).trans (List.filter_append_perm pos xs)
  · have hsc : ((A.filter pos).map Entry.score ++ descending ((D.filter pos).map Entry.score)).Perm
        ((xs.map Entry.score).filter (0 < ·)) := by
      have e : (xs.map Entry.score).filter (0 < ·) = (xs.filter pos).map Entry.score := by
        rw [List.filter_map]; rfl
      rw [e]
      refine ((isort_perm _ _).append_left _).trans ?_
      rw [← List.map_append]
      exact hfp.map _
    have hmem : ∀ x ∈ descending ((D.filter pos).map Entry.score), ∀ a ∈ A, x ≤ a.score := by
      intro x hx a ha
      have := (isort_perm _ _).mem_iff.mp hx
      obtain ⟨d, hd, e⟩ := List.mem_map.mp this
      rw [← e]; exact hD d (List.mem_filter.mp hd).1 a ha
    have hpw : ((A.filter pos).map Entry.score ++
        descending ((D.filter pos).map Entry.score)).Pairwise (fun a b => b ≤ a) := by
      refine List.pairwise_append.mpr ⟨?_, ?_, ?_⟩
      · rw [List.pairwise_map]
        exact hks.imp (fun h => Better.score_le h)
      · refine (isort_pairwise (le := fun a b => decide (b ≤ a)) ?_ ?_ _).imp ?_
        · intro a b; simp; omega
        · intro a b c h1 h2; simp at *; omega
        · intro a b h; simpa using h
      · intro a ha b hb
        obtain ⟨e, he, h⟩ := List.mem_map.mp ha
        rw [← h]; exact hmem b hb e (List.mem_filter.mp he).1
    rw [← descending_unique hsc hpw]
    have hle : (A.filter pos).length ≤ 100 := by
      have := List.length_filter_le pos A
      rw [hlen] at this; exact this
    by_cases hfull : (A.filter pos).length = 100
    · rw [List.take_append_of_le_length (by simp [hfull])]
      rw [List.take_of_length_le (by simp [hfull])]
    · -- some slot is still empty, so nothing was thrown away
      have hex : ∃ a ∈ A, a.score = 0 := by
        apply Decidable.byContradiction
        intro hne
        have : A.filter pos = A := List.filter_eq_self.mpr fun a ha => by
          have : a.score ≠ 0 := fun e => hne ⟨a, ha, e⟩
          simp [pos]; omega
        rw [this] at hfull
        exact hfull hlen
      obtain ⟨a, ha, ha0⟩ := hex
      have hDn : D.filter pos = [] := by
        apply List.filter_eq_nil_iff.mpr
        intro d hd
        have := hD d hd a ha
        simp [pos]; omega
      rw [hDn]
      simp only [List.map_nil, descending, isort, List.append_nil]
      rw [List.take_of_length_le (by simpa using hle)]

/-- C14: at most 100 entries are returned. -/
theorem C14_at_most_100 {β : Type} (xs : List Entry) (resolve : Entry → Option β)
    (arr : List Entry) (h : storeAll maxSymbols xs = some arr) :
    (results resolve arr).length ≤ 100 := by
  obtain ⟨arr', kept, rest, h1, h2, _, _, h5⟩ := C14_best xs resolve
  rw [h] at h1
  obtain rfl := Option.some.inj h1
  rw [h2]
  have h6 := congrArg List.length h5
  rw [List.length_map, List.length_take] at h6
  have := List.length_filterMap_le resolve kept
  omega

/-- C14: the scores returned do not depend on the order in which symbols are found. -/
theorem C14_order_independent (xs ys : List Entry) (hp : xs.Perm ys) (arr arr' : List Entry)
    (h : storeAll maxSymbols xs = some arr) (h' : storeAll maxSymbols ys = some arr') :
    results (fun e => some e.score) arr = results (fun e => some e.score) arr' := by
  obtain ⟨_, kept, _, h1, h2, _, _, h5⟩ := C14_best xs (fun e => some e.score)
  obtain ⟨_, kept', _, h1', h2', _, _, h5'⟩ := C14_best ys (fun e => some e.score)
  rw [h] at h1
  obtain rfl := Option.some.inj h1
  rw [h'] at h1'
  obtain rfl := Option.some.inj h1'
  have e : ∀ l : List Entry, l.filterMap (fun e => some e.score) = l.map Entry.score := by
    intro l; induction l <;> simp_all
  rw [h2, h2', e, e, h5, h5']
  congr 1
  have hd : ∀ l l' : List Nat, l.Perm l' → descending l = descending l' := by
    intro l l' hll
    refine descending_unique ((isort_perm _ _).trans hll) ?_
    refine (isort_pairwise (le := fun a b => decide (b ≤ a)) ?_ ?_ _).imp ?_
    · intro a b; simp; omega
    · intro a b c h1 h2; simp at *; omega
    · intro a b h; simpa using h
  exact hd _ _ ((hp.map _).filter _)

/-- Non-trivial case: with two slots, four symbols (one without score). -/
example : (storeAll 2 [⟨3, [1], 0⟩, ⟨0, [9], 1⟩, ⟨5, [2, 2], 2⟩, ⟨5, [2], 3⟩]).map
    (results (fun e => some e.data)) = some [3, 2] := by decide

/-! ## C15 -/

/-- The form of the symbol a word is compared with: words without upper-case letters
ignore case. -/
def cased (lower : Str → Str) (word s : Str) : Str := if lower word = word then lower s else s

/-- When does a symbol match one word of the query. Plain words are matched by the fuzzy
matcher of the library. -/
def WordMatches (lower : Str → Str) (fuzzy : Str → Matcher) (word s : Str) : Prop :=
  (∃ p, word = '^' :: p ∧ p <+: cased lower p s) ∨
  (∃ e, word = '\'' :: e ∧ e <:+: cased lower e s) ∨
  (∃ x, word = x ++ ['$'] ∧ word.head? ≠ some '^' ∧ word.head? ≠ some '\'' ∧
    x <:+ cased lower x s) ∨
  (word.head? ≠ some '^' ∧ word.head? ≠ some '\'' ∧ word.getLast? ≠ some '$' ∧ 0 < fuzzy word s)

theorem containsSub_iff (p s : Str) : containsSub p s = true ↔ p <:+: s := by
  induction s with
  | nil => simp [containsSub]
  | cons c t ih =>
    simp only [containsSub, Bool.or_eq_true, ih, List.isPrefixOf_iff_prefix]
    exact List.infix_cons_iff.symm

theorem smartCase_pos (lower : Str → Str) (q s : Str) (p : Str → Bool) :
    0 < smartCase lower q (fun s => if p s then (1 : Rat) else 0) s ↔ p (cased lower q s) = true := by
  simp only [smartCase, cased]
  split <;> (split <;> simp_all <;> decide)

theorem smartCase_nonneg (lower : Str → Str) (q s : Str) (p : Str → Bool) :
    0 ≤ smartCase lower q (fun s => if p s then (1 : Rat) else 0) s := by
  simp only [smartCase]
  split <;> split <;> decide

theorem fieldMatcher_pos (lower : Str → Str) (fuzzy : Str → Matcher) (w s : Str) :
    0 < fieldMatcher lower fuzzy w s ↔ WordMatches lower fuzzy w s := by
  simp only [WordMatches]
  unfold fieldMatcher
  split
  · rename_i p
    rw [smartCase_pos]
    simp
  · rename_i e
    rw [smartCase_pos, containsSub_iff]
    simp
  · rename_i h1 h2
    have n1 : w.head? ≠ some '^' := by
      intro h; cases w with
      | nil => simp at h
      | cons c t => simp at h; subst h; exact h1 t rfl
    have n2 : w.head? ≠ some '\'' := by
      intro h; cases w with
      | nil => simp at h
      | cons c t => simp at h; subst h; exact h2 t rfl
    split
    · rename_i hl
      obtain ⟨x, rfl⟩ := List.getLast?_eq_some_iff.mp hl
      rw [smartCase_pos]
      have c1 : ∀ p, x ++ ['$'] ≠ '^' :: p := fun p e => h1 p e
      have c2 : ∀ p, x ++ ['$'] ≠ '\'' :: p := fun p e => h2 p e
      constructor
      · intro h
        exact Or.inr (Or.inr (Or.inl ⟨x, rfl, n1, n2, by simpa [List.isSuffixOf_iff_suffix] using h⟩))
      · rintro (⟨p, e, _⟩ | ⟨p, e, _⟩ | ⟨y, e, _, _, h⟩ | ⟨_, _, h, _⟩)
        · exact absurd e (c1 p)
        · exact absurd e (c2 p)
        · have : x = y := by simpa using e
          subst this
          simpa [List.isSuffixOf_iff_suffix] using h
        · exact absurd hl h
    · rename_i hl
      have c1 : ∀ p, w ≠ '^' :: p := fun p e => h1 p e
      have c2 : ∀ p, w ≠ '\'' :: p := fun p e => h2 p e
      have c3 : ∀ x, w ≠ x ++ ['$'] := fun x e => hl (by rw [e]; simp)
      simp [c1, c2, c3, n1, n2, hl]

theorem fieldMatcher_nonneg (lower : Str → Str) (fuzzy : Str → Matcher)
    (hf : ∀ w s, 0 ≤ fuzzy w s) (w s : Str) : 0 ≤ fieldMatcher lower fuzzy w s := by
  unfold fieldMatcher
  split
  · exact smartCase_nonneg _ _ _ _
  · exact smartCase_nonneg _ _ _ _
  · split
    · exact smartCase_nonneg _ _ _ _
    · exact hf _ _

theorem foldl_mul_pos (fs : List Matcher) (s : Str) (hn : ∀ f ∈ fs, 0 ≤ f s) (acc : Rat)
    (ha : 0 ≤ acc) :
    0 < fs.foldl (fun score f => score * f s) acc ↔ 0 < acc ∧ ∀ f ∈ fs, 0 < f s := by
  induction fs generalizing acc with
  | nil => simp
  | cons f fs ih =>
    have hf := hn f List.mem_cons_self
    rw [List.foldl_cons, ih (fun g hg => hn g (List.mem_cons_of_mem _ hg)) _ (Rat.mul_nonneg ha hf)]
    have key : 0 < acc * f s ↔ 0 < acc ∧ 0 < f s := by
      constructor
      · intro h
        have n1 : acc ≠ 0 := fun e => by rw [e, Rat.zero_mul] at h; exact Rat.lt_irrefl h
        have n2 : f s ≠ 0 := fun e => by rw [e, Rat.mul_zero] at h; exact Rat.lt_irrefl h
        exact ⟨Rat.lt_of_le_of_ne ha (Ne.symm n1), Rat.lt_of_le_of_ne hf (Ne.symm n2)⟩
      · rintro ⟨h1, h2⟩; exact Rat.mul_pos h1 h2
    rw [key]
    simp only [List.mem_cons, forall_eq_or_imp, and_assoc]

/-- C15: a symbol matches a query exactly if the query has a word and the symbol matches
every one of its words (the maximal runs of non-blank characters). The fuzzy scores of the
library are assumed not to be negative. -/
theorem C15_words_and (lower : Str → Str) (fuzzy : Str → Matcher) (hf : ∀ w s, 0 ≤ fuzzy w s)
    (q s : Str) :
    0 < parseQuery lower fuzzy q s ↔
      (∃ w, IsField isSpace w q) ∧ ∀ w, IsField isSpace w q → WordMatches lower fuzzy w s := by
  simp only [← mem_fieldsBy]
  have hall : ∀ fs : List Matcher, (∀ f ∈ fs, 0 ≤ f s) →
      (0 < combo fs s ↔ ∀ f ∈ fs, 0 < f s) := by
    intro fs h
    rw [combo, foldl_mul_pos fs s h 1 (by decide)]
    simp only [and_iff_right_iff_imp]
    intro _; decide
  have hnn : ∀ f ∈ (fieldsBy isSpace q).map (fieldMatcher lower fuzzy), 0 ≤ f s := by
    intro f h
    obtain ⟨w, _, e⟩ := List.mem_map.mp h
    rw [← e]; exact fieldMatcher_nonneg lower fuzzy hf w s
  have hiff : (∀ f ∈ (fieldsBy isSpace q).map (fieldMatcher lower fuzzy), 0 < f s) ↔
      ∀ w ∈ fieldsBy isSpace q, WordMatches lower fuzzy w s := by
    simp only [List.mem_map, forall_exists_index, and_imp, forall_apply_eq_imp_iff₂, fieldMatcher_pos]
  rw [← hiff]
  unfold parseQuery
  generalize hms : (fieldsBy isSpace q).map (fieldMatcher lower fuzzy) = ms at hnn ⊢
  have hlen : ms.length = (fieldsBy isSpace q).length := by rw [← hms]; simp
  match ms, hnn, hlen with
  | [], _, hl =>
    have : fieldsBy isSpace q = [] := List.length_eq_zero_iff.mp hl.symm
    simp [combine, this, Rat.lt_irrefl]
  | [f], _, hl =>
    have hne : ∃ w, w ∈ fieldsBy isSpace q := List.exists_mem_of_length_pos (by rw [← hl]; simp)
    simp only [combine, hne, true_and, List.mem_singleton, forall_eq]
  | f :: g :: fs, hnn, hl =>
    have hne : ∃ w, w ∈ fieldsBy isSpace q := List.exists_mem_of_length_pos (by rw [← hl]; simp)
    simp only [combine, hne, true_and]
    exact hall _ hnn

/-- C15: case. A word with an upper-case letter (i.e. one changed by
lower-casing) that is written with one of the special characters is compared with the
symbol as it is; one without, with the lower-cased symbol. (Plain words are left to the fuzzy-matching library.) -/
theorem C15_smart_case (lower : Str → Str) (fuzzy : Str → Matcher) (e s : Str) :
    (lower e ≠ e →
      (WordMatches lower fuzzy ('^' :: e) s ↔ e <+: s) ∧
      (WordMatches lower fuzzy ('\'' :: e) s ↔ e <:+: s) ∧
      (e.head? ≠ some '^' → e.head? ≠ some '\'' → (WordMatches lower fuzzy (e ++ ['$']) s ↔ e <:+ s))) ∧
    (lower e = e →
      (WordMatches lower fuzzy ('^' :: e) s ↔ e <+: lower s) ∧
      (WordMatches lower fuzzy ('\'' :: e) s ↔ e <:+: lower s) ∧
      (e.head? ≠ some '^' → e.head? ≠ some '\'' → (WordMatches lower fuzzy (e ++ ['$']) s ↔ e <:+ lower s))) := by
  have key : ∀ e : Str, e.head? ≠ some '^' → e.head? ≠ some '\'' →
      (WordMatches lower fuzzy (e ++ ['$']) s ↔ e <:+ cased lower e s) := by
    intro e h1 h2
    have g1 : (e ++ ['$']).head? ≠ some '^' := by cases e <;> simp_all
    have g2 : (e ++ ['$']).head? ≠ some '\'' := by cases e <;> simp_all
    constructor
    · rintro (⟨p, e', _⟩ | ⟨p, e', _⟩ | ⟨y, e', _, _, h⟩ | ⟨_, _, h, _⟩)
      · rw [e'] at g1; simp at g1
      · rw [e'] at g2; simp at g2
      · obtain rfl : e = y := by simpa using e'
        exact h
      · simp at h
    · intro h
      exact .inr (.inr (.inl ⟨e, rfl, g1, g2, h⟩))
  constructor <;> intro h
  · refine ⟨by simp [WordMatches, cased, h], by simp [WordMatches, cased, h], fun h1 h2 => ?_⟩
    rw [key e h1 h2, cased, if_neg h]
  · refine ⟨by simp [WordMatches, cased, h], by simp [WordMatches, cased, h], fun h1 h2 => ?_⟩
    rw [key e h1 h2, cased, if_pos h]

/-- Non-trivial case: two words, one of them case-sensitive. -/
example :
    let lower : Str → Str := List.map Char.toLower
    let fuzzy : Str → Matcher := fun _ _ => 1
    0 < parseQuery lower fuzzy "^foo 'Bar".toList "Foo.BarBaz".toList ∧
    ¬ 0 < parseQuery lower fuzzy "^foo 'Bar".toList "Foo.barbaz".toList := by
  decide +kernel

end Verif.Symbols
