import Verif.Spec.GenerateCode
import Verif.Lemmas.GoPath
/-!
# Lemmas about `GenerateCode`
-/
namespace Verif.GenerateCode

open Verif.Assoc Verif.GoPath Verif.FindFile

/-! ## Prefixes of paths -/

theorem prefix_slash {x y a b : Str} (hx : '/' ∉ x) (hy : '/' ∉ y) :
    x ++ '/' :: a <+: y ++ '/' :: b ↔ x = y ∧ a <+: b := by
  induction x generalizing y with
  | nil =>
    cases y with
    | nil => simp [List.cons_prefix_cons]
    | cons c t =>
      simp only [List.nil_append, List.cons_append, List.cons_prefix_cons]
      constructor
      · rintro ⟨rfl, -⟩; simp at hy
      · rintro ⟨h, -⟩; cases h
  | cons d s ih =>
    cases y with
    | nil =>
      simp only [List.nil_append, List.cons_append, List.cons_prefix_cons]
      constructor
      · rintro ⟨rfl, -⟩; simp at hx
      · rintro ⟨h, -⟩; cases h
    | cons c t =>
      simp only [List.cons_append, List.cons_prefix_cons, List.cons.injEq]
      rw [ih (fun h => hx (by simp [h])) (fun h => hy (by simp [h])), and_assoc]

theorem prefix_name {x y b : Str} (hx : '/' ∉ x) : x <+: y ++ '/' :: b ↔ x <+: y := by
  induction x generalizing y with
  | nil => simp
  | cons d s ih =>
    cases y with
    | nil =>
      simp only [List.nil_append, List.cons_prefix_cons, List.prefix_nil, reduceCtorEq, iff_false]
      rintro ⟨rfl, -⟩; simp at hx
    | cons c t =>
      simp only [List.cons_append, List.cons_prefix_cons]
      rw [ih (fun h => hx (by simp [h]))]

theorem no_slash_prefix {x y a : Str} (hy : '/' ∉ y) : ¬ x ++ '/' :: a <+: y := by
  rintro ⟨t, h⟩
  exact hy (by rw [← h]; simp)

theorem sibling_cons (x : Str) (l m : List Str) (hl : l ≠ []) : Sibling (x :: l) (x :: m) ↔ Sibling l m := by
  constructor
  · rintro ⟨init, a, y, rest, h1, h2, h3⟩
    cases init with
    | nil =>
      simp only [List.nil_append, List.cons.injEq] at h2
      exact absurd h2.2 hl
    | cons i is =>
      simp only [List.cons_append, List.cons.injEq] at h2 h3
      exact ⟨is, a, y, rest, h1, h2.2, h3.2⟩
  · rintro ⟨init, a, y, rest, h1, h2, h3⟩
    exact ⟨x :: init, a, y, rest, h1, by simp [h2], by simp [h3]⟩

theorem joined_prefix (l m : List Str) (hl : ∀ x ∈ l, Name x) (hm : ∀ x ∈ m, Name x) :
    joinWith '/' l <+: joinWith '/' m ↔ l <+: m ∨ Sibling l m := by
  induction l generalizing m with
  | nil => simp [joinWith]
  | cons x l ih =>
    have hx := hl x (by simp)
    cases l with
    | nil =>
      cases m with
      | nil =>
        simp only [joinWith, List.prefix_nil, reduceCtorEq, false_or]
        constructor
        · intro h; exact absurd h hx.1.1
        · rintro ⟨init, a, y, rest, h1, h2, h3⟩
          simp at h3
      | cons y m =>
        have key : joinWith '/' [x] <+: joinWith '/' (y :: m) ↔ x <+: y := by
          cases m with
          | nil => rfl
          | cons z m =>
            rw [joinWith_cons '/' y (z :: m) (by simp)]
            exact prefix_name hx.2
        rw [key]
        constructor
        · rintro ⟨t, rfl⟩
          cases t with
          | nil => exact .inl ⟨m, by simp⟩
          | cons c t => exact .inr ⟨[], x, c :: t, m, by simp, rfl, rfl⟩
        · rintro (⟨t, h⟩ | ⟨init, a, t, rest, h1, h2, h3⟩)
          · simp only [List.cons_append, List.cons.injEq] at h
            rw [h.1]
            exact List.prefix_refl _
          · cases init with
            | nil =>
              simp only [List.nil_append, List.cons.injEq, and_true] at h2 h3
              rw [h2, h3.1]
              exact ⟨t, rfl⟩
            | cons i is => simp at h2
    | cons x2 l =>
      rw [joinWith_cons '/' x (x2 :: l) (by simp)]
      cases m with
      | nil =>
        simp only [joinWith, List.prefix_nil, List.append_eq_nil_iff, reduceCtorEq, and_false, false_or, false_iff]
        rintro ⟨init, a, y, rest, h1, h2, h3⟩
        simp at h3
      | cons y m =>
        have hy := hm y (by simp)
        cases m with
        | nil =>
          constructor
          · intro h; exact absurd h (no_slash_prefix hy.2)
          · rintro (⟨t, h⟩ | ⟨init, a, t, rest, h1, h2, h3⟩)
            · simp at h
            · cases init with
              | nil => simp at h2
              | cons i is => simp at h3
        | cons y2 m =>
          rw [joinWith_cons '/' y (y2 :: m) (by simp), prefix_slash hx.2 hy.2]
          by_cases hxy : x = y
          · subst hxy
            rw [sibling_cons _ _ _ (by simp), List.cons_prefix_cons, ih _ (fun z hz => hl z (by simp [hz]))
              fun z hz => hm z (by simp [hz])]
            simp
          · simp only [hxy, false_and, List.cons_prefix_cons, false_or, false_iff]
            rintro ⟨init, a, t, rest, h1, h2, h3⟩
            cases init with
            | nil => simp at h2
            | cons i is =>
              simp only [List.cons_append, List.cons.injEq] at h2 h3
              exact hxy (h2.1.trans h3.1.symm)

/-- When the path of a directory is a prefix of the path of another. -/
theorem path_prefix (l m : List Str) (hl : ∀ x ∈ l, Name x) (hm : ∀ x ∈ m, Name x) :
    pathOf l <+: pathOf m ↔ l <+: m ∨ Sibling l m := by
  unfold pathOf
  rw [List.cons_prefix_cons]
  simp only [true_and]
  exact joined_prefix l m hl hm

/-! ## The search directories -/

theorem walk_names (d l : List Str) (hd : ∀ x ∈ d, Name x) (hl : ∀ x ∈ l, '/' ∉ x) : ∀ x ∈ walk d l, Name x := by
  intro x hx
  obtain ⟨h1, h2⟩ := walk_mem l d (fun y hy => (hd y hy).1) x hx
  rcases h2 with h2 | h2
  · exact hd x h2
  · exact ⟨h1, hl x h2⟩

theorem root_names (wd dir : Str) : ∀ x ∈ root wd dir, Name x := by
  unfold root
  split
  · exact place_names _
  · exact walk_names _ _ (place_names _) (splitOn_no_sep _ _)

theorem join_wd (wd d : Str) (hwd : wd.head? = some '/') : join wd d = pathOf (walk (place wd) (splitOn '/' d)) := by
  unfold join
  rw [if_neg (by intro h; rw [h] at hwd; simp at hwd)]
  split
  · rename_i h
    subst h
    rw [clean_rooted _ hwd]
    rfl
  · rw [clean_rooted _ (by cases wd with | nil => simp at hwd | cons c t => simpa using hwd), place_snoc]

/-- The absolute search directories are the paths of the places. -/
theorem absolute_root (wd : Str) (hwd : wd.head? = some '/') (dirs : List Str)
    (hc : ∀ s ∈ dirs, s.head? = some '/' → s = pathOf (place s)) : absolute wd dirs = dirs.map fun s => pathOf (root wd s) := by
  unfold absolute
  apply List.map_congr_left
  intro s hs
  unfold root
  split
  · rename_i h; exact hc s hs h
  · exact join_wd wd s hwd

/-! ## The table of directories -/

theorem home_names (f : Str) : ∀ x ∈ home f, Name x := fun x hx => place_names _ x (List.dropLast_subset _ hx)

theorem dirOf_home (f : Str) (h : f.head? = some '/' ∧ ∃ a b, f = a ++ '/' :: b ∧ Name b) : dirOf f = pathOf (home f) := by
  obtain ⟨h1, a, b, h2, h3⟩ := h
  obtain ⟨a', b', e, hb', hd⟩ := dirOf_rooted _ h1
  rw [hd]
  unfold home
  have : a' = a := by
    have s1 := split_some a b h3.2
    have s2 := split_some a' b' hb'
    rw [← e, h2, s1] at s2
    simp only [Prod.mk.injEq] at s2
    exact (List.append_cancel_right s2.1).symm
  rw [this, h2, place_append_name _ _ h3, List.dropLast_concat]

/-- What the table has: entries of documents, and a key for each of them. -/
def Good (ds : List Desc) (m : List (Str × Str)) : Prop :=
  (∀ e ∈ m, ∃ d ∈ ds, ∃ f, d.file = some f ∧ e.1 = dirOf d.path ∧ e.2 = dirOf f) ∧
  ∀ d ∈ ds, ∀ f, d.file = some f → dirOf d.path ∈ keys m

theorem good_step (ds : List Desc) (m : List (Str × Str)) (d : Desc) (h : Good ds m) :
    Good (ds ++ [d]) (match d.file with | some f => set m (dirOf d.path) (dirOf f) | none => m) := by
  obtain ⟨h1, h2⟩ := h
  cases hf : d.file with
  | none =>
    refine ⟨fun e he => ?_, fun x hx f hxf => ?_⟩
    · obtain ⟨y, hy, r⟩ := h1 e he
      exact ⟨y, by simp [hy], r⟩
    · rcases List.mem_append.1 hx with hx | hx
      · exact h2 x hx f hxf
      · simp only [List.mem_singleton] at hx
        subst hx
        rw [hf] at hxf; cases hxf
  | some f =>
    simp only []
    refine ⟨fun e he => ?_, fun x hx g hxg => ?_⟩
    · rcases mem_set.1 he with rfl | ⟨he, -⟩
      · exact ⟨d, by simp, f, hf, rfl, rfl⟩
      · obtain ⟨y, hy, r⟩ := h1 e he
        exact ⟨y, by simp [hy], r⟩
    · rw [mem_keys_set]
      rcases List.mem_append.1 hx with hx | hx
      · exact .inr (h2 x hx g hxg)
      · simp only [List.mem_singleton] at hx
        subst hx
        exact .inl rfl

theorem good_foldl (ds rest : List Desc) (m : List (Str × Str)) (h : Good ds m) :
    Good (ds ++ rest) (rest.foldl (fun m d => match d.file with | some f => set m (dirOf d.path) (dirOf f) | none => m) m) := by
  induction rest generalizing ds m with
  | nil => simpa using h
  | cons d rest ih =>
    have := ih (ds ++ [d]) _ (good_step ds m d h)
    simpa using this

theorem pkgDirs_good (ds : List Desc) : Good ds (pkgDirs ds) := by
  have := good_foldl [] ds [] ⟨by simp, by simp⟩
  exact this

/-- The directory of a document in the table. -/
theorem pkgDirs_get {ds : List Desc} (h : Sane ds) {d : Desc} (hd : d ∈ ds) {f k x : Str} (hf : d.file = some f) (hk : In k x d.path) :
    get (pkgDirs ds) k = some (pathOf (home f)) := by
  obtain ⟨h1, h2⟩ := pkgDirs_good ds
  have hkd := (in_parts hk).1
  have := h2 d hd f hf
  rw [hkd] at this
  cases hg : get (pkgDirs ds) k with
  | none => exact absurd this (get_none.1 hg)
  | some v =>
    obtain ⟨e, he, g, hg1, hg2, hg3⟩ := h1 _ (get_mem hg)
    simp only [] at hg2 hg3
    obtain ⟨k', y, hy⟩ := h.path e he
    have hk' := (in_parts hy).1
    rw [← hg2] at hk'
    subst hk'
    rw [hg3, dirOf_home g (h.file e he g hg1), h.one e he d hd g f _ _ _ hg1 hf hy hk]

end Verif.GenerateCode
