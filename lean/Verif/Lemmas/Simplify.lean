import Verif.Spec.Simplify
import Mathlib.Data.List.Nodup

namespace Verif.Simplify

/-! ### Arrays -/

theorem values_append (a b : List Item) : values (a ++ b) = values a ++ values b := by
  induction a with
  | nil => rfl
  | cons i t ih => cases i <;> simp [values, ih]

theorem wellFormed_append (a b : List Item) (ha : closed a) (hb : wellFormed b = true) :
    wellFormed (a ++ b) = true := by
  obtain ⟨h1, h2⟩ := ha
  induction a using wellFormed.induct with
  | case1 => simpa using hb
  | case2 v => simp at h2
  | case3 v rest ih =>
    simp only [wellFormed] at h1
    simp only [List.cons_append, wellFormed]
    apply ih h1
    cases rest with
    | nil => simp
    | cons r rs => simpa [List.getLast?_cons_cons] using h2
  | case4 a _ _ => simp_all [wellFormed]

theorem closed_append {a b : List Item} (ha : closed a) (hb : closed b) : closed (a ++ b) := by
  refine ⟨wellFormed_append a b ha hb.1, ?_⟩
  rw [List.getLast?_append]
  cases h : b.getLast? with
  | none => simpa using ha.2
  | some i => have := hb.2; rw [h] at this; simpa using this

theorem closed_nil : closed [] := ⟨rfl, rfl⟩

theorem wellFormed_snoc (a : List Item) (v : Nat) (h : wellFormed (a ++ [.val v]) = true) :
    closed (a ++ [.val v, .comma]) := by
  induction a using wellFormed.induct with
  | case1 => exact ⟨rfl, rfl⟩
  | case2 w => simp [wellFormed] at h
  | case3 w rest ih =>
    simp only [List.cons_append, wellFormed] at h
    obtain ⟨h1, h2⟩ := ih h
    refine ⟨by simpa [wellFormed] using h1, ?_⟩
    rw [List.getLast?_append]
    rfl
  | case4 a h1 h2 h3 =>
    match a, h1, h2, h3, h with
    | [], h1, _, _, _ => exact absurd rfl h1
    | .comma :: _, _, _, _, h => simp [wellFormed] at h
    | .val w :: .val u :: t, _, _, _, h => simp [wellFormed] at h
    | [.val w], _, h2, _, _ => exact absurd rfl (h2 w)
    | .val w :: .comma :: t, _, _, h3, _ => exact absurd rfl (h3 w t)

theorem closeItems_closed (a : List Item) (h : wellFormed a = true) :
    closed (closeItems a) ∧ values (closeItems a) = values a := by
  unfold closeItems
  split
  · rename_i hl
    rw [List.getLast?_eq_none_iff] at hl
    subst hl
    exact ⟨closed_nil, rfl⟩
  · rename_i hl
    exact ⟨⟨h, by rw [hl]; rfl⟩, rfl⟩
  · rename_i v hl
    obtain ⟨init, rfl⟩ : ∃ init : List Item, a = init ++ [.val v] := by
      rw [List.getLast?_eq_some_iff] at hl
      exact hl
    rw [List.append_assoc]
    exact ⟨wellFormed_snoc init v h, by simp [values_append, values]⟩

theorem trimComma_spec (a : List Item) (h : wellFormed a = true) :
    strict (trimComma a) ∧ values (trimComma a) = values a := by
  have key : ∀ init : List Item, wellFormed (init ++ [.comma]) = true →
      wellFormed init = true ∧ init.getLast? ≠ some .comma := by
    intro init
    induction init using wellFormed.induct with
    | case1 => simp [wellFormed]
    | case2 v => simp [wellFormed]
    | case3 v rest ih =>
      intro h
      simp only [List.cons_append, wellFormed] at h
      obtain ⟨h1, h2⟩ := ih h
      refine ⟨by simpa [wellFormed] using h1, ?_⟩
      cases rest with
      | nil => simp [wellFormed] at h
      | cons r rs => simpa [List.getLast?_cons_cons] using h2
    | case4 a h1 h2 h3 =>
      intro h
      match a, h1, h2, h3, h with
      | [], h1, _, _, _ => exact absurd rfl h1
      | [.comma], _, _, _, h => simp [wellFormed] at h
      | .comma :: _ :: _, _, _, _, h => simp [wellFormed] at h
      | .val w :: .val u :: t, _, _, _, h => simp [wellFormed] at h
      | [.val w], _, h2, _, _ => exact absurd rfl (h2 w)
      | .val w :: .comma :: t, _, _, h3, _ => exact absurd rfl (h3 w t)
  unfold trimComma
  split
  · rename_i hl
    rw [List.getLast?_eq_some_iff] at hl
    obtain ⟨init, rfl⟩ := hl
    rw [List.dropLast_concat]
    exact ⟨key init h, by simp [values_append, values]⟩
  · rename_i hl
    exact ⟨⟨h, hl⟩, rfl⟩

/-! ### References -/

variable {S : Schema} {init : List Nat} {e x : Nat}

/-- The scan of a name depends on its last two parts. -/
theorem scan_append (S : Schema) (ext : Option Nat) (x : Nat) (init : List Nat) (p q : Nat) :
    scan S ext x (init ++ [p, q]) = scan S ext x [p, q] := by
  induction init with
  | nil => rfl
  | cons a t ih =>
    cases t with
    | nil => rfl
    | cons b t =>
      cases t with
      | nil => exact ih
      | cons d t => exact ih

theorem scan_last (hx : e ≠ x) (he : S.isExt e = true) : scan S (some e) x (init ++ [e]) = .descend := by
  rcases List.eq_nil_or_concat init with rfl | ⟨i, p, rfl⟩
  · simp [scan, he]
  · rw [List.concat_eq_append, List.append_assoc]
    rw [show [p] ++ [e] = [p, e] from rfl, scan_append]
    simp [scan, he, hx]

theorem scan_ref (he : S.isExt e = true) : scan S (some e) x (init ++ [e] ++ [x]) = .ref := by
  rw [List.append_assoc, show [e] ++ [x] = [e, x] from rfl, scan_append]
  simp [scan, he]

theorem scan_other {n : List Nat} (h1 : ∀ init, n ≠ init ++ [e]) (h2 : ∀ init, n ≠ init ++ [e, x]) :
    scan S (some e) x n = .skip := by
  rcases List.eq_nil_or_concat n with rfl | ⟨i, q, rfl⟩
  · rfl
  · rw [List.concat_eq_append] at *
    have hq : q ≠ e := fun h => h1 i (by rw [h])
    rcases List.eq_nil_or_concat i with rfl | ⟨j, p, rfl⟩
    · simp [scan, hq]
    · rw [List.concat_eq_append, List.append_assoc] at *
      rw [show [p] ++ [q] = [p, q] from rfl, scan_append] at *
      have : ¬ (p = e ∧ q = x) := fun h => h2 j (by rw [h.1, h.2])
      simp only [scan, Option.some.injEq, hq, and_false, if_false]
      rw [if_neg]
      rintro ⟨_, h⟩
      exact this h

theorem optRefs_unrelated {o : Opt} (h : Unrelated e x o) : optRefs S (some e) x o = [] := by
  unfold optRefs
  rcases h with h | ⟨h1, h2⟩
  · simp [h]
  · rw [scan_other h1 h2]
    simp

theorem optRefs_sets {o : Opt} (he : S.isExt e = true) (h : Sets (init ++ [e]) x o) :
    optRefs S (some e) x o = [⟨o, none⟩] := by
  unfold optRefs
  rw [h.1, h.2.1, scan_ref he]
  simp

/-- The fields of a literal that set the target. -/
def targetFields (x : Nat) (fields : List Field) : List Field :=
  fields.filter fun f => !f.incomplete && decide (f.desc = x)

theorem optRefs_container {c : Opt} {self : Nat} {fields : List Field} (hx : e ≠ x) (he : S.isExt e = true)
    (h1 : c.incomplete = false) (h2 : c.name = init ++ [e]) (h3 : c.val = .literal self fields) :
    optRefs S (some e) x c = (targetFields x fields).map fun f => ⟨c, some f⟩ := by
  unfold optRefs
  rw [h1, h2, scan_last hx he, h3]
  rfl

theorem visited_append (a b : List Decl) : visited (a ++ b) = visited a ++ visited b := by
  induction a with
  | nil => rfl
  | cons d t ih => cases d <;> simp [visited, ih]

theorem visited_kept {ds : List Decl} (h : ∀ d ∈ ds, Kept e x d) : ∀ o ∈ visited ds, Unrelated e x o := by
  induction ds with
  | nil => intro o ho; simp [visited] at ho
  | cons d t ih =>
    intro o ho
    have hd := h d (by simp)
    have ht := ih (fun d hd => h d (by simp [hd]))
    cases d with
    | opt p =>
      rcases List.mem_cons.mp ho with rfl | ho
      · exact hd
      · exact ht o ho
    | other n inner =>
      rcases List.mem_append.mp ho with ho | ho
      · exact hd o ho
      · exact ht o ho

theorem flatMap_unrelated {os : List Opt} (h : ∀ o ∈ os, Unrelated e x o) : os.flatMap (optRefs S (some e) x) = [] := by
  rw [List.flatMap_eq_nil_iff]
  exact fun o ho => optRefs_unrelated (h o ho)

/-- The options among the declarations that set the target. -/
def setOpts (path : List Nat) (x : Nat) : List Decl → List Opt
  | [] => []
  | .opt o :: ds => if isSet path x (.opt o) then o :: setOpts path x ds else setOpts path x ds
  | .other _ _ :: ds => setOpts path x ds

theorem isSet_of_sets {path : List Nat} {o : Opt} (h : Sets path x o) : isSet path x (.opt o) = true := by
  simp [isSet, h.1, h.2.1]

theorem not_isSet_of_unrelated {o : Opt} (h : Unrelated e x o) : isSet (init ++ [e]) x (.opt o) = false := by
  rcases h with h | ⟨_, h⟩
  · simp [isSet, h]
  · have := h init
    simp [isSet]
    intro _ h'
    exact this (by simpa using h')

theorem not_isSet_of_kept {d : Decl} (h : Kept e x d) : isSet (init ++ [e]) x d = false := by
  cases d with
  | opt o => exact not_isSet_of_unrelated h
  | other n inner => rfl

theorem refs_after {ds : List Decl} (he : S.isExt e = true) (h : ∀ d ∈ ds, After (init ++ [e]) e x d) :
    (visited ds).flatMap (optRefs S (some e) x) = (setOpts (init ++ [e]) x ds).map fun o => ⟨o, none⟩ := by
  induction ds with
  | nil => rfl
  | cons d t ih =>
    have ht := ih (fun d hd => h d (by simp [hd]))
    rcases h d (by simp) with hd | ⟨o, rfl, ho⟩
    · cases d with
      | opt p =>
        simp only [visited, setOpts, List.flatMap_cons, ht, optRefs_unrelated (S := S) hd,
          not_isSet_of_unrelated (init := init) hd, List.nil_append]
        simp
      | other n inner =>
        simp only [visited, setOpts, List.flatMap_append, ht, flatMap_unrelated (S := S) hd, List.nil_append]
    · simp only [visited, setOpts, List.flatMap_cons, ht, optRefs_sets he ho, isSet_of_sets ho, if_true, List.map_cons,
        List.singleton_append]

theorem setOpts_sets {path : List Nat} {ds : List Decl} : ∀ o ∈ setOpts path x ds, o ∈ options ds ∧ isSet path x (.opt o) = true := by
  induction ds with
  | nil => intro o ho; simp [setOpts] at ho
  | cons d t ih =>
    intro o ho
    cases d with
    | opt p =>
      simp only [setOpts] at ho
      split at ho
      · rcases List.mem_cons.mp ho with rfl | ho
        · exact ⟨by simp [options], by assumption⟩
        · exact ⟨by simp [options, (ih o ho).1], (ih o ho).2⟩
      · exact ⟨by simp [options, (ih o ho).1], (ih o ho).2⟩
    | other n inner => exact ih o ho

theorem setOpts_sublist {path : List Nat} {ds : List Decl} : (setOpts path x ds).Sublist (options ds) := by
  induction ds with
  | nil => exact .slnil
  | cons d t ih =>
    cases d with
    | opt p =>
      simp only [setOpts, options]
      split
      · exact ih.cons_cons _
      · exact ih.cons _
    | other n inner => exact ih

theorem options_sublist (ds : List Decl) : (options ds).Sublist (visited ds) := by
  induction ds with
  | nil => exact .slnil
  | cons d t ih =>
    cases d with
    | opt p => exact ih.cons_cons _
    | other n inner => exact ih.trans (List.sublist_append_right _ _)

theorem options_append (a b : List Decl) : options (a ++ b) = options a ++ options b := by
  induction a with
  | nil => rfl
  | cons d t ih => cases d <;> simp [options, ih]

theorem others_append (a b : List Decl) : others (a ++ b) = others a ++ others b := by
  induction a with
  | nil => rfl
  | cons d t ih => cases d <;> simp [others, ih]

/-! ### Changes of the declarations -/

theorem change_none {id : Nat} {f : Opt → Opt} {ds : List Decl} (h : id ∉ (visited ds).map Opt.id) :
    change id f ds = ds := by
  induction ds with
  | nil => rfl
  | cons d t ih =>
    cases d with
    | opt o =>
      simp only [visited, List.map_cons, List.mem_cons, not_or] at h
      simp only [change, ih h.2]
      rw [if_neg (fun h' => h.1 h'.symm)]
    | other n inner =>
      simp only [visited, List.map_append, List.mem_append, not_or] at h
      simp only [change, ih h.2]
      congr 2
      conv => rhs; rw [← List.map_id inner]
      apply List.map_congr_left
      intro o ho
      rw [if_neg]
      · rfl
      · intro h'
        exact h.1 (List.mem_map.mpr ⟨o, ho, h'⟩)

theorem change_append {id : Nat} {f : Opt → Opt} (a b : List Decl) : change id f (a ++ b) = change id f a ++ change id f b := by
  induction a with
  | nil => rfl
  | cons d t ih => cases d <;> simp [change, ih]

/-- The replacement of an option that is there once. -/
theorem replace_mid {pre post : List Decl} {o : Opt} {new : List Opt} (h : o.id ∉ (options pre).map Opt.id) :
    replace .message o.id new (pre ++ .opt o :: post) = some (pre ++ new.map .opt ++ post) := by
  induction pre with
  | nil => simp [replace]
  | cons d t ih =>
    cases d with
    | opt p =>
      simp only [options, List.map_cons, List.mem_cons, not_or] at h
      simp only [List.cons_append, replace]
      rw [if_neg (fun h' => h.1 h'.symm), ih h.2]
      simp
    | other n inner =>
      simp only [List.cons_append, replace]
      rw [ih h]
      simp

/-- Removing the options that set the target, last one first. -/
theorem removeAll_setOpts {path : List Nat} (post : List Decl) : ∀ (pre : List Decl),
    ((options (pre ++ post)).map Opt.id).Nodup →
    removeAll .message (setOpts path x post).reverse (pre ++ post) =
      some (pre ++ post.filter fun d => !isSet path x d) := by
  have snoc : ∀ (l : List Opt) (o : Opt) (ds : List Decl),
      removeAll .message (l ++ [o]) ds = (removeAll .message l ds).bind fun ds => replace .message o.id [] ds := by
    intro l o
    induction l with
    | nil =>
      intro ds
      simp only [List.nil_append, removeAll, Option.bind_some]
      cases replace .message o.id [] ds <;> rfl
    | cons p l ih =>
      intro ds
      simp only [List.cons_append, removeAll]
      cases replace .message p.id [] ds with
      | none => rfl
      | some ds => exact ih ds
  induction post with
  | nil => intro pre _; simp [setOpts, removeAll]
  | cons d t ih =>
    intro pre hn
    have happ : pre ++ d :: t = (pre ++ [d]) ++ t := by simp
    have ih' := ih (pre ++ [d]) (by rw [← happ]; exact hn)
    rw [← happ] at ih'
    cases d with
    | other n inner =>
      simp only [setOpts]
      rw [ih']
      simp [isSet]
    | opt o =>
      simp only [setOpts]
      cases hs : isSet path x (.opt o) with
      | false =>
        simp only [Bool.false_eq_true, if_false]
        rw [ih']
        simp [hs]
      | true =>
        simp only [if_true, List.reverse_cons]
        rw [snoc, ih', Option.bind_some, List.append_assoc, List.singleton_append, replace_mid]
        · simp [hs]
        · rw [options_append, List.map_append] at hn
          have := (List.nodup_append.mp hn).2.2
          intro hmem
          exact this _ hmem o.id (by simp [options]) rfl

/-! ### Moved values -/

/-- The value is in the grammar. -/
def goodField (f : Field) : Prop :=
  match f.val with
  | .array items => wellFormed items = true
  | .atom _ => True

theorem moveField_spec {f : Field} (h : goodField f) : closed (moveField f.val) ∧ values (moveField f.val) = fieldValues f.val := by
  unfold goodField at h
  cases hv : f.val with
  | atom v => exact ⟨⟨rfl, rfl⟩, rfl⟩
  | array items =>
    rw [hv] at h
    exact closeItems_closed items h

theorem moveFields_spec {fs : List Field} (h : ∀ f ∈ fs, goodField f) :
    closed (fs.flatMap fun f => moveField f.val) ∧
      values (fs.flatMap fun f => moveField f.val) = fs.flatMap fun f => fieldValues f.val := by
  induction fs with
  | nil => exact ⟨closed_nil, rfl⟩
  | cons f t ih =>
    obtain ⟨h1, h2⟩ := ih (fun f hf => h f (by simp [hf]))
    obtain ⟨h3, h4⟩ := moveField_spec (h f (by simp))
    exact ⟨closed_append h3 h1, by simp only [List.flatMap_cons, values_append, h2, h4]⟩

/-- The values an option gives to the field it sets. -/
def optValues (o : Opt) : List Nat :=
  match o.val with
  | .atom v => [v]
  | .array items => values items
  | .literal self _ => [self]

theorem moveOption_spec {path : List Nat} {o : Opt} (h : Sets path x o) :
    closed (moveOption o.val) ∧ values (moveOption o.val) = optValues o := by
  have h3 := h.2.2
  unfold optValues
  cases hv : o.val with
  | atom v => exact ⟨⟨rfl, rfl⟩, rfl⟩
  | array items =>
    rw [hv] at h3
    exact closeItems_closed items h3
  | literal self fields => exact ⟨⟨rfl, rfl⟩, rfl⟩

theorem moveOptions_spec {path : List Nat} {os : List Opt} (h : ∀ o ∈ os, Sets path x o) :
    closed (os.flatMap fun o => moveOption o.val) ∧
      values (os.flatMap fun o => moveOption o.val) = os.flatMap optValues := by
  induction os with
  | nil => exact ⟨closed_nil, rfl⟩
  | cons f t ih =>
    obtain ⟨h1, h2⟩ := ih (fun f hf => h f (by simp [hf]))
    obtain ⟨h3, h4⟩ := moveOption_spec (h f (by simp))
    exact ⟨closed_append h3 h1, by simp only [List.flatMap_cons, values_append, h2, h4]⟩

theorem setOpts_after {ds : List Decl} (h : ∀ d ∈ ds, After (init ++ [e]) e x d) :
    ∀ o ∈ setOpts (init ++ [e]) x ds, Sets (init ++ [e]) x o := by
  induction ds with
  | nil => intro o ho; simp [setOpts] at ho
  | cons d t ih =>
    intro o ho
    have ht := ih (fun d hd => h d (by simp [hd]))
    cases d with
    | other n inner => exact ht o ho
    | opt p =>
      simp only [setOpts] at ho
      split at ho
      · rename_i hs
        rcases List.mem_cons.mp ho with rfl | ho
        · rcases h (.opt o) (by simp) with hd | ⟨q, hq, hs'⟩
          · rw [not_isSet_of_kept hd] at hs
            cases hs
          · cases hq
            exact hs'
        · exact ht o ho
      · exact ht o ho

/-! ### Contents -/

theorem contents_append (S : Schema) (a b : List Decl) (p : List Nat) :
    contents S (a ++ b) p = contents S a p ++ contents S b p := by
  simp [contents, options_append]

theorem contents_cons (S : Schema) (d : Decl) (b : List Decl) (p : List Nat) :
    contents S (d :: b) p = contents S [d] p ++ contents S b p := contents_append S [d] b p

theorem contents_other (S : Schema) (n : Nat) (inner : List Opt) (p : List Nat) : contents S [.other n inner] p = [] := rfl

theorem contents_unrelated {o : Opt} (h : Unrelated e x o) : contents S [.opt o] (init ++ [e] ++ [x]) = [] := by
  simp only [contents, options, List.flatMap_cons, List.flatMap_nil, List.append_nil, List.map_eq_nil_iff,
    List.filter_eq_nil_iff, beq_iff_eq]
  intro s hs
  unfold optSettings at hs
  rcases h with h | ⟨h1, h2⟩
  · simp [h] at hs
  · split at hs
    · simp at hs
    · have hn : o.name ≠ init ++ [e] ++ [x] := by
        have := h2 init
        simpa using this
      have hl : ∀ d, o.name ++ [d] ≠ init ++ [e] ++ [x] := by
        intro d hd
        exact h1 init (List.append_inj_left' hd rfl)
      split at hs
      · simp at hs
        rw [hs]
        exact hn
      · simp at hs
        obtain ⟨v, _, rfl⟩ := hs
        exact hn
      · split at hs
        · simp at hs
          rw [hs]
          exact hn
        · rw [List.mem_flatMap] at hs
          obtain ⟨f, _, hs⟩ := hs
          split at hs
          · simp at hs
          · rw [List.mem_map] at hs
            obtain ⟨v, _, rfl⟩ := hs
            exact hl _

theorem contents_kept {d : Decl} (h : Kept e x d) : contents S [d] (init ++ [e] ++ [x]) = [] := by
  cases d with
  | opt o => exact contents_unrelated h
  | other n inner => rfl

theorem contents_set {o : Opt} {path : List Nat} (hx : S.repeated x = true) (h : isSet path x (.opt o) = true) (p : List Nat) :
    contents S [.opt o] p = if p = path ++ [x] then optValues o else [] := by
  simp only [isSet, Bool.and_eq_true, Bool.not_eq_true', decide_eq_true_eq] at h
  simp only [contents, options, List.flatMap_cons, List.flatMap_nil, List.append_nil]
  unfold optSettings optValues
  rw [h.1]
  simp only [Bool.false_eq_true, if_false]
  cases o.val with
  | atom v =>
    by_cases hp : p = path ++ [x]
    · simp [h.2, hp]
    · have : ¬ path ++ [x] = p := fun h => hp h.symm
      simp [h.2, hp, this]
  | array items =>
    by_cases hp : p = path ++ [x]
    · simp [h.2, hp, List.filter_map, Function.comp_def]
    · have : ¬ path ++ [x] = p := fun h => hp h.symm
      simp [h.2, hp, this]
  | literal self fields =>
    by_cases hp : p = path ++ [x]
    · simp [h.2, hp, hx]
    · have : ¬ path ++ [x] = p := fun h => hp h.symm
      simp [h.2, hp, this, hx]

theorem contents_filter_other {ds : List Decl} {path p : List Nat} (hx : S.repeated x = true) (hp : p ≠ path ++ [x]) :
    contents S (ds.filter fun d => !isSet path x d) p = contents S ds p := by
  induction ds with
  | nil => rfl
  | cons d t ih =>
    rw [contents_cons S d t]
    cases hs : isSet path x d with
    | false => rw [List.filter_cons_of_pos (by simp [hs]), contents_cons, ih]
    | true =>
      rw [List.filter_cons_of_neg (by simp [hs]), ih]
      cases d with
      | other n inner => simp [isSet] at hs
      | opt o => rw [contents_set hx hs, if_neg hp, List.nil_append]

theorem contents_filter_target {ds : List Decl} (hx : S.repeated x = true) (h : ∀ d ∈ ds, After (init ++ [e]) e x d) :
    contents S (ds.filter fun d => !isSet (init ++ [e]) x d) (init ++ [e] ++ [x]) = [] ∧
      contents S ds (init ++ [e] ++ [x]) = (setOpts (init ++ [e]) x ds).flatMap optValues := by
  induction ds with
  | nil => exact ⟨rfl, rfl⟩
  | cons d t ih =>
    obtain ⟨h1, h2⟩ := ih (fun d hd => h d (by simp [hd]))
    rcases h d (by simp) with hd | ⟨o, rfl, ho⟩
    · have hs := not_isSet_of_kept (init := init) hd
      rw [List.filter_cons_of_pos (by simp [hs]), contents_cons, contents_cons S d t, contents_kept hd, h1, h2]
      refine ⟨rfl, ?_⟩
      cases d with
      | opt p => simp [setOpts, hs]
      | other n inner => simp [setOpts]
    · have hs := isSet_of_sets ho
      rw [List.filter_cons_of_neg (by simp [hs]), contents_cons S _ t, contents_set hx hs, if_pos rfl, h1, h2]
      exact ⟨rfl, by simp [setOpts, hs]⟩

/-- The values that the fields of a literal give to the field at `p`. -/
def fieldContents (path p : List Nat) (fields : List Field) : List Nat :=
  fields.flatMap fun f => if f.incomplete = false ∧ path ++ [f.desc] = p then fieldValues f.val else []

theorem contents_literal {o : Opt} {self : Nat} {fields : List Field} (h1 : o.incomplete = false)
    (h2 : o.name = init ++ [e]) (he : S.repeated e = false) (h3 : o.val = .literal self fields) (p : List Nat) :
    contents S [.opt o] p = fieldContents (init ++ [e]) p fields := by
  simp only [contents, options, List.flatMap_cons, List.flatMap_nil, List.append_nil]
  unfold optSettings
  rw [h1, h3, h2]
  simp only [Bool.false_eq_true, if_false, List.getLast?_append, List.getLast?_singleton, Option.some_or,
    Option.any_some, he]
  unfold fieldContents
  clear h3
  induction fields with
  | nil => rfl
  | cons f t ih =>
    simp only [List.flatMap_cons, List.filter_append, List.map_append, ih]
    congr 1
    cases f.incomplete with
    | true => simp
    | false =>
      by_cases hp : init ++ [e] ++ [f.desc] = p
      · simp [← hp, List.filter_map, Function.comp_def]
      · have hp' : ¬ init ++ e :: [f.desc] = p := by simpa using hp
        simp [hp']

theorem fieldContents_target (fields : List Field) (path : List Nat) :
    fieldContents path (path ++ [x]) fields = (targetFields x fields).flatMap fun f => fieldValues f.val := by
  unfold fieldContents targetFields
  induction fields with
  | nil => rfl
  | cons f t ih =>
    rw [List.flatMap_cons, ih]
    by_cases h : f.incomplete = false ∧ f.desc = x
    · rw [List.filter_cons_of_pos (by simp [h.1, h.2]), List.flatMap_cons, if_pos ⟨h.1, by rw [h.2]⟩]
    · rw [List.filter_cons_of_neg (by simpa using h), if_neg]
      · rfl
      · rintro ⟨h1, h2⟩
        exact h ⟨h1, by simpa using h2⟩

/-- Changes of the fields that set the target do not change other fields. -/
theorem fieldContents_change {fields : List Field} {path p : List Nat} {P : Field → Bool} {g : Field → Field}
    (hp : p ≠ path ++ [x]) (hP : ∀ f ∈ fields, P f = false → f.desc = x)
    (hg : ∀ f ∈ fields, g f = f ∨ (f.desc = x ∧ (g f).desc = x)) :
    fieldContents path p ((fields.filter P).map g) = fieldContents path p fields := by
  have none : ∀ f : Field, f.desc = x → ¬ (f.incomplete = false ∧ path ++ [f.desc] = p) := by
    rintro f hf ⟨_, h⟩
    exact hp (by rw [← h, hf])
  unfold fieldContents
  induction fields with
  | nil => rfl
  | cons f t ih =>
    have ht := ih (fun f hf => hP f (by simp [hf])) (fun f hf => hg f (by simp [hf]))
    cases hf : P f with
    | false =>
      rw [List.filter_cons_of_neg (by simp [hf]), ht, List.flatMap_cons, if_neg (none f (hP f (by simp) hf))]
      rfl
    | true =>
      rw [List.filter_cons_of_pos (by simp [hf]), List.map_cons, List.flatMap_cons, ht, List.flatMap_cons]
      rcases hg f (by simp) with h | ⟨h1, h2⟩
      · rw [h]
      · rw [if_neg (none f h1), if_neg (none _ h2)]

theorem others_filter (path : List Nat) (ds : List Decl) : others (ds.filter fun d => !isSet path x d) = others ds := by
  induction ds with
  | nil => rfl
  | cons d t ih =>
    cases d with
    | other n inner =>
      rw [List.filter_cons_of_pos (by simp [isSet])]
      simp only [others, ih]
    | opt o =>
      cases hs : isSet path x (.opt o) with
      | false => rw [List.filter_cons_of_pos (by simp [hs])]; simp [others, ih]
      | true => rw [List.filter_cons_of_neg (by simp [hs])]; simp [others, ih]

end Verif.Simplify
