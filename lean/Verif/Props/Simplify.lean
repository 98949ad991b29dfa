import Verif.Lemmas.Simplify

/-!
# C78: "Simplify repeated options" keeps the meaning of the options
-/
namespace Verif.Simplify

/-- A message with the option `option init.(e) = { ... }`, in which the repeated field `x` can be set, and perhaps options
`option init.(e).x = ...` after it. `fields` are the fields of the literal. -/
structure Setting (S : Schema) (init : List Nat) (e x : Nat) (pre post : List Decl) (c : Opt) (lit : Nat) (fields : List Field) :
    Prop where
  isExt : S.isExt e = true
  single : S.repeated e = false
  repeated : S.repeated x = true
  complete : c.incomplete = false
  name : c.name = init ++ [e]
  val : c.val = .literal lit fields
  /-- Nodes have an identity. -/
  ids : ((visited (pre ++ .opt c :: post)).map Opt.id).Nodup
  fieldIds : (fields.map Field.id).Nodup
  before : ∀ d ∈ pre, Kept e x d
  after : ∀ d ∈ post, After (init ++ [e]) e x d
  good : ∀ f ∈ fields, goodField f

/-- The cursor is on the name of the field, in the literal or in an option after it. -/
def OnField (S : Schema) (init : List Nat) (e x : Nat) (post : List Decl) (c : Opt) (fields : List Field) : Cursor → Prop
  | .field o f => o = c ∧ f ∈ fields ∧ f.desc = x
  | .name o index => .opt o ∈ post ∧ Sets (init ++ [e]) x o ∧ index = (init ++ [e]).length ∧ S.isExt x = false

/-- The shapes of the literal that are handled: the first of the fields that set the target has an array, with a comma at its end
if there is something to add; or no field has an array, and there is nothing else in the literal. -/
def Handled (init : List Nat) (e x : Nat) (post : List Decl) (fields : List Field) : Prop :=
  (∃ a rest items, targetFields x fields = a :: rest ∧ a.val = .array items ∧
    (closed items ∨ (rest = [] ∧ ∀ d ∈ post, isSet (init ++ [e]) x d = false))) ∨
  (init = [] ∧ fields ≠ [] ∧ ∀ f ∈ fields, f.incomplete = false ∧ f.desc = x ∧ f.isArray = false)

theorem target_onField {S : Schema} {init : List Nat} {e x : Nat} {pre post : List Decl} {c : Opt} {lit : Nat}
    {fields : List Field} (h : Setting S init e x pre post c lit fields) {cursor : Cursor}
    (hc : OnField S init e x post c fields cursor) :
    ∃ container, target S cursor = some { ext := some e, field := x, container := container } ∧
      (container = some c ∨ (container = none ∧ findContainer S (some e) (pre ++ .opt c :: post) = some c)) := by
  cases cursor with
  | field o f =>
    obtain ⟨rfl, hf, hd⟩ := hc
    refine ⟨some o, ?_, .inl rfl⟩
    simp [target, hd, h.repeated, h.name, h.isExt]
  | name o index =>
    obtain ⟨_, hs, hi, hx⟩ := hc
    refine ⟨none, ?_, .inr ⟨rfl, ?_⟩⟩
    · have h1 : o.name[index]? = some x := by rw [hs.2.1, hi]; simp
      have h2 : (o.name.take (index + 1)).reverse = x :: e :: init.reverse := by
        rw [hs.2.1, hi, List.take_of_length_le (by simp)]
        simp
      have h3 : o.name.length ≠ 1 := by rw [hs.2.1]; simp
      simp only [target, h1, h.repeated, h2, if_true, extensionBefore, hx, h.isExt, h3, false_and, if_false,
        Bool.false_eq_true]
    · unfold findContainer
      rw [visited_append, List.find?_append]
      have : (visited pre).find? (isContainer S (some e)) = none := by
        rw [List.find?_eq_none]
        intro p hp
        rcases visited_kept h.before p hp with hi | ⟨h1, _⟩
        · simp [isContainer, hi]
        · rcases List.eq_nil_or_concat p.name with hn | ⟨i, q, hn⟩
          · simp [isContainer, hn]
          · rw [List.concat_eq_append] at hn
            have : q ≠ e := fun hq => h1 i (by rw [hn, hq])
            simp [isContainer, hn, this]
      rw [this]
      simp [visited, isContainer, h.complete, h.name, h.isExt]

theorem refs_setting {S : Schema} {init : List Nat} {e x : Nat} {pre post : List Decl} {c : Opt} {lit : Nat}
    {fields : List Field} (h : Setting S init e x pre post c lit fields) :
    refs S (some e) x (pre ++ .opt c :: post) =
      ((targetFields x fields).map fun f => ⟨c, some f⟩) ++ (setOpts (init ++ [e]) x post).map fun o => ⟨o, none⟩ := by
  have hx : e ≠ x := by
    intro hx
    have := h.single
    rw [hx, h.repeated] at this
    cases this
  unfold refs
  rw [visited_append, List.flatMap_append, flatMap_unrelated (visited_kept h.before)]
  simp only [visited, List.flatMap_cons, List.nil_append]
  rw [refs_after h.isExt h.after, optRefs_container hx h.isExt h.complete h.name h.val]

/-- What the function does in these settings. -/
theorem simplify_eq {S : Schema} {init : List Nat} {e x : Nat} {pre post : List Decl} {c : Opt} {lit : Nat}
    {fields : List Field} (h : Setting S init e x pre post c lit fields) {cursor : Cursor}
    (hc : OnField S init e x post c fields cursor) (fresh : Nat) (hne : targetFields x fields ≠ []) :
    let array := (targetFields x fields).find? Field.isArray
    let moved := movedFields array (targetFields x fields)
    let items := trimComma (startItems array ++ moved.flatMap (fun f => moveField f.val) ++
      (setOpts (init ++ [e]) x post).flatMap (fun o => moveOption o.val))
    simplify S .message fresh (pre ++ .opt c :: post) cursor =
      some (.edit (pre ++ .opt (newOption fresh (some e) x (some c) array (moved.map Field.id) items) ::
        post.filter fun d => !isSet (init ++ [e]) x d)) := by
  intro array moved items
  have hids := h.ids
  rw [visited_append, List.map_append] at hids
  have hids' : ((options (pre ++ .opt c :: post)).map Opt.id).Nodup :=
    ((options_sublist _).map _).nodup h.ids
  have hpost : ∀ o ∈ visited post, o.id ≠ c.id := by
    have := (List.nodup_append.mp hids).2.1
    simp only [visited, List.map_cons, List.nodup_cons, List.mem_map, not_exists, not_and] at this
    exact this.1
  have hpre : c.id ∉ (visited pre).map Opt.id := by
    intro hm
    exact (List.nodup_append.mp hids).2.2 _ hm c.id (by simp [visited]) rfl
  have hset : ∀ o ∈ setOpts (init ++ [e]) x post, o.id ≠ c.id :=
    fun o ho => hpost o ((options_sublist post).subset (setOpts_sublist.subset ho))
  have hw : withinFields (some c) (refs S (some e) x (pre ++ .opt c :: post)) = targetFields x fields := by
    rw [refs_setting h]
    simp only [withinFields, List.filter_append, List.filterMap_append]
    rw [List.filter_eq_self.mpr (by simp), (List.filter_eq_nil_iff (l := (setOpts (init ++ [e]) x post).map _)).mpr (by
      intro r hr
      rw [List.mem_map] at hr
      obtain ⟨o, ho, rfl⟩ := hr
      simpa using hset o ho)]
    simp [List.filterMap_map]
  have ho : outsideOpts (some c) (refs S (some e) x (pre ++ .opt c :: post)) = setOpts (init ++ [e]) x post := by
    rw [refs_setting h]
    simp only [outsideOpts, List.filter_append, List.map_append]
    rw [(List.filter_eq_nil_iff (l := (targetFields x fields).map _)).mpr (by simp), List.filter_eq_self.mpr (by
      intro r hr
      rw [List.mem_map] at hr
      obtain ⟨o, ho, rfl⟩ := hr
      simpa using hset o ho)]
    simp [Function.comp_def]
  obtain ⟨container, ht, hcont⟩ := target_onField h hc
  unfold simplify
  rw [ht]
  simp only
  suffices hh : simplifyEdits .message fresh (some e) x (some c) (pre ++ .opt c :: post)
      (refs S (some e) x (pre ++ .opt c :: post)) = .edit (pre ++ .opt (newOption fresh (some e) x (some c) array
        (moved.map Field.id) items) :: post.filter fun d => !isSet (init ++ [e]) x d) by
    rcases hcont with rfl | ⟨rfl, h2⟩
    · exact congrArg some hh
    · rw [h2]
      exact congrArg some hh
  unfold simplifyEdits
  obtain ⟨f, rest, hf⟩ : ∃ f rest, targetFields x fields = f :: rest := by
    cases hh : targetFields x fields with
    | nil => exact absurd hh hne
    | cons f rest => exact ⟨f, rest, rfl⟩
  have hcons : ∃ tail, refs S (some e) x (pre ++ .opt c :: post) = ⟨c, some f⟩ :: tail := by
    rw [refs_setting h, hf]
    exact ⟨_, rfl⟩
  obtain ⟨tail, hr⟩ := hcons
  rw [hr] at hw ho ⊢
  simp only [hw, ho]
  rw [change_append, change_none hpre]
  simp only [change, if_true]
  rw [change_none (by
    intro hm
    rw [List.mem_map] at hm
    obtain ⟨o, ho, hoid⟩ := hm
    exact hpost o ho hoid)]
  generalize hg : changeContainer (array.map Field.id) (moved.map Field.id) items c = c'
  have hid : c'.id = c.id := by
    rw [← hg]
    unfold changeContainer
    split <;> rfl
  have hrem := removeAll_setOpts (x := x) (path := init ++ [e]) post (pre ++ [.opt c']) (by
    have he : (options ((pre ++ [.opt c']) ++ post)).map Opt.id = (options (pre ++ .opt c :: post)).map Opt.id := by
      simp [options_append, options, hid]
    rw [he]
    exact hids')
  simp only [List.append_assoc, List.singleton_append] at hrem
  show (match removeAll .message (setOpts (init ++ [e]) x post).reverse (pre ++ .opt c' :: post) with
    | none => Outcome.panic
    | some left => _) = _
  rw [hrem]
  simp only
  rw [← hid, replace_mid (by
    rw [hid]
    intro hm
    exact hpre (((options_sublist pre).map _).subset hm))]
  simp only [List.map_cons, List.map_nil, List.append_assoc, List.singleton_append, items, moved, array]

/-- C78. In a message with an option `option (e) = { ... }` that sets the repeated field `x`, and perhaps options
`option (e).x = ...` after it, the action makes one array of the values, in the grammar of protobuf; nothing else is changed, and
every field of every option has the same contents as before, in the same order.

Full statement: this for all options. Missing: everything not in `Setting` and `Handled`, see the `C78_..._violated` theorems. -/
theorem C78_simplify_partial (S : Schema) (init : List Nat) (e x : Nat) (pre post : List Decl) (c : Opt) (lit : Nat)
    (fields : List Field) (h : Setting S init e x pre post c lit fields) (cursor : Cursor)
    (hc : OnField S init e x post c fields cursor) (fresh : Nat) (hh : Handled init e x post fields) :
    ∃ c' lit' fields' f items, let out := pre ++ .opt c' :: post.filter fun d => !isSet (init ++ [e]) x d
      simplify S .message fresh (pre ++ .opt c :: post) cursor = some (.edit out) ∧
      (∀ p, contents S out p = contents S (pre ++ .opt c :: post) p) ∧
      others out = others (pre ++ .opt c :: post) ∧
      c'.name = c.name ∧ c'.val = .literal lit' fields' ∧
      targetFields x fields' = [f] ∧ f.val = .array items ∧ strict items := by
  have hne : targetFields x fields ≠ [] := by
    rcases hh with ⟨a, rest, items, h1, _⟩ | ⟨_, h1, h2⟩
    · rw [h1]; simp
    · have : targetFields x fields = fields := by
        unfold targetFields
        rw [List.filter_eq_self]
        intro f hf
        simp [(h2 f hf).1, (h2 f hf).2.1]
      rw [this]; exact h1
  have heq := simplify_eq h hc fresh hne
  have hgood : ∀ f ∈ targetFields x fields, goodField f := fun f hf => h.good f (List.mem_filter.mp hf).1
  have hnodup : ((targetFields x fields).map Field.id).Nodup := (List.filter_sublist.map _).nodup h.fieldIds
  obtain ⟨mo1, mo2⟩ := moveOptions_spec (setOpts_after h.after)
  -- what is common to both cases
  have finish : ∀ (c' : Opt) (lit' : Nat) (fields' : List Field) (f : Field) (items : List Item),
      c'.incomplete = false → c'.name = c.name → c'.val = .literal lit' fields' →
      (∀ p, p ≠ init ++ [e] ++ [x] → fieldContents (init ++ [e]) p fields' = fieldContents (init ++ [e]) p fields) →
      targetFields x fields' = [f] → f.val = .array items → strict items →
      values items = ((targetFields x fields).flatMap fun f => fieldValues f.val) ++
        (setOpts (init ++ [e]) x post).flatMap optValues →
      (∀ p, contents S (pre ++ .opt c' :: post.filter fun d => !isSet (init ++ [e]) x d) p =
        contents S (pre ++ .opt c :: post) p) ∧
      others (pre ++ .opt c' :: post.filter fun d => !isSet (init ++ [e]) x d) = others (pre ++ .opt c :: post) ∧
      c'.name = c.name ∧ c'.val = .literal lit' fields' ∧ targetFields x fields' = [f] ∧ f.val = .array items ∧ strict items := by
    intro c' lit' fields' f items hi hn hv hoth htf hfv hs hval
    refine ⟨fun p => ?_, ?_, hn, hv, htf, hfv, hs⟩
    · rw [contents_append, contents_append, contents_cons, contents_cons S (.opt c) post,
        contents_literal hi (hn.trans h.name) h.single hv, contents_literal h.complete h.name h.single h.val]
      congr 1
      by_cases hp : p = init ++ [e] ++ [x]
      · subst hp
        rw [fieldContents_target, fieldContents_target, htf, (contents_filter_target h.repeated h.after).1,
          (contents_filter_target h.repeated h.after).2]
        simp only [List.flatMap_cons, List.flatMap_nil, List.append_nil, hfv, fieldValues, hval]
      · rw [hoth p hp, contents_filter_other h.repeated hp]
    · rw [others_append, others_append]
      simp only [others, others_filter]
  rcases hh with ⟨a, rest, aitems, h1, h2, h3⟩ | ⟨hinit, h1, h2⟩
  · -- the first field has an array
    have harr : (targetFields x fields).find? Field.isArray = some a := by
      rw [h1]
      simp [Field.isArray, h2]
    have hmoved : movedFields (some a) (targetFields x fields) = rest := by
      rw [h1] at hnodup ⊢
      simp only [List.map_cons, List.nodup_cons, List.mem_map, not_exists, not_and] at hnodup
      unfold movedFields
      rw [List.filter_cons_of_neg (by simp), List.filter_eq_self]
      intro f hf
      have := hnodup.1 f hf
      simpa using this
    have hstart : startItems (some a) = aitems := by
      obtain ⟨i, d, inc, v⟩ := a
      simp only at h2
      subst h2
      rfl
    simp only [harr, hmoved, hstart] at heq
    have hga : wellFormed aitems = true := by
      have := hgood a (by rw [h1]; simp)
      unfold goodField at this
      rw [h2] at this
      exact this
    obtain ⟨mf1, mf2⟩ := moveFields_spec (fs := rest) (fun f hf => hgood f (by rw [h1]; simp [hf]))
    have hwf : wellFormed (aitems ++ rest.flatMap (fun f => moveField f.val) ++
        (setOpts (init ++ [e]) x post).flatMap (fun o => moveOption o.val)) = true := by
      rcases h3 with h3 | ⟨h3, h4⟩
      · exact (closed_append (closed_append h3 mf1) mo1).1
      · have : setOpts (init ++ [e]) x post = [] := by
          rw [List.eq_nil_iff_forall_not_mem]
          intro o ho
          have ho' := setOpts_sets o ho
          have hm : ∀ (ds : List Decl) (o : Opt), o ∈ options ds → .opt o ∈ ds := by
            intro ds
            induction ds with
            | nil => intro o ho; simp [options] at ho
            | cons d t ih =>
              intro o ho
              cases d with
              | opt p =>
                rcases List.mem_cons.mp ho with rfl | ho
                · simp
                · simp [ih o ho]
              | other n inner => simp [ih o ho]
          rw [h4 _ (hm post o ho'.1)] at ho'
          exact absurd ho'.2 (by simp)
        rw [h3, this]
        simpa using hga
    obtain ⟨t1, t2⟩ := trimComma_spec _ hwf
    generalize hit : trimComma (aitems ++ rest.flatMap (fun f => moveField f.val) ++
        (setOpts (init ++ [e]) x post).flatMap (fun o => moveOption o.val)) = items at heq t1 t2
    have hnew : newOption fresh (some e) x (some c) (some a) (rest.map Field.id) items =
        { c with val := .literal lit ((fields.filter fun f => !decide (f.id ∈ rest.map Field.id)).map fun f =>
            if some f.id = some a.id then { f with val := .array items } else f) } := by
      simp only [newOption, changeContainer, h.val]
    have hsub : ∀ f ∈ fields, f.id ∈ (targetFields x fields).map Field.id → f.desc = x := by
      intro f hf hid
      rw [List.mem_map] at hid
      obtain ⟨g, hg, hgid⟩ := hid
      have hg' := List.mem_filter.mp hg
      have : g = f := List.inj_on_of_nodup_map h.fieldIds hg'.1 hf hgid
      rw [← this]
      have := hg'.2
      simp only [Bool.and_eq_true, decide_eq_true_eq] at this
      exact this.2
    have htarget : targetFields x ((fields.filter fun f => !decide (f.id ∈ rest.map Field.id)).map fun f =>
        if some f.id = some a.id then { f with val := .array items } else f) = [{ a with val := .array items }] := by
      unfold targetFields
      rw [List.filter_map, List.filter_filter]
      have e1 : (fields.filter fun f => (((fun f : Field => !f.incomplete && decide (f.desc = x)) ∘ fun f =>
          if some f.id = some a.id then { f with val := .array items } else f) f &&
            !decide (f.id ∈ rest.map Field.id))) = (targetFields x fields).filter fun f => !decide (f.id ∈ rest.map Field.id) := by
        unfold targetFields
        rw [List.filter_filter]
        apply List.filter_congr
        intro f _
        rw [Bool.and_comm]
        simp only [Function.comp_apply]
        split <;> rfl
      rw [e1, h1]
      rw [h1] at hnodup
      simp only [List.map_cons, List.nodup_cons] at hnodup
      rw [List.filter_cons_of_pos (by simpa using hnodup.1), List.filter_eq_nil_iff.mpr (by
        intro f hf
        simp only [Bool.not_eq_true', decide_eq_false_iff_not, not_not]
        exact List.mem_map.mpr ⟨f, hf, rfl⟩)]
      simp
    rw [hnew] at heq
    refine ⟨_, lit, (fields.filter fun f => !decide (f.id ∈ rest.map Field.id)).map fun f =>
      if some f.id = some a.id then { f with val := .array items } else f, { a with val := .array items }, items, heq, ?_⟩
    refine finish _ lit _ _ items h.complete rfl rfl ?_ htarget rfl t1 ?_
    · intro p hp
      apply fieldContents_change hp
      · intro f hf hP
        simp only [Bool.not_eq_eq_eq_not, Bool.not_false, decide_eq_true_eq] at hP
        apply hsub f hf
        rw [h1]
        simp [hP]
      · intro f hf
        by_cases hid : f.id = a.id
        · right
          have : f.desc = x := hsub f hf (by rw [h1]; simp [hid])
          rw [if_pos (by rw [hid])]
          exact ⟨this, this⟩
        · left
          rw [if_neg (by simpa using hid)]
    · rw [t2, values_append, values_append, mf2, mo2, h1, List.flatMap_cons, h2]
      rfl
  · -- there is no array, and nothing else
    subst hinit
    have hall : targetFields x fields = fields := by
      unfold targetFields
      rw [List.filter_eq_self]
      intro f hf
      simp [(h2 f hf).1, (h2 f hf).2.1]
    have harr : (targetFields x fields).find? Field.isArray = none := by
      rw [hall, List.find?_eq_none]
      intro f hf
      simp [(h2 f hf).2.2]
    have hmoved : movedFields none (targetFields x fields) = fields := by
      rw [hall]
      unfold movedFields
      rw [List.filter_eq_self]
      intro f hf
      simp
    simp only [harr, hmoved, startItems] at heq
    obtain ⟨mf1, mf2⟩ := moveFields_spec (fs := fields) h.good
    have hwf := (closed_append (closed_append closed_nil mf1) mo1).1
    obtain ⟨t1, t2⟩ := trimComma_spec _ hwf
    generalize hit : trimComma ([] ++ fields.flatMap (fun f => moveField f.val) ++
        (setOpts ([] ++ [e]) x post).flatMap (fun o => moveOption o.val)) = items at heq t1 t2
    refine ⟨_, fresh, [{ id := fresh, desc := x, incomplete := false, val := .array items }], { id := fresh, desc := x, incomplete := false, val := .array items }, items, heq, ?_⟩
    refine finish _ fresh _ _ items rfl (by rw [h.name]; rfl) rfl ?_ (by simp [targetFields]) rfl t1 ?_
    · intro p hp
      have n1 : ∀ f : Field, f.desc = x → ¬ (f.incomplete = false ∧ [] ++ [e] ++ [f.desc] = p) := by
        rintro f hf ⟨_, hh⟩
        exact hp (by rw [← hh, hf])
      unfold fieldContents
      rw [List.flatMap_eq_nil_iff.mpr (fun f hf => ?_), List.flatMap_eq_nil_iff.mpr (fun f hf => ?_)]
      · exact if_neg (n1 f (h2 f hf).2.1)
      · rw [List.mem_singleton] at hf
        rw [hf]
        exact if_neg (n1 _ rfl)
    · rw [t2, values_append, values_append, mf2, mo2, hall]
      rfl

/-! ### Examples and counterexamples

Descriptor 1 is an extension of type `M`; 2 (`x`) and 3 (`y`) are fields of `M`, `x` repeated; 4 and 5 are singular fields of a
type that can be extended by `(1)`, too. -/

def demo : Schema where
  isExt d := decide (d = 1)
  repeated d := decide (d = 2)

/-- `option (e) = { x: [10,] y: 11 x: 12 };` -/
def optC : Opt :=
  ⟨20, false, [1], .literal 0 [⟨30, 2, false, .array [.val 10, .comma]⟩, ⟨31, 3, false, .atom 11⟩, ⟨32, 2, false, .atom 12⟩]⟩
/-- `option (e).x = 13;` -/
def optX : Opt := ⟨21, false, [1, 2], .atom 13⟩
/-- `option (e).x = [14, 15];` -/
def optXs : Opt := ⟨22, false, [1, 2], .array [.val 14, .comma, .val 15]⟩
/-- `option deprecated = true;` -/
def optD : Opt := ⟨23, false, [6], .atom 16⟩

theorem demo_setting : Setting demo [] 1 2 [.opt optD] [.opt optX, .other 40 [], .opt optXs] optC 0
    [⟨30, 2, false, .array [.val 10, .comma]⟩, ⟨31, 3, false, .atom 11⟩, ⟨32, 2, false, .atom 12⟩] where
  isExt := rfl
  single := rfl
  repeated := rfl
  complete := rfl
  name := rfl
  val := rfl
  ids := by decide
  fieldIds := by decide
  before := by
    intro d hd
    rw [List.mem_singleton] at hd
    subst hd
    refine .inr ⟨fun init h => ?_, fun init h => ?_⟩
    · have := congrArg List.getLast? h
      simp [optD] at this
    · have := congrArg List.getLast? h
      simp [optD] at this
  after := by
    intro d hd
    simp only [List.mem_cons, List.not_mem_nil, or_false] at hd
    rcases hd with rfl | rfl | rfl
    · exact .inr ⟨optX, rfl, rfl, rfl, trivial⟩
    · exact .inl (by intro o ho; simp at ho)
    · exact .inr ⟨optXs, rfl, rfl, rfl, rfl⟩
  good := by
    intro f hf
    simp only [List.mem_cons, List.not_mem_nil, or_false] at hf
    rcases hf with rfl | rfl | rfl
    · rfl
    · trivial
    · trivial

/-- The cursor on the `x` of `option (e).x = 13;`. -/
example : OnField demo [] 1 2 [.opt optX, .other 40 [], .opt optXs] optC
    [⟨30, 2, false, .array [.val 10, .comma]⟩, ⟨31, 3, false, .atom 11⟩, ⟨32, 2, false, .atom 12⟩] (.name optX 1) :=
  ⟨by simp, ⟨rfl, rfl, trivial⟩, rfl, rfl⟩

example : Handled [] 1 2 [.opt optX, .other 40 [], .opt optXs]
    [⟨30, 2, false, .array [.val 10, .comma]⟩, ⟨31, 3, false, .atom 11⟩, ⟨32, 2, false, .atom 12⟩] :=
  .inl ⟨_, _, _, rfl, rfl, .inl ⟨rfl, rfl⟩⟩

/-- The result is `option (e) = { x: [10, 12, 13, 14, 15] y: 11 };`. -/
example : simplify demo .message 99 [.opt optD, .opt optC, .opt optX, .other 40 [], .opt optXs] (.name optX 1) =
    some (.edit [.opt optD, .opt { optC with val := .literal 0 [⟨30, 2, false, .array [.val 10, .comma, .val 12, .comma, .val 13,
      .comma, .val 14, .comma, .val 15]⟩, ⟨31, 3, false, .atom 11⟩] }, .other 40 []]) := by decide +kernel

/-- C78 fails for the example in the documentation of the function (refactor.go 198-210), `option (e).x = 13; option (e).x = 17;`:
the option that is to be replaced has been removed, the server crashes. -/
theorem C78_documented_violated :
    simplify demo .message 99 [.opt optX, .opt ⟨24, false, [1, 2], .atom 17⟩] (.name optX 1) = some .panic := by
  decide +kernel

/-- C78 fails if the option with the literal comes after one that sets the field: the server crashes. -/
theorem C78_before_violated :
    simplify demo .message 99 [.opt optX, .opt optC] (.name optX 1) = some .panic := by
  decide +kernel

/-- C78 fails for a literal without an array, `option (e) = { x: 10 y: 11 x: 12 };`: the field `y` is lost. -/
theorem C78_lost_violated :
    let decls : List Decl := [.opt ⟨20, false, [1], .literal 0 [⟨30, 2, false, .atom 10⟩, ⟨31, 3, false, .atom 11⟩,
      ⟨32, 2, false, .atom 12⟩]⟩]
    ∃ out, simplify demo .message 99 decls (.field ⟨20, false, [1], .literal 0 [⟨30, 2, false, .atom 10⟩, ⟨31, 3, false, .atom 11⟩,
        ⟨32, 2, false, .atom 12⟩]⟩ ⟨30, 2, false, .atom 10⟩) = some (.edit out) ∧
      contents demo decls [1, 3] = [11] ∧ contents demo out [1, 3] = [] :=
  ⟨_, rfl, by decide +kernel, by decide +kernel⟩

/-- C78 fails if a value comes before the array, `option (e) = { x: 10 x: [12,] };`: the order changes. -/
theorem C78_order_violated :
    let c : Opt := ⟨20, false, [1], .literal 0 [⟨30, 2, false, .atom 10⟩, ⟨31, 2, false, .array [.val 12, .comma]⟩]⟩
    ∃ out, simplify demo .message 99 [.opt c] (.field c ⟨30, 2, false, .atom 10⟩) = some (.edit out) ∧
      contents demo [.opt c] [1, 2] = [10, 12] ∧ contents demo out [1, 2] = [12, 10] :=
  ⟨_, rfl, by decide +kernel, by decide +kernel⟩

/-- C78 fails in enums and services: values are added to the array, the options with them are not removed. -/
theorem C78_enum_violated :
    ∃ out, simplify demo .enumOrService 99 [.opt optC, .opt optX] (.name optX 1) = some (.edit out) ∧
      contents demo [.opt optC, .opt optX] [1, 2] = [10, 12, 13] ∧ contents demo out [1, 2] = [10, 12, 13, 13] :=
  ⟨_, rfl, by decide +kernel, by decide +kernel⟩

/-- C78 fails if a nested message has an option for the same field: the server crashes. -/
theorem C78_nested_violated :
    simplify demo .message 99 [.opt optC, .other 40 [optX]] (.field optC ⟨30, 2, false, .array [.val 10, .comma]⟩) = some .panic := by
  decide +kernel

/-- C78 fails if the extension is used in two fields of the options, `option a.(e) = { x: [10,] }; option b.(e).x = 13;`: the value
for the one is added to the other. -/
theorem C78_prefix_violated :
    let a : Opt := ⟨20, false, [4, 1], .literal 0 [⟨30, 2, false, .array [.val 10, .comma]⟩]⟩
    let b : Opt := ⟨21, false, [5, 1, 2], .atom 13⟩
    ∃ out, simplify demo .message 99 [.opt a, .opt b] (.field a ⟨30, 2, false, .array [.val 10, .comma]⟩) = some (.edit out) ∧
      contents demo [.opt a, .opt b] [5, 1, 2] = [13] ∧ contents demo out [5, 1, 2] = [] ∧
      contents demo out [4, 1, 2] = [10, 13] :=
  ⟨_, rfl, by decide +kernel, by decide +kernel, by decide +kernel⟩

/-- C78 fails for an array without a comma at its end (the parser, which is not modelled, may have added one): there is none between
its last value and the first one that is added. -/
theorem C78_comma_violated :
    let c : Opt := ⟨20, false, [1], .literal 0 [⟨30, 2, false, .array [.val 10]⟩, ⟨31, 2, false, .atom 12⟩]⟩
    ∃ c' lit f items, simplify demo .message 99 [.opt c] (.field c ⟨31, 2, false, .atom 12⟩) = some (.edit [.opt c']) ∧
      c'.val = .literal lit [f] ∧ f.val = .array items ∧ wellFormed items = false :=
  ⟨_, _, _, _, rfl, rfl, rfl, by decide +kernel⟩

end Verif.Simplify
