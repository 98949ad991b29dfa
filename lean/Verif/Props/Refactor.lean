import Verif.Model.Refactor

/-!
# C20, C21, C22, C23, C64, C66, C73: refactorings on messages
-/
namespace Verif.Refactor

/-! ## C20: new names are unused -/

/-- The candidates in the order in which they are tried. -/
def candidate (first base : Str) (k : Nat) : Str := if k = 0 then first else base ++ dec k

theorem nameLoop_spec (used : Str → Bool) (first base : Str) : ∀ (r i : Nat),
    ∃ k, i ≤ k ∧ k ≤ i + r ∧ nameLoop used base r (i + 1) (candidate first base i) = candidate first base k ∧
      (∀ j, i ≤ j → j < k → used (candidate first base j) = true) ∧
      (k < i + r → used (candidate first base k) = false) := by
  intro r
  induction r with
  | zero => intro i; exact ⟨i, by omega, by omega, rfl, by omega, by omega⟩
  | succ r ih =>
    intro i
    unfold nameLoop
    by_cases hu : used (candidate first base i) = true
    · rw [if_pos hu]
      have e : base ++ dec (i + 1) = candidate first base (i + 1) := by simp [candidate]
      rw [e]
      obtain ⟨k, h1, h2, h3, h4, h5⟩ := ih (i + 1)
      refine ⟨k, by omega, by omega, h3, ?_, fun h => h5 (by omega)⟩
      intro j hj hjk
      by_cases hji : j = i
      · exact hji ▸ hu
      · exact h4 j (by omega) hjk
    · rw [if_neg hu]
      exact ⟨i, by omega, by omega, rfl, by omega, fun _ => by simpa using hu⟩

theorem candidate_inj {first base : Str} (hf : ∀ k, k ≠ 0 → first ≠ base ++ dec k) {j k : Nat}
    (h : candidate first base j = candidate first base k) : j = k := by
  unfold candidate at h
  split at h <;> split at h
  · omega
  · rename_i hk; exact absurd h (hf k hk)
  · rename_i hj _; exact absurd h.symm (hf j hj)
  · exact dec_inj (by simpa using h)

/-- Fewer than 100 used names cannot contain all candidates. -/
theorem nameLoop_unused (names : List Str) (first base : Str)
    (hf : ∀ k, k ≠ 0 → first ≠ base ++ dec k) (hl : names.length < 100) :
    nameLoop (fun n => names.contains n) base 99 1 first ∉ names := by
  obtain ⟨k, _, hk, e, hused, hfree⟩ := nameLoop_spec (fun n => names.contains n) first base 99 0
  have e0 : candidate first base 0 = first := rfl
  rw [e0] at e
  simp only [Nat.zero_add] at e hk hfree
  rw [e]
  intro hin
  have hk99 : k = 99 := by
    by_cases h : k < 99
    · have := hfree h
      simp at this
      exact absurd hin this
    · omega
  subst hk99
  have hsub : (List.range 100).map (candidate first base) ⊆ names := by
    intro x hx
    obtain ⟨j, hj, rfl⟩ := List.mem_map.mp hx
    have hj := List.mem_range.mp hj
    by_cases h : j = 99
    · exact h ▸ hin
    · simpa using hused j (by omega) (by omega)
  have hnd : ((List.range 100).map (candidate first base)).Nodup := by
    unfold List.Nodup
    rw [List.pairwise_map]
    exact List.Pairwise.imp (fun h e => h (candidate_inj hf e)) List.nodup_range
  have := hnd.length_le_of_subset hsub
  simp at this
  omega

theorem self_ne_append_dec (s : Str) (k : Nat) : s ≠ s ++ dec k := by
  intro h
  have h1 := congrArg List.length h
  have h2 := dec_pos k
  rw [List.length_append] at h1
  omega

/-- **C20** for messages: the invented name differs from every message next to it.

Partial: (1) only if there are fewer than 100 siblings (`C20_exhausted_violated`); (2) names of
siblings that are not messages may clash (`C20_enum_violated`). -/
theorem C20_message_partial (siblings : List (Kind × Str)) (hl : siblings.length < 100) :
    ∀ s ∈ siblings, s.1 = Kind.message → findNewUnusedMessageName siblings ≠ s.2 := by
  intro s hs hm he
  let names := (siblings.filter (fun s => s.1 = Kind.message)).map Prod.snd
  have hfun : (fun n => siblings.contains (Kind.message, n)) = (fun n => names.contains n) := by
    funext n
    rw [Bool.eq_iff_iff]
    simp [names]
  have := nameLoop_unused names newMessage newMessage
    (fun k _ => self_ne_append_dec _ _)
    (by simp [names]; exact Nat.lt_of_le_of_lt (List.length_filter_le _ _) hl)
  unfold findNewUnusedMessageName at he
  rw [hfun] at he
  rw [he] at this
  exact this (by simp only [names, List.mem_map, List.mem_filter]; exact ⟨s, ⟨hs, by simp [hm]⟩, rfl⟩)

/-- The base of numbered field names is the given prefix or the prefix with an underscore. -/
theorem fieldBase_eq {pre base : Str} (h : fieldBase pre = some base) :
    ∃ u, (u = [] ∨ u = ['_']) ∧ base = pre ++ u := by
  unfold fieldBase at h
  split at h
  · simp at h
  · injection h with h
    split at h
    · exact ⟨['_'], .inr rfl, h.symm⟩
    · exact ⟨[], .inl rfl, by simp [h]⟩

/-- **C20** for fields: a name is found (the given prefix or the prefix with a number), and it
differs from the name of every field of the message.

Partial: only if the message has fewer than 100 fields (`C20_exhausted_violated`); other
declarations of the message, like oneofs and nested messages, may clash
(`C20_enum_violated`). -/
theorem C20_field_partial (fields : List Str) (pre : Str) (hp : pre ≠ []) (hl : fields.length < 100) :
    ∃ n, findNewUnusedFieldName fields pre = some n ∧ n ∉ fields ∧ pre <+: n := by
  have : ∃ base, fieldBase pre = some base := by
    unfold fieldBase
    cases h : pre.getLast? with
    | none => simp at h; exact absurd h hp
    | some c => exact ⟨_, rfl⟩
  obtain ⟨base, hb⟩ := this
  obtain ⟨u, _, hu⟩ := fieldBase_eq hb
  have hne : ∀ k, k ≠ 0 → pre ≠ base ++ dec k := by
    intro k _ h
    have h1 := congrArg List.length h
    have h2 := dec_pos k
    simp only [hu, List.length_append] at h1
    omega
  refine ⟨_, by rw [findNewUnusedFieldName, hb], nameLoop_unused fields pre base hne hl, ?_⟩
  obtain ⟨k, _, _, e, _, _⟩ := nameLoop_spec (fun n => fields.contains n) pre base 99 0
  have e0 : candidate pre base 0 = pre := rfl
  rw [e0, Nat.zero_add] at e
  rw [e, candidate]
  split
  · exact List.prefix_refl _
  · rw [hu, List.append_assoc]; exact List.prefix_append _ _

/-- C20 is violated if 100 messages `NewMessage`, `NewMessage1`, …, `NewMessage99` exist: the
invented name is one of them. -/
theorem C20_exhausted_violated :
    ∃ siblings : List (Kind × Str), (Kind.message, findNewUnusedMessageName siblings) ∈ siblings := by
  refine ⟨(List.range 100).map (fun k => (Kind.message, candidate newMessage newMessage k)), ?_⟩
  unfold findNewUnusedMessageName
  generalize hu : (fun n => ((List.range 100).map
    (fun k => (Kind.message, candidate newMessage newMessage k))).contains (Kind.message, n)) = used
  obtain ⟨k, _, hk, e, _, _⟩ := nameLoop_spec used newMessage newMessage 99 0
  have e0 : candidate newMessage newMessage 0 = newMessage := rfl
  rw [e0, Nat.zero_add] at e
  rw [e]
  exact List.mem_map.mpr ⟨k, List.mem_range.mpr (by omega), rfl⟩

/-- C20 is violated by siblings of another kind: next to an enum `NewMessage`, the new message
is called `NewMessage`. -/
theorem C20_enum_violated :
    findNewUnusedMessageName [(Kind.enum, "NewMessage".toList)] = "NewMessage".toList := by decide

example : findNewUnusedMessageName [(Kind.message, "NewMessage".toList)] = "NewMessage1".toList := by
  decide +kernel

example : findNewUnusedFieldName ["a1".toList, "b".toList] "a1".toList = some "a1_1".toList := by
  decide +kernel

/-! ## C21: renumbering -/

/-- A declaration without the numbers of its plain fields. -/
def Decl.blank : Decl → Decl
  | .field f => .field { f with number := 0 }
  | d => d

theorem renumberLoop_blank (ds : List Decl) (n : Nat) :
    (renumberLoop n ds).map Decl.blank = ds.map Decl.blank := by
  induction ds generalizing n with
  | nil => rfl
  | cons d ds ih => cases d <;> simp [renumberLoop, Decl.blank, ih]

/-- **C21**: renumbering changes nothing but the numbers of plain fields: same declarations,
same order, same names, types and options. -/
theorem C21_only_numbers (ds : List Decl) : (renumber ds).map Decl.blank = ds.map Decl.blank :=
  renumberLoop_blank ds 1

/-- All numbered declarations of the message are plain fields. -/
def PlainOnly (ds : List Decl) : Prop := ∀ d ∈ ds, (∃ f, d = .field f) ∨ d.fields = []

theorem renumberLoop_numbers (ds : List Decl) (n : Nat) (h : PlainOnly ds) :
    (allFields (renumberLoop n ds)).map Field.number = List.range' n (allFields ds).length := by
  induction ds generalizing n with
  | nil => simp [renumberLoop, allFields]
  | cons d ds ih =>
    have ih' := fun n => ih n (fun x hx => h x (by simp [hx]))
    rcases h d (by simp) with ⟨f, rfl⟩ | hd
    · have := ih' (n + 1)
      simp only [allFields] at this
      simp [renumberLoop, allFields, Decl.fields, this, List.range'_succ]
    · have hn : renumberLoop n (d :: ds) = d :: renumberLoop n ds := by
        cases d <;> simp [renumberLoop, Decl.fields] at hd ⊢
      have := ih' n
      simp only [allFields] at this
      simp [hn, allFields, hd, this]

/-- **C21**: afterwards the fields are numbered 1, 2, 3, … in declaration order.

Partial: only if the message has no map fields, groups or oneofs with fields
(`C21_map_violated`). -/
theorem C21_consecutive_partial (ds : List Decl) (h : PlainOnly ds) :
    (allFields (renumber ds)).map Field.number = List.range' 1 (allFields ds).length ∧
    ((allFields (renumber ds)).map Field.number).Nodup := by
  have := renumberLoop_numbers ds 1 h
  refine ⟨this, ?_⟩
  show ((allFields (renumberLoop 1 ds)).map Field.number).Nodup
  rw [this]
  exact List.nodup_range'

/-- In any message, the plain fields are numbered 1, 2, 3, … -/
theorem C21_plain_consecutive (ds : List Decl) :
    ((renumber ds).filterMap (fun d => match d with | .field f => some f.number | _ => none)) =
      List.range' 1 (ds.filter (fun d => match d with | .field _ => true | _ => false)).length := by
  have : ∀ n, ((renumberLoop n ds).filterMap
      (fun d => match d with | .field f => some f.number | _ => none)) =
      List.range' n (ds.filter (fun d => match d with | .field _ => true | _ => false)).length := by
    induction ds with
    | nil => intro n; simp [renumberLoop]
    | cons d ds ih => intro n; cases d <;> simp [renumberLoop, ih, List.range'_succ]
  exact this 1

/-- C21 is violated by map fields (and, in the same way, by groups and oneofs): they keep their
number, here 1, which a plain field gets as well. -/
theorem C21_map_violated :
    ∃ ds : List Decl, ((allFields ds).map Field.number).Nodup ∧
      ¬ ((allFields (renumber ds)).map Field.number).Nodup := by
  refine ⟨[.mapField ⟨1, [], "map<string, string>".toList, "m".toList, 1, []⟩,
    .field ⟨2, [], "string".toList, "s".toList, 2, []⟩], by decide, by decide⟩

/-- The fields that are looked at are all fields of the message: plain fields, map fields, groups and the fields of oneofs, in the order in which
they are declared. -/
theorem C21_fields (ds : List Decl) (f : Field) :
    (f ∈ allFields ds ↔ Decl.field f ∈ ds ∨ Decl.mapField f ∈ ds ∨ Decl.group f ∈ ds ∨ ∃ n fs, Decl.oneof n fs ∈ ds ∧ f ∈ fs) ∧
    ∀ n fs pre post, ds = pre ++ Decl.oneof n fs :: post → allFields ds = allFields pre ++ fs ++ allFields post := by
  constructor
  · unfold allFields
    rw [List.mem_flatMap]
    constructor
    · rintro ⟨d, hd, hf⟩
      cases d with
      | field g => simp only [Decl.fields, List.mem_singleton] at hf; subst hf; exact .inl hd
      | mapField g => simp only [Decl.fields, List.mem_singleton] at hf; subst hf; exact .inr (.inl hd)
      | group g => simp only [Decl.fields, List.mem_singleton] at hf; subst hf; exact .inr (.inr (.inl hd))
      | oneof n fs => exact .inr (.inr (.inr ⟨n, fs, hd, hf⟩))
      | other k => simp [Decl.fields] at hf
    · rintro (h | h | h | ⟨n, fs, h, hf⟩)
      · exact ⟨_, h, by simp [Decl.fields]⟩
      · exact ⟨_, h, by simp [Decl.fields]⟩
      · exact ⟨_, h, by simp [Decl.fields]⟩
      · exact ⟨_, h, hf⟩
  · rintro n fs pre post rfl
    simp [allFields, Decl.fields]

example : (⟨2, [], ['t'], ['b'], 2, []⟩ : Field) ∈ allFields [.other 0, .oneof ['o'] [⟨1, [], ['t'], ['a'], 1, []⟩, ⟨2, [], ['t'], ['b'], 2, []⟩]] :=
  (C21_fields _ _).1.2 (.inr (.inr (.inr ⟨_, _, List.mem_cons_of_mem _ List.mem_cons_self, by simp⟩)))

/-- The refactoring is offered exactly if the fields are not yet numbered 1, 2, 3, … -/
theorem C21_offered (ds : List Decl) :
    canRenumber ds = true ↔
      (allFields ds).map Field.number ≠ List.range' 1 (allFields ds).length := by
  unfold canRenumber
  have : ∀ (fs : List Field) (i : Nat), canRenumberLoop i fs = true ↔
      fs.map Field.number ≠ List.range' (i + 1) fs.length := by
    intro fs
    induction fs with
    | nil => simp [canRenumberLoop]
    | cons f fs ih =>
      intro i
      simp only [canRenumberLoop, List.map_cons, List.length_cons, List.range'_succ]
      by_cases hf : f.number = i + 1
      · simp [hf, ih]
      · simp [hf]
  exact this _ 0

example : PlainOnly [.field ⟨1, [], "string".toList, "s".toList, 7, []⟩, .other 0,
    .field ⟨2, [], "string".toList, "t".toList, 3, []⟩] := by
  intro d hd
  simp at hd
  rcases hd with rfl | rfl | rfl
  · exact .inl ⟨_, rfl⟩
  · exact .inr rfl
  · exact .inl ⟨_, rfl⟩

/-! ## C22: inlining a message -/

theorem foldl_largest (ds : List Decl) (m : Nat) :
    m ≤ ds.foldl (fun m d => match d with | .field f => max m f.number | _ => m) m ∧
    ∀ f, Decl.field f ∈ ds →
      f.number ≤ ds.foldl (fun m d => match d with | .field f => max m f.number | _ => m) m := by
  induction ds generalizing m with
  | nil => simp
  | cons d ds ih =>
    simp only [List.foldl_cons]
    cases d with
    | field g =>
      obtain ⟨h1, h2⟩ := ih (max m g.number)
      simp only []
      refine ⟨by omega, ?_⟩
      intro f hf
      rcases List.mem_cons.mp hf with e | hf
      · injection e with e; subst e; omega
      · exact h2 f hf
    | _ =>
      obtain ⟨h1, h2⟩ := ih m
      refine ⟨h1, ?_⟩
      intro f hf
      rcases List.mem_cons.mp hf with e | hf
      · cases e
      · exact h2 f hf

/-- The result of inserting: all fields, in order, with consecutive numbers. -/
theorem inlineFields_spec (label : Str) (existing : List Str) (nfs : List NewField) (start : Nat)
    (out : List Decl) (h : inlineFields label existing start nfs = some out) :
    out.length = nfs.length ∧
    (allFields out).map Field.number = List.range' start nfs.length ∧
    (allFields out).map (fun f => some f.name) = nfs.map (fun nf => inlineName existing nf.name) ∧
    (allFields out).map Field.ty = nfs.map NewField.ty ∧
    (∀ d ∈ out, ∃ f, d = .field f) := by
  induction nfs generalizing start out with
  | nil => simp only [inlineFields, Option.some.injEq] at h; subst h; simp [allFields]
  | cons nf rest ih =>
    unfold inlineFields at h
    cases hn : inlineName existing nf.name with
    | none => rw [hn] at h; simp at h
    | some n =>
      rw [hn] at h
      cases hr : inlineFields label existing (start + 1) rest with
      | none => rw [hr] at h; simp at h
      | some r =>
        rw [hr] at h
        simp only [Option.some.injEq] at h
        subst h
        obtain ⟨h1, h2, h3, h4, h5⟩ := ih (start + 1) r hr
        simp only [allFields] at h2 h3 h4
        refine ⟨by simp [h1], ?_, ?_, ?_, ?_⟩
        · simp [allFields, Decl.fields, h2, List.range'_succ]
        · simp [allFields, Decl.fields, h3, hn]
        · simp [allFields, Decl.fields, h4]
        · intro d hd
          rcases List.mem_cons.mp hd with rfl | hd
          · exact ⟨_, rfl⟩
          · exact h5 d hd

theorem inlineFields_some (label : Str) (existing : List Str) (nfs : List NewField) (start : Nat)
    (h : ∀ nf ∈ nfs, ∃ n, inlineName existing nf.name = some n) :
    ∃ out, inlineFields label existing start nfs = some out := by
  induction nfs generalizing start with
  | nil => exact ⟨[], rfl⟩
  | cons nf rest ih =>
    obtain ⟨n, hn⟩ := h nf (by simp)
    obtain ⟨r, hr⟩ := ih (start + 1) (fun x hx => h x (by simp [hx]))
    exact ⟨.field ⟨0, label, nf.ty, n, start, []⟩ :: r, by simp [inlineFields, hn, hr]⟩

theorem replaceField_split (id : Nat) (ins pre post : List Decl) (f : Field) (hid : f.id = id)
    (hpre : ∀ g, Decl.field g ∈ pre → g.id ≠ id) :
    replaceField id ins (pre ++ .field f :: post) = pre ++ ins ++ post := by
  induction pre with
  | nil => simp [replaceField, hid]
  | cons d ds ih =>
    have ih' := ih (fun g hg => hpre g (by simp [hg]))
    cases d with
    | field g =>
      have := hpre g (by simp)
      simp [replaceField, this, ih']
    | _ => simp [replaceField, ih']

/-- `b` is `a` followed by one or more digits and underscores. -/
def Extends (a b : Str) : Prop := ∃ u, u ≠ [] ∧ (∀ c ∈ u, c = '_' ∨ isDigit c = true) ∧ b = a ++ u

/-- An invented name is the original one, possibly extended. -/
theorem inlineName_shape {existing : List Str} {n m : Str} (h : inlineName existing n = some m) :
    ∃ u, (∀ c ∈ u, c = '_' ∨ isDigit c = true) ∧ m = n ++ u := by
  unfold inlineName at h
  split at h
  · unfold findNewUnusedFieldName at h
    split at h
    · simp at h
    · rename_i base hb
      injection h with h
      obtain ⟨v, hv, hbase⟩ := fieldBase_eq hb
      obtain ⟨k, _, _, e, _, _⟩ := nameLoop_spec (fun n => existing.contains n) n base 99 0
      have e0 : candidate n base 0 = n := rfl
      rw [e0, Nat.zero_add] at e
      rw [← h, e, candidate]
      split
      · exact ⟨[], by simp, by simp⟩
      · refine ⟨v ++ dec k, ?_, by simp [hbase]⟩
        intro c hc
        rcases List.mem_append.mp hc with hc | hc
        · rcases hv with rfl | rfl
          · simp at hc
          · simp at hc; exact .inl hc
        · exact .inr (dec_digits k c hc)
  · injection h with h; exact ⟨[], by simp, by simp [h]⟩

theorem inlineName_inj {existing : List Str} {a b m : Str} (ha : inlineName existing a = some m)
    (hb : inlineName existing b = some m) (h1 : ¬ Extends a b) (h2 : ¬ Extends b a) : a = b := by
  obtain ⟨u, hu, eu⟩ := inlineName_shape ha
  obtain ⟨v, hv, ev⟩ := inlineName_shape hb
  have h : a ++ u = b ++ v := by rw [← eu, ← ev]
  rcases List.append_eq_append_iff.mp h with ⟨w, e1, e2⟩ | ⟨w, e1, e2⟩
  · cases w with
    | nil => simpa using e1.symm
    | cons c t => exact absurd ⟨c :: t, by simp, fun x hx => hu x (e2 ▸ List.mem_append_left _ hx), e1⟩ h1
  · cases w with
    | nil => simpa using e1
    | cons c t => exact absurd ⟨c :: t, by simp, fun x hx => hv x (e2 ▸ List.mem_append_left _ hx), e1⟩ h2

theorem inlineName_fresh {existing : List Str} (hl : existing.length < 100) {n : Str} (hn : n ≠ []) :
    ∃ m, inlineName existing n = some m ∧ m ∉ existing := by
  unfold inlineName
  by_cases h : n ∈ existing
  · obtain ⟨m, h1, h2, _⟩ := C20_field_partial existing n hn hl
    exact ⟨m, by simp [h, h1], h2⟩
  · exact ⟨n, by simp [h], h⟩

/-- The names given to the inlined fields are distinct. -/
theorem inlined_names_nodup (existing : List Str) (nfs : List NewField) (names : List Str)
    (hmap : names.map some = nfs.map (fun nf => inlineName existing nf.name))
    (hnd : (nfs.map NewField.name).Nodup)
    (hext : ∀ x ∈ nfs, ∀ y ∈ nfs, ¬ Extends x.name y.name) : names.Nodup := by
  induction nfs generalizing names with
  | nil => simp at hmap; subst hmap; simp
  | cons nf rest ih =>
    cases names with
    | nil => simp at hmap
    | cons n ns =>
      simp only [List.map_cons, List.cons.injEq] at hmap
      obtain ⟨e1, e2⟩ := hmap
      simp only [List.map_cons, List.nodup_cons] at hnd ⊢
      refine ⟨?_, ih ns e2 hnd.2 (fun x hx y hy => hext x (by simp [hx]) y (by simp [hy]))⟩
      intro hin
      have : some n ∈ rest.map (fun nf => inlineName existing nf.name) := by
        rw [← e2]; exact List.mem_map.mpr ⟨n, hin, rfl⟩
      obtain ⟨y, hy, ey⟩ := List.mem_map.mp this
      have := inlineName_inj e1.symm ey (hext nf (by simp) y (by simp [hy]))
        (hext y (by simp [hy]) nf (by simp))
      exact hnd.1 (this ▸ List.mem_map.mpr ⟨y, hy, rfl⟩)

theorem allFields_append (a b : List Decl) : allFields (a ++ b) = allFields a ++ allFields b := by
  simp [allFields]

/-- **C22**: inlining the message of the field `f` replaces `f` by one field for each field of
that message (in order, same types), keeps all other declarations, and field names and
numbers stay distinct.

Partial: (1) all fields of the containing message must be plain (`C22_number_violated`);
(2) the inlined message must have a field (`C22_empty_violated`); (3) no field name of the
inlined message may be another one followed by digits and underscores
(`C22_name_violated`); (4) the containing message must have fewer than 100 fields (C20). -/
theorem C22_distinct_partial (label : Str) (nfs : List NewField) (pre post : List Decl) (f : Field)
    (hne : nfs ≠ []) (hplain : PlainOnly (pre ++ .field f :: post))
    (hid : ∀ g, Decl.field g ∈ pre → g.id ≠ f.id)
    (hlen : (allFields (pre ++ .field f :: post)).length < 100)
    (hnames : ((allFields (pre ++ .field f :: post)).map Field.name).Nodup)
    (hnums : ((allFields (pre ++ .field f :: post)).map Field.number).Nodup)
    (hnn : ∀ nf ∈ nfs, nf.name ≠ []) (hnd : (nfs.map NewField.name).Nodup)
    (hext : ∀ x ∈ nfs, ∀ y ∈ nfs, ¬ Extends x.name y.name) :
    ∃ ins, inline label nfs f.id (pre ++ .field f :: post) = some (pre ++ ins ++ post) ∧
      (allFields ins).map Field.ty = nfs.map NewField.ty ∧
      ins.length = nfs.length ∧
      ((allFields (pre ++ ins ++ post)).map Field.name).Nodup ∧
      ((allFields (pre ++ ins ++ post)).map Field.number).Nodup := by
  have hlen' : ((allFields (pre ++ .field f :: post)).map Field.name).length < 100 := by simpa using hlen
  obtain ⟨ins, hins⟩ := inlineFields_some label ((allFields (pre ++ .field f :: post)).map Field.name)
    nfs (largest (pre ++ .field f :: post) + 1)
    (fun nf h => (inlineName_fresh hlen' (hnn nf h)).imp (fun _ h => h.1))
  obtain ⟨h1, h2, h3, h4, h5⟩ := inlineFields_spec _ _ _ _ _ hins
  have hins0 : ins ≠ [] := by
    rintro rfl
    simp at h1
    exact hne (List.length_eq_zero_iff.mp h1.symm)
  refine ⟨ins, ?_, h4, h1, ?_, ?_⟩
  · simp only [inline, hins]
    cases ins with
    | nil => exact absurd rfl hins0
    | cons d ds => rw [replaceField_split f.id _ pre post f rfl hid]
  · -- names
    have key : ∀ x ∈ (allFields ins).map Field.name,
        x ∉ (allFields (pre ++ .field f :: post)).map Field.name := by
      intro x hx
      obtain ⟨g, hg, rfl⟩ := List.mem_map.mp hx
      have : some g.name ∈ nfs.map (fun nf => inlineName
          ((allFields (pre ++ .field f :: post)).map Field.name) nf.name) := by
        rw [← h3]; exact List.mem_map.mpr ⟨g, hg, rfl⟩
      obtain ⟨nf, hnf, e⟩ := List.mem_map.mp this
      obtain ⟨m, hm, hfresh⟩ := inlineName_fresh hlen' (hnn nf hnf)
      rw [hm] at e
      injection e with e
      exact e ▸ hfresh
    have hnew : ((allFields ins).map Field.name).Nodup :=
      inlined_names_nodup _ nfs _ (by rw [← h3]; simp) hnd hext
    simp only [allFields_append, List.map_append] at hnames key ⊢
    rw [List.nodup_append] at hnames
    rw [List.append_assoc, List.nodup_append]
    obtain ⟨n1, n2, n3⟩ := hnames
    have e : allFields (.field f :: post) = f :: allFields post := rfl
    rw [e] at n2 n3 key
    simp only [List.map_cons, List.nodup_cons] at n2
    rw [List.nodup_append]
    refine ⟨n1, ⟨hnew, n2.2, ?_⟩, ?_⟩
    · intro a ha b hb heq
      exact key a ha (by simp only [List.map_cons, List.mem_append, List.mem_cons]; exact .inr (.inr (heq ▸ hb)))
    · intro a ha b hb heq
      rcases List.mem_append.mp hb with hb | hb
      · exact key b hb (by simp only [List.map_cons, List.mem_append]; exact .inl (heq ▸ ha))
      · exact n3 a ha b (by simp only [List.map_cons, List.mem_cons]; exact .inr hb) heq
  · -- numbers
    have hbig : ∀ g ∈ allFields (pre ++ .field f :: post),
        g.number ≤ largest (pre ++ .field f :: post) := by
      intro g hg
      obtain ⟨d, hd, hgd⟩ := List.mem_flatMap.mp hg
      rcases hplain d hd with ⟨f', rfl⟩ | h0
      · simp [Decl.fields] at hgd
        subst hgd
        exact (foldl_largest _ 0).2 g hd
      · rw [h0] at hgd; simp at hgd
    have key : ∀ x ∈ (allFields ins).map Field.number,
        ∀ y ∈ (allFields (pre ++ .field f :: post)).map Field.number, y < x := by
      intro x hx y hy
      rw [h2] at hx
      obtain ⟨g, hg, rfl⟩ := List.mem_map.mp hy
      have := hbig g hg
      simp [List.mem_range'_1] at hx
      omega
    have hnew : ((allFields ins).map Field.number).Nodup := by rw [h2]; exact List.nodup_range'
    simp only [allFields_append, List.map_append] at hnums key ⊢
    rw [List.nodup_append] at hnums
    rw [List.append_assoc, List.nodup_append]
    obtain ⟨n1, n2, n3⟩ := hnums
    have e : allFields (.field f :: post) = f :: allFields post := rfl
    rw [e] at n2 n3 key
    simp only [List.map_cons, List.nodup_cons] at n2
    rw [List.nodup_append]
    refine ⟨n1, ⟨hnew, n2.2, ?_⟩, ?_⟩
    · intro a ha b hb heq
      have := key a ha b (by simp only [List.map_cons, List.mem_append, List.mem_cons]; exact .inr (.inr hb))
      omega
    · intro a ha b hb heq
      rcases List.mem_append.mp hb with hb | hb
      · have := key b hb a (by simp only [List.map_cons, List.mem_append]; exact .inl ha)
        omega
      · exact n3 a ha b (by simp only [List.map_cons, List.mem_cons]; exact .inr hb) heq

/-- C22 is violated by map fields (likewise groups and oneofs): their numbers are not counted,
so an inlined field gets the number of the map field. -/
theorem C22_number_violated :
    ∃ (nfs : List NewField) (ds out : List Decl), ((allFields ds).map Field.number).Nodup ∧
      inline [] nfs 1 ds = some out ∧ ¬ ((allFields out).map Field.number).Nodup := by
  refine ⟨[⟨"x".toList, "string".toList, .singular⟩],
    [.field ⟨1, [], "M".toList, "m".toList, 1, []⟩,
     .mapField ⟨2, [], "map<string, string>".toList, "k".toList, 2, []⟩],
    [.field ⟨0, [], "string".toList, "x".toList, 2, []⟩,
     .mapField ⟨2, [], "map<string, string>".toList, "k".toList, 2, []⟩], by decide, by decide, by decide⟩

/-- C22 is violated if the inlined message has the fields `a` and `a1` and the containing
message has a field `a`: both new fields are called `a1`. -/
theorem C22_name_violated :
    ∃ (nfs : List NewField) (ds out : List Decl), ((allFields ds).map Field.name).Nodup ∧
      (nfs.map NewField.name).Nodup ∧
      inline [] nfs 1 ds = some out ∧ ¬ ((allFields out).map Field.name).Nodup := by
  refine ⟨[⟨"a".toList, "string".toList, .singular⟩, ⟨"a1".toList, "string".toList, .singular⟩],
    [.field ⟨1, [], "M".toList, "m".toList, 1, []⟩, .field ⟨2, [], "string".toList, "a".toList, 2, []⟩],
    [.field ⟨0, [], "string".toList, "a1".toList, 3, []⟩, .field ⟨0, [], "string".toList, "a1".toList, 4, []⟩,
     .field ⟨2, [], "string".toList, "a".toList, 2, []⟩], by decide, by decide, by decide +kernel, by decide⟩

/-- C22 is violated by an inlined message without fields: the server panics, for every
containing message. -/
theorem C22_empty_violated (label : Str) (id : Nat) (ds : List Decl) : inline label [] id ds = none := by
  simp [inline, inlineFields]

example : inline [] [⟨"a".toList, "string".toList, .singular⟩, ⟨"b".toList, "int32".toList, .singular⟩] 1
    [.field ⟨1, [], "M".toList, "m".toList, 4, []⟩, .other 9, .field ⟨2, [], "string".toList, "a".toList, 2, []⟩] =
    some [.field ⟨0, [], "string".toList, "a1".toList, 5, []⟩, .field ⟨0, [], "int32".toList, "b".toList, 6, []⟩,
      .other 9, .field ⟨2, [], "string".toList, "a".toList, 2, []⟩] := by decide +kernel

/-! ## C66: inlining keeps the cardinality of fields -/

/-- Every inlined field has the label `optional` of proto2 files, or no label: a singular
field. **C66**, partial: fields of the inlined message that are singular stay so; others do
not (`C66_repeated_violated`). -/
theorem C66_singular_partial (label : Str) (existing : List Str) (nfs : List NewField) (start : Nat)
    (out : List Decl) (h : inlineFields label existing start nfs = some out) :
    ∀ f ∈ allFields out, f.label = label := by
  induction nfs generalizing start out with
  | nil => simp only [inlineFields, Option.some.injEq] at h; subst h; simp [allFields]
  | cons nf rest ih =>
    unfold inlineFields at h
    cases hn : inlineName existing nf.name with
    | none => rw [hn] at h; simp at h
    | some n =>
      rw [hn] at h
      cases hr : inlineFields label existing (start + 1) rest with
      | none => rw [hr] at h; simp at h
      | some r =>
        rw [hr] at h
        simp only [Option.some.injEq] at h
        subst h
        intro f hf
        have e : allFields (Decl.field ⟨0, label, nf.ty, n, start, []⟩ :: r) =
          ⟨0, label, nf.ty, n, start, []⟩ :: allFields r := rfl
        rw [e] at hf
        rcases List.mem_cons.mp hf with rfl | hf
        · rfl
        · exact ih (start + 1) r hr f hf

/-- C66 is violated: a repeated field is inlined without the label `repeated`. -/
theorem C66_repeated_violated :
    ∃ (nf : NewField) (ds : List Decl) (f : Field) (post : List Decl), nf.card = .repeated ∧
      inline [] [nf] 1 ds = some (.field f :: post) ∧ f.name = nf.name ∧ f.label = [] := by
  refine ⟨⟨"x".toList, "string".toList, .repeated⟩, [.field ⟨1, [], "M".toList, "m".toList, 1, []⟩],
    ⟨0, [], "string".toList, "x".toList, 2, []⟩, [], by decide, by decide, by decide, by decide⟩

/-! ## C23: extracting fields -/

theorem extractLoop_true (ids : List Nat) (new : Field) (ds : List Decl) :
    extractLoop ids new true ds = ds.filter (fun d => !enclosed ids d) := by
  induction ds with
  | nil => rfl
  | cons d ds ih =>
    unfold extractLoop
    cases h : enclosed ids d <;> simp [h, ih]

theorem extractLoop_split (ids : List Nat) (new : Field) (pre post : List Decl) (d : Decl)
    (hpre : ∀ x ∈ pre, enclosed ids x = false) (hd : enclosed ids d = true) :
    extractLoop ids new false (pre ++ d :: post) =
      pre ++ .field new :: post.filter (fun d => !enclosed ids d) := by
  induction pre with
  | nil => simp [extractLoop, hd, extractLoop_true]
  | cons x xs ih =>
    have hx := hpre x (by simp)
    simp [extractLoop, hx, ih (fun y hy => hpre y (by simp [hy]))]

theorem newFields_spec (retype : Field → Str) (fs : List Field) (i : Nat) :
    (newFields retype i fs).map Field.number = List.range' (i + 1) fs.length ∧
    (newFields retype i fs).map (fun g => (g.label, g.name, g.opts)) =
      fs.map (fun g => (g.label, g.name, g.opts)) ∧
    (newFields retype i fs).map Field.ty = fs.map retype := by
  induction fs generalizing i with
  | nil => simp [newFields]
  | cons f fs ih =>
    obtain ⟨h1, h2, h3⟩ := ih (i + 1)
    simp [newFields, h1, h2, h3, List.range'_succ]

theorem allFields_filter_sub (p : Decl → Bool) (ds : List Decl) :
    (allFields (ds.filter p)).Sublist (allFields ds) := by
  induction ds with
  | nil => simp [allFields]
  | cons d ds ih =>
    simp only [allFields] at ih ⊢
    by_cases h : p d
    · simp only [List.filter_cons_of_pos h, List.flatMap_cons]
      exact List.Sublist.append_left ih _
    · rw [List.filter_cons_of_neg h, List.flatMap_cons]
      exact List.Sublist.trans ih (List.sublist_append_right _ _)

/-- Specification: the declaration is a field, and its identity is one of those. -/
def Among (ids : List Nat) (d : Decl) : Prop := ∃ f, d = .field f ∧ f.id ∈ ids

instance (ids : List Nat) (d : Decl) : Decidable (Among ids d) :=
  match d with
  | .field f => decidable_of_iff (f.id ∈ ids) ⟨fun h => ⟨f, rfl, h⟩, fun ⟨_, e, h⟩ => by cases e; exact h⟩
  | .mapField _ => isFalse (fun ⟨_, e, _⟩ => by cases e)
  | .group _ => isFalse (fun ⟨_, e, _⟩ => by cases e)
  | .oneof .. => isFalse (fun ⟨_, e, _⟩ => by cases e)
  | .other _ => isFalse (fun ⟨_, e, _⟩ => by cases e)

theorem enclosed_iff (ids : List Nat) (d : Decl) : enclosed ids d = true ↔ Among ids d := by
  constructor
  · intro h
    cases d with
    | field f => exact ⟨f, rfl, by simpa [enclosed] using h⟩
    | _ => cases h
  · rintro ⟨f, rfl, h⟩
    simpa [enclosed] using h

theorem enclosed_eq (ids : List Nat) : (fun d => !enclosed ids d) = fun d => !decide (Among ids d) := by
  funext d
  congr 1
  rw [Bool.eq_iff_iff, enclosed_iff, decide_eq_true_iff]

/-- **C23**: let `d`, behind `pre`, be the declaration of the first extracted field. The new
message has exactly the extracted fields (same labels, names and options, in order), numbered
from 1. The old message keeps, in order, every declaration that is not extracted, and has one
new field, with the new message's name as its type, in place of the first extracted field and
with its number. -/
theorem C23_extract (label : Str) (retype : Field → Str) (msgName : Str) (f : Field) (fs : List Field)
    (pre post : List Decl) (hpre : ∀ x ∈ pre, ¬ Among ((f :: fs).map Field.id) x) :
    ∃ name r, extract label retype msgName (f :: fs) (pre ++ .field f :: post) = some r ∧
      r.old = pre ++ .field ⟨0, label, msgName, name, f.number, []⟩ ::
        post.filter (fun d => !decide (Among ((f :: fs).map Field.id) d)) ∧
      findNewUnusedFieldName ((allFields (pre ++ .field f :: post)).map Field.name)
        "newField".toList = some name ∧
      r.new.map Field.number = List.range' 1 (f :: fs).length ∧
      r.new.map (fun g => (g.label, g.name, g.opts)) = (f :: fs).map (fun g => (g.label, g.name, g.opts)) ∧
      r.new.map Field.ty = (f :: fs).map retype := by
  have : ∃ name, findNewUnusedFieldName ((allFields (pre ++ .field f :: post)).map Field.name)
      "newField".toList = some name := ⟨_, rfl⟩
  obtain ⟨name, h1⟩ := this
  refine ⟨name, ⟨extractLoop ((f :: fs).map Field.id) ⟨0, label, msgName, name, f.number, []⟩ false
    (pre ++ .field f :: post), newFields retype 0 (f :: fs)⟩, by simp only [extract, h1], ?_, h1, ?_⟩
  · rw [← enclosed_eq]
    exact extractLoop_split _ _ _ _ _ (fun x hx => Bool.eq_false_iff.2 fun h => hpre x hx ((enclosed_iff _ _).1 h)) (by simp [enclosed])
  · exact newFields_spec retype (f :: fs) 0

/-- **C23**: after extraction, the numbers of the fields of the old message are still distinct. -/
theorem C23_numbers (label : Str) (retype : Field → Str) (msgName : Str) (f : Field) (fs : List Field)
    (pre post : List Decl) (hpre : ∀ x ∈ pre, ¬ Among ((f :: fs).map Field.id) x)
    (hnums : ((allFields (pre ++ .field f :: post)).map Field.number).Nodup) :
    ∃ r, extract label retype msgName (f :: fs) (pre ++ .field f :: post) = some r ∧
      ((allFields r.old).map Field.number).Nodup := by
  obtain ⟨name, r, h1, h2, _⟩ := C23_extract label retype msgName f fs pre post hpre
  refine ⟨r, h1, ?_⟩
  rw [h2]
  have hsub := allFields_filter_sub (fun d => !decide (Among ((f :: fs).map Field.id) d)) post
  have e : ∀ (g : Field) (t : List Decl), allFields (pre ++ .field g :: t) = allFields pre ++ g :: allFields t := by
    intro g t; simp [allFields, Decl.fields]
  rw [e] at hnums ⊢
  simp only [List.map_append, List.map_cons] at hnums ⊢
  exact (List.Sublist.append_left ((hsub.map _).cons_cons _) _).nodup hnums

/-- **C73**: after extraction, the names of the fields of the old message are still distinct.

Partial: for fewer than 100 fields (`C73_exhausted_violated`). -/
theorem C73_distinct_partial (label : Str) (retype : Field → Str) (msgName : Str) (f : Field) (fs : List Field)
    (pre post : List Decl) (hlen : (allFields (pre ++ .field f :: post)).length < 100)
    (hpre : ∀ x ∈ pre, ¬ Among ((f :: fs).map Field.id) x)
    (hnames : ((allFields (pre ++ .field f :: post)).map Field.name).Nodup) :
    ∃ r, extract label retype msgName (f :: fs) (pre ++ .field f :: post) = some r ∧
      ((allFields r.old).map Field.name).Nodup := by
  obtain ⟨name, r, h1, h2, h3, _⟩ := C23_extract label retype msgName f fs pre post hpre
  obtain ⟨_, h4, h3', _⟩ := C20_field_partial ((allFields (pre ++ .field f :: post)).map Field.name)
    "newField".toList (by decide) (by simpa using hlen)
  rw [h3] at h4
  injection h4 with h4
  rw [← h4] at h3'
  replace h3 := h3'
  refine ⟨r, h1, ?_⟩
  rw [h2]
  have hsub := allFields_filter_sub (fun d => !decide (Among ((f :: fs).map Field.id) d)) post
  have e : ∀ (g : Field) (t : List Decl), allFields (pre ++ .field g :: t) = allFields pre ++ g :: allFields t := by
    intro g t; simp [allFields, Decl.fields]
  rw [e] at hnames h3 ⊢
  simp only [List.map_append, List.map_cons] at hnames h3 ⊢
  have hs2 : (List.map Field.name (allFields pre) ++ List.map Field.name
      (allFields (post.filter (fun d => !decide (Among ((f :: fs).map Field.id) d))))).Sublist
      (List.map Field.name (allFields pre) ++ f.name :: List.map Field.name (allFields post)) :=
    List.Sublist.append_left ((hsub.map _).cons _) _
  rw [List.perm_middle.nodup_iff, List.nodup_cons]
  exact ⟨fun hin => h3 (hs2.subset hin), hs2.nodup hnames⟩

/-- C73 is violated if 100 fields `newField`, `newField1`, …, `newField99` exist: the new field gets the name of one of them. -/
theorem C73_exhausted_violated : ∃ (f : Field) (ds : List Decl) (r : Extracted),
    ((allFields ds).map Field.name).Nodup ∧ Decl.field f ∈ ds ∧ extract [] Field.ty "NewMessage".toList [f] ds = some r ∧
      ¬ ((allFields r.old).map Field.name).Nodup := by
  let name (k : Nat) : Str := candidate "newField".toList "newField".toList k
  let f : Field := ⟨1, [], "string".toList, "x".toList, 1, []⟩
  let ds : List Decl := .field f :: (List.range 100).map (fun k => .field ⟨k + 2, [], "string".toList, name k, k + 2, []⟩)
  exact ⟨f, ds, (extract [] Field.ty "NewMessage".toList [f] ds).getD ⟨[], []⟩, by decide +kernel, by decide +kernel,
    by decide +kernel, by decide +kernel⟩

/-- The fields `b` and `d` are extracted, `a` stays. -/
example : ∃ r, extract [] Field.ty "NewMessage".toList
    [⟨2, [], "string".toList, "b".toList, 7, []⟩, ⟨4, [], "int32".toList, "d".toList, 9, []⟩]
    ([.field ⟨1, [], "string".toList, "a".toList, 3, []⟩] ++ .field ⟨2, [], "string".toList, "b".toList, 7, []⟩ ::
     [.other 3, .field ⟨4, [], "int32".toList, "d".toList, 9, []⟩]) = some r ∧ ((allFields r.old).map Field.name).Nodup :=
  C73_distinct_partial _ _ _ _ _ _ _ (by decide) (by simp [Among]) (by decide)

example : extract [] Field.ty "NewMessage".toList
    [⟨2, [], "string".toList, "b".toList, 7, []⟩, ⟨4, [], "int32".toList, "d".toList, 9, []⟩]
    [.field ⟨1, [], "string".toList, "a".toList, 3, []⟩, .field ⟨2, [], "string".toList, "b".toList, 7, []⟩,
     .other 3, .field ⟨4, [], "int32".toList, "d".toList, 9, []⟩] =
    some ⟨[.field ⟨1, [], "string".toList, "a".toList, 3, []⟩,
      .field ⟨0, [], "NewMessage".toList, "newField".toList, 7, []⟩, .other 3],
      [⟨0, [], "string".toList, "b".toList, 1, []⟩, ⟨0, [], "int32".toList, "d".toList, 2, []⟩]⟩ := by decide

/-! ## C64: indentation -/

/-- **C64**: hanging indentation keeps the lines of the text and puts `k` blanks in front of
every line but the first. -/
theorem C64_hanging (lines : List Str) (k : Nat) (l : Str) (h : ∀ x ∈ l :: lines, '\n' ∉ x) :
    indentTextHanging (joinWith '\n' (l :: lines)) k =
      joinWith '\n' (l :: lines.map (fun x => List.replicate k ' ' ++ x)) := by
  have hline : ∀ x : Str, '\n' ∉ x → indentTextHanging x k = x := by
    intro x hx
    induction x with
    | nil => rfl
    | cons c t ih =>
      simp only [List.mem_cons, not_or] at hx
      have hc : ¬ c = '\n' := fun e => hx.1 e.symm
      have := ih hx.2
      simp only [indentTextHanging] at this ⊢
      simp [hc, this]
  have happ : ∀ x y : Str, indentTextHanging (x ++ y) k = indentTextHanging x k ++ indentTextHanging y k := by
    intro x y; simp [indentTextHanging]
  induction lines generalizing l with
  | nil => simpa [joinWith] using hline l (h l (by simp))
  | cons m ms ih =>
    rw [joinWith_cons _ _ _ (by simp), happ, hline l (h l (by simp))]
    have e : indentTextHanging ('\n' :: joinWith '\n' (m :: ms)) k =
        '\n' :: List.replicate k ' ' ++ indentTextHanging (joinWith '\n' (m :: ms)) k := by
      simp [indentTextHanging]
    rw [e, ih m (fun x hx => h x (by simp at hx ⊢; exact .inr hx))]
    simp only [List.map_cons]
    rw [joinWith_cons _ l _ (by simp)]
    cases ms with
    | nil => simp [joinWith]
    | cons n ns => simp [joinWith]

/-- **C64**: `indentText` also indents the first line. -/
theorem C64_first (lines : List Str) (k : Nat) (h : ∀ x ∈ lines, '\n' ∉ x) (h0 : lines ≠ []) :
    indentText (joinWith '\n' lines) k =
      joinWith '\n' (lines.map (fun x => List.replicate k ' ' ++ x)) := by
  obtain ⟨l, ls, rfl⟩ := List.exists_cons_of_ne_nil h0
  rw [indentText, C64_hanging ls k l h]
  cases ls with
  | nil => simp [joinWith]
  | cons m ms => simp [joinWith]

/-- **C64**: the indentation can be undone by removing the blanks again: for every text. -/
theorem C64_undo (text : Str) (k : Nat) :
    ∃ l ls, splitOn '\n' (indentTextHanging text k) = l :: ls ∧
      (∀ x ∈ ls, List.replicate k ' ' <+: x) ∧
      joinWith '\n' (l :: ls.map (List.drop k)) = text := by
  obtain ⟨l, ls, hs⟩ := List.exists_cons_of_ne_nil (splitOn_ne_nil '\n' text)
  have hno := splitOn_no_sep '\n' text
  have hj := join_splitOn '\n' text
  rw [hs] at hno hj
  have h1 := C64_hanging ls k l hno
  rw [hj] at h1
  refine ⟨l, ls.map (fun x => List.replicate k ' ' ++ x), ?_, ?_, ?_⟩
  · rw [h1, splitOn_join _ _ (by simp)]
    intro w hw
    rcases List.mem_cons.mp hw with rfl | hw
    · exact hno w (by simp)
    · obtain ⟨x, hx, rfl⟩ := List.mem_map.mp hw
      have := hno x (by simp [hx])
      simp [this]
  · intro x hx
    obtain ⟨y, _, rfl⟩ := List.mem_map.mp hx
    exact List.prefix_append _ _
  · rw [List.map_map]
    have : (List.drop k ∘ fun x => List.replicate k ' ' ++ x) = (id : Str → Str) := by
      funext x
      simp
    rw [this, List.map_id, hj]

example : indentText "a\nb".toList 2 = "  a\n  b".toList := by decide

end Verif.Refactor
