import Verif.Lemmas.FindTypes

/-!
# C83: the search for declarations by prefix finds what begins with the prefix
-/
namespace Verif.FindTypes

section
variable {c : Cache} {q : Query} {limit : Nat} {keep : Decl → Bool}
  {search : Bool → File → Str → List Decl → Bool → Prop} {n : Nat} {t : State}

/-- The search with an unqualified prefix returns, whatever the order in which the goroutines
run, the declarations of all files with a package that pass the filter and whose names below
the package begin with the prefix: file by file, in the order of the files, in each file in the
order of the library. -/
theorem C83_unqualified {pre : Str} (hl : LibOk keep search)
    (h : Steps c (.unqualified pre) limit search n (State.init c) t)
    (hr : t.returned = true) (hc : t.cancelled = false) :
    t.found.all = c.files.flatMap (fun f => f.decls.filter (fun d =>
      decide (f.pkg ≠ []) && keep d && decide (f.pkg ++ '.' :: pre <+: d.fullName))) := by
  rw [all_flatMap hl (Inv.init.steps h) hr hc]
  congr 1
  funext f
  by_cases hp : f.pkg = []
  · rw [target_none _ _ hp]; simp [hp]
  · rw [target_unqualified _ _ hp]; simp [hp, File.withPrefix]

/-- The search with a qualified prefix without leading dot returns the declarations of all files
with a package that pass the filter and whose full names begin with the prefix. -/
theorem C83_qualified {pre : Str} (hl : LibOk keep search) (hd : pre.head? ≠ some '.')
    (h : Steps c (.qualified pre) limit search n (State.init c) t)
    (hr : t.returned = true) (hc : t.cancelled = false) :
    t.found.all = c.files.flatMap (fun f => f.decls.filter (fun d =>
      decide (f.pkg ≠ []) && keep d && decide (pre <+: d.fullName))) := by
  rw [all_flatMap hl (Inv.init.steps h) hr hc]
  congr 1
  funext f
  by_cases hp : f.pkg = []
  · rw [target_none _ _ hp]; simp [hp]
  · rw [target_qualified _ _ hp hd]; simp [hp, File.withPrefix]

/-- With a leading dot, only the files are searched whose packages begin with the rest of the
prefix. Missing: the declarations of other packages whose full names begin with it. -/
theorem C83_leading_dot_partial {pre : Str} (hl : LibOk keep search)
    (h : Steps c (.qualified ('.' :: pre)) limit search n (State.init c) t)
    (hr : t.returned = true) (hc : t.cancelled = false) :
    t.found.all = c.files.flatMap (fun f => f.decls.filter (fun d =>
      decide (f.pkg ≠ [] ∧ pre <+: f.pkg) && keep d && decide (pre <+: d.fullName))) := by
  rw [all_flatMap hl (Inv.init.steps h) hr hc]
  congr 1
  funext f
  by_cases hp : f.pkg = []
  · rw [target_none _ _ hp]; simp [hp]
  · rw [target_dot _ _ hp]
    by_cases hq : pre <+: f.pkg
    · simp [hp, hq, File.withPrefix]
    · simp [hq]

/-- Even if a search fails or the request is cancelled, nothing is returned that does not belong
to the answer: the result of each file is part of the declarations that match. -/
theorem C83_sound (hl : LibOk keep search) (h : Steps c q limit search n (State.init c) t)
    (hr : t.returned = true) :
    ∀ d ∈ t.found.all, keep d = true ∧ ∃ f ∈ c.files, d ∈ f.decls ∧ f.pkg ≠ [] ∧
      (∀ pre, q = .unqualified pre → f.pkg ++ '.' :: pre <+: d.fullName) ∧
      (∀ pre, q = .qualified pre → pre.head? ≠ some '.' → pre <+: d.fullName) ∧
      (∀ pre, q = .qualified ('.' :: pre) → pre <+: d.fullName) := by
  intro d hd
  have hi : Inv c q limit search t := Inv.init.steps h
  rw [all_eq] at hd
  obtain ⟨ds, hds, hd⟩ := List.mem_flatten.mp hd
  obtain ⟨i, hi', hds⟩ := List.mem_iff_getElem.mp hds
  have hlt : i < c.results.length := by rw [← hi.ls]; exact hi'
  have hf : c.results[i]? = some (c.results[i]'hlt) := by simp
  obtain ⟨ds', p, h1, _, h2⟩ := final_entry hi hr i _ hf
  have e : ds' = ds := by
    rw [List.getElem?_eq_getElem hi'] at h1
    rw [← hds]; exact (Option.some.inj h1).symm
  subst e
  revert h2
  cases he : c.effective (c.results[i]'hlt) with
  | none => rintro ⟨rfl, _⟩; cases hd
  | some g =>
    simp only
    cases ht : q.target g with
    | none => rintro ⟨_, rfl⟩; cases hd
    | some pre =>
      rintro ⟨_, b, failed, hs, _⟩
      have hm := (hl.sound _ _ _ _ _ hs).subset hd
      unfold File.withPrefix at hm
      rw [List.mem_filter] at hm
      obtain ⟨hm1, hm2⟩ := hm
      simp at hm2
      have hpkg : g.pkg ≠ [] := by
        intro hp; rw [target_none _ _ hp] at ht; cases ht
      refine ⟨hm2.1, g, ?_, hm1, hpkg, ?_, ?_, ?_⟩
      · unfold Cache.files
        refine List.mem_filterMap.mpr ⟨_, List.getElem_mem hlt, ?_⟩
        unfold Cache.effective at he
        cases hp : (c.results[i]'hlt).placeholder with
        | false => rw [hp] at he; simpa using he
        | true => rw [hp] at he; simpa using he
      · rintro pre' rfl
        rw [target_unqualified _ _ hpkg, Option.some.injEq] at ht
        rw [ht]; exact hm2.2
      · rintro pre' rfl hh
        rw [target_qualified _ _ hpkg hh, Option.some.injEq] at ht
        rw [ht]; exact hm2.2
      · rintro pre' rfl
        rw [target_dot _ _ hpkg] at ht
        split at ht
        · rw [Option.some.inj ht]; exact hm2.2
        · cases ht

/-- `Len` is the number of the descriptors of `All`; `Range` does not panic and visits one entry
per file, in their order: with the path of the file (empty for a placeholder without partial
result), and all the entries together are `All`. -/
theorem C83_views (h : Steps c q limit search n (State.init c) t) (hr : t.returned = true) :
    t.found.len = t.found.all.length ∧
      ∃ l, t.found.range = some l ∧ (l.map (·.2)).flatten = t.found.all ∧
        l.map (·.1) = c.results.map (fun f =>
          if f.placeholder then ((c.partials f.path).map (·.path)).getD [] else f.path) := by
  have hi : Inv c q limit search t := Inv.init.steps h
  refine ⟨?_, ?_⟩
  · rw [all_eq]; simp only [State.found]; rw [foldl_length]; omega
  · refine ⟨t.paths.zip t.slots, ?_, ?_, ?_⟩
    · exact range_zip t (by rw [hi.lp, hi.ls])
    · rw [all_eq, List.map_snd_zip (by rw [hi.lp, hi.ls]; exact Nat.le_refl _)]
    · rw [List.map_fst_zip (by rw [hi.lp, hi.ls]; exact Nat.le_refl _)]
      apply List.ext_getElem?
      intro i
      rw [List.getElem?_map]
      cases hf : c.results[i]? with
      | none =>
        have := List.getElem?_eq_none_iff.mp hf
        rw [← hi.lp] at this
        simpa using this
      | some f =>
        obtain ⟨ds, p, _, h2, h3⟩ := final_entry hi hr i f hf
        rw [h2]
        simp only [Option.map_some, Option.some.injEq]
        revert h3
        unfold Cache.effective
        cases f.placeholder with
        | false =>
          simp only [Bool.false_eq_true, if_false]
          exact fun h3 => h3.1
        | true =>
          simp only [if_true]
          cases c.partials f.path with
          | none => exact fun h3 => h3.2
          | some g => exact fun h3 => h3.1

/-- At no time more goroutines run than the limit allows. -/
theorem C83_limit (h : Steps c q limit search n (State.init c) t) :
    t.tasks.count .running ≤ limit := (Inv.init.steps h).lim

/-- The search comes to an end: it takes at most two steps per file and two more, and the only
states without a next step are those in which it has returned. -/
theorem C83_returns (hl : LibOk keep search) (hlim : 0 < limit)
    (h : Steps c q limit search n (State.init c) t) :
    n ≤ 2 * c.results.length + 2 ∧
      ((∀ u, ¬ Step c q limit search t u) → t.returned = true) := by
  have hi : Inv c q limit search t := Inv.init.steps h
  refine ⟨?_, ?_⟩
  · have key : ∀ (n : Nat) (t : State), Steps c q limit search n (State.init c) t →
        n + t.measure c ≤ (State.init c).measure c := by
      intro n t h
      generalize hs : State.init c = s at h
      induction h with
      | refl s => omega
      | @step n s t u h1 h2 ih =>
        have := ih hs
        have := measure_step (by subst hs; exact Inv.init.steps h1) h2
        omega
    have h1 := key n t h
    have h2 : (State.init c).measure c = 2 * c.results.length + 2 := by
      unfold State.measure State.running
      have : (State.init c).tasks.count .running = 0 := by
        simp only [State.init, map_const]; exact count_replicate_idle _
      rw [this]
      simp [State.init]
    omega
  · intro hstuck
    cases hr : t.returned with
    | true => rfl
    | false =>
      exfalso
      by_cases hrun : t.running = 0
      · cases hn : c.results[t.next]? with
        | none => exact hstuck _ (.wait t hn hrun hr)
        | some f =>
          cases he : c.effective f with
          | none => exact hstuck _ (.skip t f hn he)
          | some g =>
            cases ht : q.target g with
            | none => exact hstuck _ (.skipFile t f g hn he ht)
            | some pre => exact hstuck _ (.start t f g pre hn he ht (by omega))
      · have : Task.running ∈ t.tasks := by
          apply Classical.byContradiction
          intro hm
          exact hrun (List.count_eq_zero.mpr hm)
        obtain ⟨i, hi', hti⟩ := List.mem_iff_getElem.mp this
        have hlt : i < c.results.length := by rw [← hi.lt]; exact hi'
        have hti' : t.tasks[i]? = some .running := by rw [List.getElem?_eq_getElem hi', hti]
        obtain ⟨t0, ds, p, h1, h2, h3⟩ := task_at hi i hlt
        rw [hti'] at h1; cases h1
        have hf : c.results[i]? = some (c.results[i]'hlt) := by simp
        have h0 := hi.ent i _ _ _ _ hf hti' h2 h3
        unfold Entry at h0
        split at h0
        · cases h0.1
        · revert h0
          cases he : c.effective (c.results[i]'hlt) with
          | none => intro h0; cases h0.1
          | some g =>
            simp only
            cases ht : q.target g with
            | none => intro h0; cases h0.2.1
            | some pre =>
              intro _
              obtain ⟨ds', failed, hs⟩ := hl.total t.cancelled g pre
              exact hstuck _ (.finish t i _ g pre ds' failed hti' hf he ht hs)

/-- Completion of a type name without dot: the candidates are the messages other than map
entries, and the enums, of all files with a package, whose names below the package begin with
the text before the cursor. -/
theorem C83_types {typed : Str} (hl : LibOk isType search) (ht : '.' ∉ typed)
    (h : Steps c (completionQuery typed) limit search n (State.init c) t)
    (hr : t.returned = true) (hc : t.cancelled = false) (d : Decl) :
    d ∈ t.found.all ↔ (d.kind = .enum ∨ ∃ e, d.kind = .message false e) ∧
      ∃ f ∈ c.files, d ∈ f.decls ∧ f.pkg ≠ [] ∧ f.pkg ++ '.' :: typed <+: d.fullName := by
  have hq : completionQuery typed = .unqualified typed := by
    unfold completionQuery; rw [if_neg (by simpa using ht)]
  rw [hq] at h
  rw [C83_unqualified hl h hr hc]
  simp only [List.mem_flatMap, List.mem_filter, Bool.and_eq_true, decide_eq_true_eq, isType_iff]
  constructor
  · rintro ⟨f, h1, h2, ⟨h3, h4⟩, h5⟩; exact ⟨h4, f, h1, h2, h3, h5⟩
  · rintro ⟨h4, f, h1, h2, h3, h5⟩; exact ⟨f, h1, h2, ⟨h3, h4⟩, h5⟩

/-- Completion of a type name with a dot, but not at its beginning: the candidates are the types
of all files with a package whose full names begin with the text before the cursor. -/
theorem C83_qualified_types {typed : Str} (hl : LibOk isType search) (ht : '.' ∈ typed)
    (hd : typed.head? ≠ some '.')
    (h : Steps c (completionQuery typed) limit search n (State.init c) t)
    (hr : t.returned = true) (hc : t.cancelled = false) (d : Decl) :
    d ∈ t.found.all ↔ (d.kind = .enum ∨ ∃ e, d.kind = .message false e) ∧
      ∃ f ∈ c.files, d ∈ f.decls ∧ f.pkg ≠ [] ∧ typed <+: d.fullName := by
  have hq : completionQuery typed = .qualified typed := by
    unfold completionQuery; rw [if_pos (by simpa using ht)]
  rw [hq] at h
  rw [C83_qualified hl hd h hr hc]
  simp only [List.mem_flatMap, List.mem_filter, Bool.and_eq_true, decide_eq_true_eq, isType_iff]
  constructor
  · rintro ⟨f, h1, h2, ⟨h3, h4⟩, h5⟩; exact ⟨h4, f, h1, h2, h3, h5⟩
  · rintro ⟨h4, f, h1, h2, h3, h5⟩; exact ⟨f, h1, h2, ⟨h3, h4⟩, h5⟩

/-- Completion of the type that is extended, in a proto2 file: only messages with extension
ranges. -/
theorem C83_extendable {typed : Str} (hl : LibOk isExtendable search) (ht : '.' ∉ typed)
    (h : Steps c (completionQuery typed) limit search n (State.init c) t)
    (hr : t.returned = true) (hc : t.cancelled = false) (d : Decl) :
    d ∈ t.found.all ↔ d.kind = .message false true ∧
      ∃ f ∈ c.files, d ∈ f.decls ∧ f.pkg ≠ [] ∧ f.pkg ++ '.' :: typed <+: d.fullName := by
  have hq : completionQuery typed = .unqualified typed := by
    unfold completionQuery; rw [if_neg (by simpa using ht)]
  rw [hq] at h
  rw [C83_unqualified hl h hr hc]
  simp only [List.mem_flatMap, List.mem_filter, Bool.and_eq_true, decide_eq_true_eq,
    isExtendable_iff]
  constructor
  · rintro ⟨f, h1, h2, ⟨h3, h4⟩, h5⟩; exact ⟨h4, f, h1, h2, h3, h5⟩
  · rintro ⟨h4, f, h1, h2, h3, h5⟩; exact ⟨f, h1, h2, ⟨h3, h4⟩, h5⟩

end

/-! ## Examples and witnesses -/

/-- `message Bar` and `enum Baz` in package `p`. -/
def fileP : File :=
  ⟨['p', '.', 'p'], false, ['p'],
    [⟨['p', '.', 'B', 'a', 'r'], .message false false, ['p', '.', 'p']⟩, ⟨['p', '.', 'B', 'a', 'z'], .enum, ['p', '.', 'p']⟩,
      ⟨['p', '.', 'x'], .field, ['p', '.', 'p']⟩]⟩

/-- `message Bat` in a file without package. -/
def fileN : File := ⟨['n', '.', 'p'], false, [], [⟨['B', 'a', 't'], .message false false, ['n', '.', 'p']⟩]⟩

/-- A placeholder. -/
def fileQ : File := ⟨['q', '.', 'p'], true, [], []⟩

/-- The partial result for the placeholder: `message Bag` in package `q`. -/
def partialQ : File :=
  ⟨['q', '.', 'p'], false, ['q'], [⟨['q', '.', 'B', 'a', 'g'], .message false true, ['q', '.', 'p']⟩]⟩

/-- The three files. -/
def ws : Cache := ⟨[fileP, fileN, fileQ], fun p => if p = ['q', '.', 'p'] then some partialQ else none⟩

/-- A run of the search for `Ba`; the second goroutine ends before the first. -/
theorem runBa : ∃ t, Steps ws (.unqualified ['B', 'a']) 2 (lib isType) 6 (State.init ws) t ∧
    t.returned = true ∧ t.cancelled = false ∧
    t.slots = [[⟨['p', '.', 'B', 'a', 'r'], .message false false, ['p', '.', 'p']⟩, ⟨['p', '.', 'B', 'a', 'z'], .enum, ['p', '.', 'p']⟩],
      [], [⟨['q', '.', 'B', 'a', 'g'], .message false true, ['q', '.', 'p']⟩]] := by
  have r1 := Steps.step (.refl (State.init ws)) (Step.start (c := ws)
    (q := .unqualified ['B', 'a']) (limit := 2) (search := lib isType)
    _ fileP fileP ['p', '.', 'B', 'a'] rfl rfl (by decide) (by decide))
  have r2 := Steps.step r1 (.skipFile _ fileN fileN rfl rfl (by decide))
  have r3 := Steps.step r2 (.start _ fileQ partialQ ['q', '.', 'B', 'a'] rfl (by decide)
    (by decide) (by decide))
  have r4 := Steps.step r3 (.finish _ 2 fileQ partialQ ['q', '.', 'B', 'a']
    (partialQ.withPrefix isType ['q', '.', 'B', 'a']) false rfl rfl (by decide) (by decide)
    ⟨rfl, rfl⟩)
  have r5 := Steps.step r4 (.finish _ 0 fileP fileP ['p', '.', 'B', 'a']
    (fileP.withPrefix isType ['p', '.', 'B', 'a']) false rfl rfl rfl (by decide) ⟨rfl, rfl⟩)
  exact ⟨_, .step r5 (.wait _ rfl (by decide) rfl), rfl, rfl, by decide⟩

example : ∃ t, Steps ws (completionQuery ['B', 'a']) 2 (lib isType) 6 (State.init ws) t ∧
    t.returned = true ∧ t.cancelled = false ∧
    (⟨['q', '.', 'B', 'a', 'g'], .message false true, ['q', '.', 'p']⟩ : Decl) ∈ t.found.all := by
  obtain ⟨t, h1, h2, h3, h4⟩ := runBa
  refine ⟨t, h1, h2, h3, ?_⟩
  rw [all_eq, h4]
  decide

example : LibOk isType (lib isType) := lib_ok _

/-- A type in a file without package is not found, although its name begins with the text. -/
theorem C83_no_package_violated :
    ∃ (c : Cache) (typed : Str) (n : Nat) (t : State) (f : File) (d : Decl),
      Steps c (completionQuery typed) 2 (lib isType) n (State.init c) t ∧ t.returned = true ∧
      t.cancelled = false ∧ f ∈ c.files ∧ d ∈ f.decls ∧ d.kind = .message false false ∧
      typed <+: d.fullName ∧ d ∉ t.found.all := by
  obtain ⟨t, h1, h2, h3, h4⟩ := runBa
  refine ⟨ws, ['B', 'a'], 6, t, fileN, ⟨['B', 'a', 't'], .message false false, ['n', '.', 'p']⟩, h1, h2, h3,
    by decide, by decide, rfl, by decide, ?_⟩
  rw [all_eq, h4]
  decide

/-- A type that begins with the text after a leading dot is not found if the text goes beyond the
package: with `.p.Ba` typed, `p.Bar` is not among the candidates. -/
theorem C83_leading_dot_violated :
    ∃ (c : Cache) (rest : Str) (n : Nat) (t : State) (f : File) (d : Decl),
      Steps c (completionQuery ('.' :: rest)) 2 (lib isType) n (State.init c) t ∧
      t.returned = true ∧ t.cancelled = false ∧ f ∈ c.files ∧ d ∈ f.decls ∧
      d.kind = .message false false ∧ f.pkg ≠ [] ∧ rest <+: d.fullName ∧ t.found.all = [] := by
  have s1 := Step.skipFile (c := ⟨[fileP], fun _ => none⟩) (q := completionQuery ['.', 'p', '.', 'B', 'a'])
    (limit := 2) (search := lib isType) (State.init ⟨[fileP], fun _ => none⟩) fileP fileP rfl rfl
    (by decide)
  exact ⟨⟨[fileP], fun _ => none⟩, ['p', '.', 'B', 'a'], 2, _, fileP,
    ⟨['p', '.', 'B', 'a', 'r'], .message false false, ['p', '.', 'p']⟩,
    .step (.step (.refl _) s1) (.wait _ rfl (by decide) rfl), rfl, rfl, by decide, by decide, rfl,
    by decide, by decide, by decide⟩

end Verif.FindTypes
