import Verif.Model.SearchDirs
/-!
# Properties of the workspace scan: C40
-/
namespace Verif.SearchDirs

/-- Specification: a directory with the marker file. -/
def Marked (entries : List Node) : Prop := Node.file "DO_NOT_BUILD_HERE".toList ∈ entries

/-- Specification: the path (from the root of the tree) of a proto file that does not lie in an
excluded directory; `ignoreMarkers` ignores the markers. -/
inductive Eligible (ignoreMarkers : Bool) : Node → List Str → Prop where
  | file (name : Str) : ".proto".toList <:+ name → Eligible ignoreMarkers (.file name) [name]
  | dir (name : Str) (entries : List Node) (n : Node) (p : List Str) :
      name ≠ "node_modules".toList → name ≠ "vendor".toList → ¬ "_bazel_".toList <+: name →
      (ignoreMarkers = true ∨ ¬ Marked entries) → n ∈ entries → Eligible ignoreMarkers n p →
      Eligible ignoreMarkers (.dir name entries) (name :: p)

/-- Specification: in every directory with a marker, the marker is the first entry. -/
inductive MarkersFirst : Node → Prop where
  | file (name : Str) : MarkersFirst (.file name)
  | dir (name : Str) (entries : List Node) : (∀ n ∈ entries, MarkersFirst n) →
      (Marked entries → ∃ rest, entries = .file "DO_NOT_BUILD_HERE".toList :: rest) → MarkersFirst (.dir name entries)

/-- Specification: the entries of every directory have different names. -/
inductive Distinct : Node → Prop where
  | file (name : Str) : Distinct (.file name)
  | dir (name : Str) (entries : List Node) : (∀ n ∈ entries, Distinct n) →
      (entries.map Node.name).Nodup → Distinct (.dir name entries)

theorem skipped_iff (name : Str) :
    skipped name = true ↔ name = nodeModules ∨ name = vendor ∨ bazelPrefix <+: name := by
  unfold skipped
  rw [Bool.or_eq_true, Bool.or_eq_true, decide_eq_true_eq, decide_eq_true_eq, List.isPrefixOf_iff_prefix, or_assoc]

theorem isProto_iff (name : Str) : isProto name = true ↔ protoSuffix <:+ name := by
  unfold isProto
  rw [List.isSuffixOf_iff_suffix]

theorem marker_not_proto : isProto marker = false := by decide

theorem walk_skip_iff (path : List Str) (n : Node) : (walk path n).2 = true ↔ n = .file marker := by
  cases n with
  | file name =>
    unfold walk
    split
    · rename_i h
      constructor
      · intro h'; cases h'
      · intro h'
        cases h'
        rw [marker_not_proto] at h
        cases h
    · split
      · rename_i h; subst h; simp
      · rename_i h; simp [h]
  | dir name entries =>
    unfold walk
    split <;> simp

theorem mem_walkAll (path : List Str) (ns : List Node) (q : List Str) :
    q ∈ walkAll path ns ↔ ∃ a n b, ns = a ++ n :: b ∧ Node.file marker ∉ a ∧ q ∈ (walk path n).1 := by
  induction ns with
  | nil => simp [walkAll]
  | cons n ns ih =>
    unfold walkAll
    by_cases h : (walk path n).2 = true
    · rw [if_pos h]
      have hm := (walk_skip_iff path n).1 h
      constructor
      · intro hq
        exact ⟨[], n, ns, rfl, by simp, hq⟩
      · rintro ⟨a, m, b, he, ha, hq⟩
        match a, he with
        | [], he =>
          obtain ⟨rfl, _⟩ := List.cons.inj he
          exact hq
        | x :: a, he =>
          obtain ⟨hx, _⟩ := List.cons.inj he
          exact absurd (hx ▸ hm ▸ List.mem_cons_self) ha
    · rw [if_neg h, List.mem_append, ih]
      have hm : n ≠ .file marker := fun hn => h ((walk_skip_iff path n).2 hn)
      constructor
      · rintro (hq | ⟨a, m, b, rfl, ha, hq⟩)
        · exact ⟨[], n, ns, rfl, by simp, hq⟩
        · refine ⟨n :: a, m, b, rfl, ?_, hq⟩
          intro hmem
          rcases List.mem_cons.1 hmem with hmem | hmem
          · exact hm hmem.symm
          · exact ha hmem
      · rintro ⟨a, m, b, he, ha, hq⟩
        match a, he with
        | [], he =>
          obtain ⟨rfl, _⟩ := List.cons.inj he
          exact .inl hq
        | x :: a, he =>
          obtain ⟨_, he⟩ := List.cons.inj he
          exact .inr ⟨a, m, b, he, fun hmem => ha (List.mem_cons_of_mem _ hmem), hq⟩

theorem mem_walk_file (path : List Str) (name : Str) (q : List Str) :
    q ∈ (walk path (.file name)).1 ↔ protoSuffix <:+ name ∧ q = path ++ [name] := by
  unfold walk
  rw [← isProto_iff]
  split
  · rename_i h; simp [h]
  · rename_i h
    split <;> simp [h]

theorem mem_walk_dir (path : List Str) (name : Str) (entries : List Node) (q : List Str) :
    q ∈ (walk path (.dir name entries)).1 ↔
      (name ≠ nodeModules ∧ name ≠ vendor ∧ ¬ bazelPrefix <+: name) ∧ q ∈ walkAll (path ++ [name]) entries := by
  unfold walk
  have := skipped_iff name
  by_cases h : skipped name = true
  · rw [if_pos h]
    have h' := this.1 h
    constructor
    · intro hq; cases hq
    · rintro ⟨⟨h1, h2, h3⟩, _⟩
      rcases h' with h' | h' | h'
      · exact absurd h' h1
      · exact absurd h' h2
      · exact absurd h' h3
  · rw [if_neg h]
    constructor
    · intro hq
      exact ⟨⟨fun h1 => h (this.2 (.inl h1)), fun h1 => h (this.2 (.inr (.inl h1))),
        fun h1 => h (this.2 (.inr (.inr h1)))⟩, hq⟩
    · exact fun hq => hq.2

theorem walk_complete (t : Node) (p : List Str) (h : Eligible false t p) :
    ∀ path, path ++ p ∈ (walk path t).1 := by
  induction h with
  | file name hp => intro path; rw [mem_walk_file]; exact ⟨hp, rfl⟩
  | dir name entries n p h1 h2 h3 h4 h5 h6 ih =>
    intro path
    rw [mem_walk_dir]
    refine ⟨⟨h1, h2, h3⟩, ?_⟩
    rw [mem_walkAll]
    obtain ⟨a, b, rfl⟩ := List.append_of_mem h5
    refine ⟨a, n, b, rfl, ?_, ?_⟩
    · intro hm
      rcases h4 with h4 | h4
      · cases h4
      · exact h4 (List.mem_append_left _ hm)
    · have := ih (path ++ [name])
      simpa using this

/-- **C40** (part): every eligible file is found. -/
theorem C40_complete (dirs : List (List Str × Node)) (d : List Str × Node) (hd : d ∈ dirs) (p : List Str)
    (h : Eligible false d.2 p) : d.1 ++ p ∈ searchDirs dirs :=
  List.mem_flatMap.2 ⟨d, hd, walk_complete d.2 p h d.1⟩

theorem walk_sound (im : Bool) (k : Nat) : ∀ (t : Node), sizeOf t ≤ k →
    (im = true ∨ MarkersFirst t) → ∀ path q, q ∈ (walk path t).1 → ∃ p, q = path ++ p ∧ Eligible im t p := by
  induction k with
  | zero =>
    intro t ht
    cases t <;> simp at ht
  | succ k ih =>
    intro t ht hf path q hq
    cases t with
    | file name =>
      rw [mem_walk_file] at hq
      exact ⟨[name], hq.2, .file name hq.1⟩
    | dir name entries =>
      rw [mem_walk_dir] at hq
      obtain ⟨⟨h1, h2, h3⟩, hq⟩ := hq
      rw [mem_walkAll] at hq
      obtain ⟨a, n, b, he, ha, hq⟩ := hq
      have hn : n ∈ entries := by rw [he]; simp
      have hsz : sizeOf n < sizeOf entries := List.sizeOf_lt_of_mem hn
      have hf' : im = true ∨ MarkersFirst n := by
        rcases hf with hf | hf
        · exact .inl hf
        · cases hf with
          | dir _ _ hall _ => exact .inr (hall n hn)
      obtain ⟨p, hp1, hp2⟩ := ih n (by simp only [Node.dir.sizeOf_spec] at ht; omega) hf' _ q hq
      refine ⟨name :: p, by rw [hp1]; simp, .dir name entries n p h1 h2 h3 ?_ hn hp2⟩
      rcases hf with hf | hf
      · exact .inl hf
      · right
        intro hm
        cases hf with
        | dir _ _ _ hfirst =>
          obtain ⟨rest, hr⟩ := hfirst hm
          -- the marker is the first entry, so the file was found in the marker itself
          match a, he with
          | [], he =>
            rw [hr] at he
            have hmn := (List.cons.inj he).1
            subst hmn
            rw [mem_walk_file] at hq
            rw [← isProto_iff] at hq
            exact absurd (hq.1.symm.trans marker_not_proto) (by decide)
          | x :: a, he =>
            rw [hr] at he
            have hx := (List.cons.inj he).1
            exact ha (hx ▸ List.mem_cons_self)

/-- **C40** (part): only proto files outside of the directories excluded by name are found. -/
theorem C40_sound (dirs : List (List Str × Node)) (q : List Str) (h : q ∈ searchDirs dirs) :
    ∃ d ∈ dirs, ∃ p, q = d.1 ++ p ∧ Eligible true d.2 p := by
  obtain ⟨d, hd, hq⟩ := List.mem_flatMap.1 h
  obtain ⟨p, hp⟩ := walk_sound true (sizeOf d.2) d.2 (Nat.le_refl _) (.inl rfl) d.1 q hq
  exact ⟨d, hd, p, hp⟩

/-- **C40** (partial): if in every directory with a marker the marker is the first entry, exactly the
eligible files are found. Missing: directories with entries that sort before the marker, for which the
property fails (`C40_marker_violated`). -/
theorem C40_exact_partial (dirs : List (List Str × Node)) (hf : ∀ d ∈ dirs, MarkersFirst d.2) (q : List Str) :
    q ∈ searchDirs dirs ↔ ∃ d ∈ dirs, ∃ p, q = d.1 ++ p ∧ Eligible false d.2 p := by
  constructor
  · intro h
    obtain ⟨d, hd, hq⟩ := List.mem_flatMap.1 h
    obtain ⟨p, hp⟩ := walk_sound false (sizeOf d.2) d.2 (Nat.le_refl _) (.inr (hf d hd)) d.1 q hq
    exact ⟨d, hd, p, hp⟩
  · rintro ⟨d, hd, p, rfl, hp⟩
    exact C40_complete dirs d hd p hp

theorem walk_name (t : Node) (path q : List Str) (h : q ∈ (walk path t).1) : ∃ r, q = path ++ t.name :: r := by
  obtain ⟨p, rfl, hp⟩ := walk_sound true (sizeOf t) t (Nat.le_refl _) (.inl rfl) path q h
  cases hp with
  | file name _ => exact ⟨[], rfl⟩
  | dir name _ _ p => exact ⟨p, rfl⟩

theorem walk_nodup (k : Nat) : ∀ (t : Node), sizeOf t ≤ k → Distinct t → ∀ path, (walk path t).1.Nodup := by
  induction k with
  | zero =>
    intro t ht
    cases t <;> simp at ht
  | succ k ih =>
    intro t ht hd path
    cases t with
    | file name =>
      unfold walk
      split
      · simp
      · split <;> simp
    | dir name entries =>
      unfold walk
      split
      · simp
      · simp only
        cases hd with
        | dir _ _ hall hnd =>
          have hsz : sizeOf entries ≤ k := by simp only [Node.dir.sizeOf_spec] at ht; omega
          generalize path ++ [name] = path'
          clear ht
          induction entries with
          | nil => simp [walkAll]
          | cons n ns ih2 =>
            simp only [List.cons.sizeOf_spec] at hsz
            have h1 : (walk path' n).1.Nodup := ih n (by omega) (hall n List.mem_cons_self) path'
            rw [List.map_cons, List.nodup_cons] at hnd
            have h2 := ih2 (fun m hm => hall m (List.mem_cons_of_mem _ hm)) hnd.2 (by omega)
            unfold walkAll
            split
            · exact h1
            · rw [List.nodup_append]
              refine ⟨h1, h2, ?_⟩
              intro x hx y hy hxy
              subst hxy
              obtain ⟨r, hr⟩ := walk_name n path' x hx
              rw [mem_walkAll] at hy
              obtain ⟨a, m, b, hns, _, hm⟩ := hy
              obtain ⟨r', hr'⟩ := walk_name m path' x hm
              rw [hr] at hr'
              have hmm := (List.cons.inj (List.append_cancel_left hr')).1
              refine hnd.1 ?_
              rw [hmm]
              exact List.mem_map.2 ⟨m, by rw [hns]; simp, rfl⟩

/-- **C40** (part): in one directory tree every file is found once. -/
theorem C40_once (path : List Str) (t : Node) (h : Distinct t) : (searchDirs [(path, t)]).Nodup := by
  unfold searchDirs
  rw [List.flatMap_cons, List.flatMap_nil, List.append_nil]
  exact walk_nodup (sizeOf t) t (Nat.le_refl _) h path

/-- A directory that is marked, and an excluded one. -/
def sampleTree : Node :=
  .dir ['r'] [.dir ['b'] [.file marker, .file "x.proto".toList], .file "c.proto".toList,
    .dir vendor [.file "v.proto".toList]]

example : searchDirs [([], sampleTree)] = [[['r'], "c.proto".toList]] := by
  simp only [searchDirs, sampleTree, List.flatMap_cons, List.flatMap_nil, walk, walkAll]
  decide

example : MarkersFirst sampleTree ∧ Distinct sampleTree := by
  refine ⟨?_, ?_⟩
  · refine .dir _ _ ?_ ?_
    · intro n hn
      simp only [List.mem_cons, List.not_mem_nil, or_false] at hn
      rcases hn with rfl | rfl | rfl
      · refine .dir _ _ ?_ (fun _ => ⟨_, rfl⟩)
        intro n hn
        simp only [List.mem_cons, List.not_mem_nil, or_false] at hn
        rcases hn with rfl | rfl
        · exact .file _
        · exact .file _
      · exact .file _
      · refine .dir _ _ ?_ ?_
        · intro n hn
          simp only [List.mem_cons, List.not_mem_nil, or_false] at hn
          rw [hn]
          exact .file _
        · intro hm
          exfalso
          simp only [Marked, List.mem_cons, List.not_mem_nil, or_false] at hm
          exact absurd (Node.file.inj hm) (by decide)
    · intro hm
      exfalso
      simp only [Marked, List.mem_cons, List.not_mem_nil, or_false] at hm
      rcases hm with hm | hm | hm
      · cases hm
      · exact absurd (Node.file.inj hm) (by decide)
      · cases hm
  · refine .dir _ _ ?_ ?_
    · intro n hn
      simp only [List.mem_cons, List.not_mem_nil, or_false] at hn
      rcases hn with rfl | rfl | rfl
      · refine .dir _ _ ?_ ?_
        · intro n hn
          simp only [List.mem_cons, List.not_mem_nil, or_false] at hn
          rcases hn with rfl | rfl
          · exact .file _
          · exact .file _
        · simp only [List.map_cons, List.map_nil, Node.name]; decide
      · exact .file _
      · refine .dir _ _ ?_ ?_
        · intro n hn
          simp only [List.mem_cons, List.not_mem_nil, or_false] at hn
          rw [hn]
          exact .file _
        · simp [Node.name]
    · simp only [List.map_cons, List.map_nil, Node.name]; decide

/-- The code violates C40: a file that sorts before the marker is found although its directory is
marked. -/
theorem C40_marker_violated :
    searchDirs [([], .dir ['b'] [.file "A.proto".toList, .file "DO_NOT_BUILD_HERE".toList])] = [[['b'], "A.proto".toList]] ∧
    ¬ Eligible false (.dir ['b'] [.file "A.proto".toList, .file "DO_NOT_BUILD_HERE".toList]) [['b'], "A.proto".toList] := by
  constructor
  · simp only [searchDirs, List.flatMap_cons, List.flatMap_nil, walk, walkAll]
    decide
  · intro h
    cases h with
    | dir _ _ _ _ _ _ _ hm =>
      rcases hm with hm | hm
      · cases hm
      · exact hm (.tail _ (.head _))

/-- The code violates C40: with overlapping directories a file is returned twice. -/
theorem C40_twice_violated :
    searchDirs [([], .dir ['b'] [.file "a.proto".toList]), ([], .dir ['b'] [.file "a.proto".toList])]
      = [[['b'], "a.proto".toList], [['b'], "a.proto".toList]] := by
  simp only [searchDirs, List.flatMap_cons, List.flatMap_nil, walk, walkAll]
  decide

end Verif.SearchDirs
