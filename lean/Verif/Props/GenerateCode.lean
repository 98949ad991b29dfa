import Verif.Lemmas.GenerateCode
/-!
# C86: which files are generated by `GenerateCode`, and where they go
-/
namespace Verif.GenerateCode

open Verif.Assoc Verif.GoPath Verif.FindFile

/-- **C86** (selection): code is generated for a document of the workspace exactly if it is below one of the search directories,
or below a sibling of one whose name begins with the name of the search directory. (Partial: the second case is a mistake, see
`C86_sibling_violated`; absolute search directories must be clean, see `C86_slash_violated`.) -/
theorem C86_selected_partial (wd : Str) (hwd : wd.head? = some '/') (dirs : List Str)
    (hc : ∀ s ∈ dirs, s.head? = some '/' → s = pathOf (place s)) (ds : List Desc) (h : Sane ds)
    (hl : ∀ d ∈ ds, d.local_ = true → d.file.isSome) (p : Str) :
    p ∈ selected .localOnly (absolute wd dirs) ds ↔
      ∃ d ∈ ds, d.path = p ∧ d.local_ = true ∧ ∃ f, d.file = some f ∧ ∃ s ∈ dirs, Below wd f s ∨ Sibling (root wd s) (home f) := by
  have key : ∀ d ∈ ds, ∀ f, d.file = some f →
      (((absolute wd dirs).any fun s => s.isPrefixOf ((get (pkgDirs ds) (dirOf d.path)).getD [])) = true ↔
        ∃ s ∈ dirs, Below wd f s ∨ Sibling (root wd s) (home f)) := by
    intro d hd f hf
    obtain ⟨k, x, hk⟩ := h.path d hd
    rw [(in_parts hk).1, pkgDirs_get h hd hf hk, absolute_root wd hwd dirs hc]
    simp only [List.any_map, List.any_eq_true, Function.comp, Option.getD_some, List.isPrefixOf_iff_prefix]
    constructor
    · rintro ⟨s, hs, hp⟩
      exact ⟨s, hs, (path_prefix _ _ (root_names wd s) (home_names f)).1 hp⟩
    · rintro ⟨s, hs, hp⟩
      exact ⟨s, hs, (path_prefix _ _ (root_names wd s) (home_names f)).2 hp⟩
  unfold selected
  simp only [List.mem_map, List.mem_filter]
  constructor
  · rintro ⟨d, ⟨⟨hd, hloc⟩, hany⟩, rfl⟩
    obtain ⟨f, hf⟩ := Option.isSome_iff_exists.1 (hl d hd hloc)
    exact ⟨d, hd, rfl, hloc, f, hf, (key d hd f hf).1 hany⟩
  · rintro ⟨d, hd, rfl, hloc, f, hf, hb⟩
    exact ⟨d, ⟨⟨hd, hloc⟩, (key d hd f hf).2 hb⟩, rfl⟩

/-- **C86** (selection of everything): with the other strategy code is generated for every descriptor except those of
`google.protobuf`. -/
theorem C86_all (dirs : List Str) (ds : List Desc) (p : Str) :
    p ∈ selected .allButGoogle dirs ds ↔ ∃ d ∈ ds, d.path = p ∧ d.package ≠
      ['g', 'o', 'o', 'g', 'l', 'e', '.', 'p', 'r', 'o', 't', 'o', 'b', 'u', 'f'] := by
  have hg : googleProtobuf = ['g', 'o', 'o', 'g', 'l', 'e', '.', 'p', 'r', 'o', 't', 'o', 'b', 'u', 'f'] := by decide +kernel
  rw [← hg]
  unfold selected
  simp only [List.mem_map, List.mem_filter, Bool.not_eq_true', decide_eq_false_iff_not]
  constructor
  · rintro ⟨d, ⟨h1, h2⟩, rfl⟩; exact ⟨d, h1, rfl, h2⟩
  · rintro ⟨d, h1, rfl, h2⟩; exact ⟨d, ⟨h1, h2⟩, rfl⟩

/-- **C86** (places): a generated file in the directory of the import path of a document is to be written into the directory
of the document. (Partial: nothing is said about files in other directories, such as a `go_package` that differs from the import
path, see `C86_go_package_violated`.) -/
theorem C86_place_partial (ds : List Desc) (h : Sane ds) (d : Desc) (hd : d ∈ ds) (f k x b name content : Str) (hf : d.file = some f)
    (hk : In k x d.path) (hn : In k b name) (hk0 : k ≠ ['.']) :
    (output (pkgDirs ds) (name, content)).path = pathOf (home f ++ [b]) ∧
    (output (pkgDirs ds) (name, content)).name = b ∧ (output (pkgDirs ds) (name, content)).package = k := by
  obtain ⟨hb, ⟨hkn, rfl⟩ | ⟨h0, -⟩⟩ := hn
  · unfold output
    simp only []
    rw [split_some _ _ hb.2]
    simp only [List.getLast?_concat, if_true, List.dropLast_concat]
    rw [pkgDirs_get h hd hf hk]
    simp only []
    exact ⟨join_pathOf_name _ (home_names f) _ hb, trivial, trivial⟩
  · exact absurd h0 hk0

/-- **C86** (other places): a generated file in a directory that is not the directory of the import path of any document keeps
its name as a path relative to the working directory; in a directory with `google/` in its name only what begins there. -/
theorem C86_elsewhere (ds : List Desc) (k b content : Str) (hk : Names k) (hb : Name b)
    (hno : ∀ d ∈ ds, ∀ f, d.file = some f → dirOf d.path ≠ k) :
    ((∀ pre post, k ≠ pre ++ google ++ post) → (output (pkgDirs ds) (k ++ '/' :: b, content)).path = k ++ '/' :: b) ∧
    ∀ pre post, k = pre ++ google ++ post → (∀ pre' post', k = pre' ++ google ++ post' → pre.length ≤ pre'.length) →
      (output (pkgDirs ds) (k ++ '/' :: b, content)).path = google ++ post ++ '/' :: b := by
  have hget : get (pkgDirs ds) k = none := by
    cases hg : get (pkgDirs ds) k with
    | none => rfl
    | some x =>
      obtain ⟨d, hd, f, hf, h1, -⟩ := (pkgDirs_good ds).1 _ (get_mem hg)
      exact absurd h1.symm (hno d hd f hf)
  unfold output
  simp only []
  rw [split_some _ _ hb.2]
  simp only [List.getLast?_concat, if_true, List.dropLast_concat]
  rw [hget]
  simp only []
  constructor
  · intro h
    cases hi : indexSub google k with
    | some i =>
      obtain ⟨c, h1, -⟩ := indexSub_infix _ _ _ hi
      exact absurd h1 (h _ _)
    | none => exact join_names k b hk hb
  · intro pre post e hmin
    cases hi : indexSub google k with
    | none => exact absurd e (indexSub_none hi _ _)
    | some i =>
      obtain ⟨c, h1, h2⟩ := indexSub_infix _ _ _ hi
      have h3 := indexSub_first hi pre post e
      have h4 := hmin _ _ h1
      rw [List.length_take] at h4
      have h5 : i = pre.length := by omega
      have h6 : k.drop i = google ++ post := by
        rw [h5, e, List.append_assoc, List.drop_left]
      simp only []
      rw [h6]
      refine join_names _ _ ?_ hb
      intro part hp
      have eg : google = ['g', 'o', 'o', 'g', 'l', 'e'] ++ '/' :: [] := by decide
      rw [eg, show (['g', 'o', 'o', 'g', 'l', 'e'] ++ ['/']) ++ post = ['g', 'o', 'o', 'g', 'l', 'e'] ++ '/' :: post by simp,
        splitOn_append, splitOn_of_no_sep _ _ (by decide)] at hp
      rcases List.mem_append.1 hp with hp | hp
      · simp only [List.mem_singleton] at hp
        rw [hp]
        exact ⟨by decide, by decide, by decide⟩
      · refine hk part ?_
        rw [e, eg, show pre ++ (['g', 'o', 'o', 'g', 'l', 'e'] ++ ['/']) ++ post = (pre ++ ['g', 'o', 'o', 'g', 'l', 'e']) ++ '/' :: post by simp,
          splitOn_append]
        exact List.mem_append.2 (.inr hp)

/-- **C86** (all or nothing): the result is an error, or has the contents of all generated files in their order. -/
theorem C86_contents (wd : Str) (compile : List Str → Option (List Desc)) (gen : List Str → Option (List (Str × Str)))
    (strategy : Strategy) (dirs : List Str) (outs : List Output) (h : (run wd compile gen strategy dirs).2 = some outs) :
    ∃ ds files, compile (absolute wd dirs) = some ds ∧ gen (selected strategy (absolute wd dirs) ds) = some files ∧
      outs.map (·.content) = files.map (·.2) := by
  unfold run at h
  simp only [] at h
  cases hc : compile (absolute wd dirs) with
  | none => rw [hc] at h; simp at h
  | some ds =>
    rw [hc] at h
    simp only [] at h
    cases hg : gen (selected strategy (absolute wd dirs) ds) with
    | none => rw [hg] at h; simp at h
    | some files =>
      rw [hg] at h
      simp only [Option.some.injEq] at h
      subst h
      refine ⟨ds, files, rfl, hg, ?_⟩
      rw [List.map_map]
      exact List.map_congr_left fun e _ => rfl

/-- **C86** (arguments): the list of search directories that the caller passed is unchanged exactly if all of them are
absolute. (Partial: see `C86_arguments_violated`.) -/
theorem C86_arguments_partial (wd : Str) (hwd : wd.head? = some '/') (compile : List Str → Option (List Desc))
    (gen : List Str → Option (List (Str × Str))) (strategy : Strategy) (dirs : List Str) :
    (run wd compile gen strategy dirs).1 = dirs ↔ ∀ s ∈ dirs, s.head? = some '/' := by
  change absolute wd dirs = dirs ↔ _
  induction dirs with
  | nil => simp [absolute]
  | cons s rest ih =>
    simp only [absolute, List.map_cons, List.cons.injEq, List.mem_cons, forall_eq_or_imp] at ih ⊢
    rw [ih]
    constructor
    · rintro ⟨h1, h2⟩
      refine ⟨?_, h2⟩
      by_cases hs : s.head? = some '/'
      · exact hs
      · rw [if_neg hs, join_wd wd s hwd] at h1
        rw [← h1]
        rfl
    · rintro ⟨h1, h2⟩
      exact ⟨if_pos h1, h2⟩

/-- **C86** (Go packages): with `WithFixInvalidGoPackages` an option that is only a name becomes the directory of the file, which
is a valid import path if it has more than one part or a dot; other options are unchanged. (Partial: see `C86_fix_violated`.) -/
theorem C86_fix_partial (k x name g : Str) (hn : In k x name) (hk : '/' ∈ k ∨ '.' ∈ k) :
    (('.' ∈ g ∨ '/' ∈ g ∨ g = []) → fixGoPackage name g = g) ∧
    (g ≠ [] → '.' ∉ g → '/' ∉ g → fixGoPackage name g = k) ∧
    (g ≠ [] → '.' ∈ fixGoPackage name g ∨ '/' ∈ fixGoPackage name g) := by
  have hd := (in_parts hn).1
  refine ⟨?_, ?_, ?_⟩
  · intro h
    unfold fixGoPackage
    rw [if_neg]
    rintro ⟨h1, h2, h3⟩
    rcases h with h | h | h
    · exact h2 h
    · exact h3 h
    · exact h1 h
  · intro h1 h2 h3
    unfold fixGoPackage
    rw [if_pos ⟨h1, h2, h3⟩, hd]
  · intro h1
    unfold fixGoPackage
    split
    · rw [hd]; exact hk.symm
    · rename_i hn
      by_cases h2 : '.' ∈ g
      · exact .inl h2
      · by_cases h3 : '/' ∈ g
        · exact .inr h3
        · exact absurd ⟨h1, h2, h3⟩ hn

/-! ## Witnesses -/

/-- `/w/ab/x` and `/w/a/y`, both local. -/
def demo : List Desc :=
  [⟨['m', '/', 'a', 'b', '/', 'x'], some ['/', 'w', '/', 'a', 'b', '/', 'x'], ['p'], true⟩,
   ⟨['m', '/', 'a', '/', 'y'], some ['/', 'w', '/', 'a', '/', 'y'], ['p'], true⟩,
   ⟨['g', '/', 'z'], none, googleProtobuf, false⟩]

/-- Code is generated for `/w/ab/x` although only `a` is searched. -/
theorem C86_sibling_violated :
    ['m', '/', 'a', 'b', '/', 'x'] ∈ selected .localOnly (absolute ['/', 'w'] [['a']]) demo ∧
    ¬ Below ['/', 'w'] ['/', 'w', '/', 'a', 'b', '/', 'x'] ['a'] := by
  constructor
  · decide +kernel
  · have h1 : root ['/', 'w'] ['a'] = [['w'], ['a']] := by decide +kernel
    have h2 : home ['/', 'w', '/', 'a', 'b', '/', 'x'] = [['w'], ['a', 'b']] := by decide +kernel
    unfold Below
    rw [h1, h2]
    decide

/-- Nothing is generated for `/w/a/y` when the search directory is `/w/a/`. -/
theorem C86_slash_violated :
    selected .localOnly (absolute ['/', 'w'] [['/', 'w', '/', 'a', '/']]) demo = [] ∧
    Below ['/', 'w'] ['/', 'w', '/', 'a', '/', 'y'] ['/', 'w', '/', 'a', '/'] := by
  constructor
  · decide +kernel
  · have h1 : root ['/', 'w'] ['/', 'w', '/', 'a', '/'] = [['w'], ['a']] := by decide +kernel
    have h2 : home ['/', 'w', '/', 'a', '/', 'y'] = [['w'], ['a']] := by decide +kernel
    unfold Below
    rw [h1, h2]
    exact List.prefix_refl _

/-- A file that is generated into another Go package than the import path is to be written to a path relative to the working
directory, although the documentation promises the directory of its source. -/
theorem C86_go_package_violated :
    (output (pkgDirs demo) (['m', '/', 'p', '/', 'y', '.', 'g'], ['c'])).path = ['m', '/', 'p', '/', 'y', '.', 'g'] := by
  decide +kernel

/-- The slice of the caller is changed. -/
theorem C86_arguments_violated :
    (run ['/', 'w'] (fun _ => some demo) (fun _ => some []) .localOnly [['a']]).1 = [['/', 'w', '/', 'a']] := by
  decide +kernel

/-- A Go package that is only a name stays one if the directory of the file is only a name. -/
theorem C86_fix_violated : fixGoPackage ['f', '/', 'x'] ['f'] = ['f'] := by decide +kernel

/-- The documents of the example satisfy the hypotheses. -/
example : Sane demo := by
  have hx : In ['m', '/', 'a', 'b'] ['x'] ['m', '/', 'a', 'b', '/', 'x'] := by
    refine ⟨⟨⟨by simp, by simp, by simp⟩, by decide⟩, .inl ⟨?_, rfl⟩⟩
    have e : splitOn '/' ['m', '/', 'a', 'b'] = [['m'], ['a', 'b']] := by decide
    intro part hp
    rw [e] at hp
    simp only [List.mem_cons, List.not_mem_nil, or_false] at hp
    rcases hp with rfl | rfl <;> exact ⟨by simp, by simp, by simp⟩
  have hy : In ['m', '/', 'a'] ['y'] ['m', '/', 'a', '/', 'y'] := by
    refine ⟨⟨⟨by simp, by simp, by simp⟩, by decide⟩, .inl ⟨?_, rfl⟩⟩
    have e : splitOn '/' ['m', '/', 'a'] = [['m'], ['a']] := by decide
    intro part hp
    rw [e] at hp
    simp only [List.mem_cons, List.not_mem_nil, or_false] at hp
    rcases hp with rfl | rfl <;> exact ⟨by simp, by simp, by simp⟩
  have hz : In ['g'] ['z'] ['g', '/', 'z'] := by
    refine ⟨⟨⟨by simp, by simp, by simp⟩, by decide⟩, .inl ⟨?_, rfl⟩⟩
    have e : splitOn '/' ['g'] = [['g']] := by decide
    intro part hp
    rw [e] at hp
    simp only [List.mem_cons, List.not_mem_nil, or_false] at hp
    subst hp; exact ⟨by simp, by simp, by simp⟩
  refine ⟨?_, ?_, ?_⟩
  · intro d hd f hf
    simp only [demo, List.mem_cons, List.not_mem_nil, or_false] at hd
    rcases hd with rfl | rfl | rfl
    · cases hf
      exact ⟨rfl, ['/', 'w', '/', 'a', 'b'], ['x'], rfl, ⟨by simp, by simp, by simp⟩, by decide⟩
    · cases hf
      exact ⟨rfl, ['/', 'w', '/', 'a'], ['y'], rfl, ⟨by simp, by simp, by simp⟩, by decide⟩
    · cases hf
  · intro d hd
    simp only [demo, List.mem_cons, List.not_mem_nil, or_false] at hd
    rcases hd with rfl | rfl | rfl
    · exact ⟨_, _, hx⟩
    · exact ⟨_, _, hy⟩
    · exact ⟨_, _, hz⟩
  · intro d hd e he f g k x y hf hg h1 h2
    have k1 := (in_parts h1).1
    have k2 := (in_parts h2).1
    simp only [demo, List.mem_cons, List.not_mem_nil, or_false] at hd he
    rcases hd with rfl | rfl | rfl
    · cases hf
      rcases he with rfl | rfl | rfl
      · cases hg; rfl
      · have a := (in_parts hx).1
        have b := (in_parts hy).1
        simp only [] at k1 k2
        rw [a] at k1; rw [b] at k2
        rw [← k2] at k1
        simp at k1
      · cases hg
    · cases hf
      rcases he with rfl | rfl | rfl
      · have a := (in_parts hx).1
        have b := (in_parts hy).1
        simp only [] at k1 k2
        rw [b] at k1; rw [a] at k2
        rw [← k2] at k1
        simp at k1
      · cases hg; rfl
      · cases hg
    · cases hf

/-- `C86_elsewhere`: a file of the well-known types. -/
example : (output (pkgDirs []) (['x', '/', 'g', 'o', 'o', 'g', 'l', 'e', '/', 'y'] ++ '/' :: ['z'], [])).path =
    google ++ ['y'] ++ '/' :: ['z'] := by
  refine (C86_elsewhere [] _ ['z'] [] (by unfold Names FindFile.plain; decide +kernel) ⟨⟨by simp, by simp, by simp⟩, by simp⟩ (by simp)).2
    ['x', '/'] ['y'] (by decide) ?_
  intro pre' post' h
  have eg : google = ['g', 'o', 'o', 'g', 'l', 'e', '/'] := by decide
  rw [eg] at h
  match pre', h with
  | [], h => exact absurd h (by simp)
  | [a], h => exact absurd h (by simp)
  | _ :: _ :: _, _ => simp

end Verif.GenerateCode
