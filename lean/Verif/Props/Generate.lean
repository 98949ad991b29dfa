import Verif.Lemmas.Generate
/-!
# C85: where generated files are written
-/
namespace Verif.Generate

open Verif.Assoc Verif.GoPath Verif.FindFile

variable {Uri : Type}

/-- **C85** (confinement): whatever the generators answer and whatever fails, every file that is changed, created, or left as a
backup is in the directory of a requested document that has a package and no pragma `nogen`. -/
theorem C85_confined (w : World Uri) (gen : List Uri → Option (List (Str × Str))) (calls : Nat → Call) (uris : List Uri)
    (d : Disk) (ha : Absolute w uris) (hd : DirsExist w uris d) :
    (∀ p, (run w gen calls uris d).1.at_ p ≠ d.at_ p → Beside w uris p) ∧
    ∀ e ∈ (run w gen calls uris d).1.backups, e ∈ d.backups ∨ Beside w uris e.1 := by
  have h0 : Confined w uris d d := ⟨fun p h => absurd rfl h, fun e he => .inl he⟩
  unfold run
  split
  · exact h0
  · rename_i roots dirs hc
    split
    · exact h0
    · exact writeAll_confined ha (collect_good hc).1 calls d _ _ _ _ h0 hd

/-- **C85** (targets): code is generated for exactly the requested documents that have a package and no pragma `nogen`: what
the generators would answer for other lists of documents does not matter. -/
theorem C85_targets (w : World Uri) (gen gen' : List Uri → Option (List (Str × Str))) (calls : Nat → Call) (uris : List Uri)
    (d : Disk)
    (h : ∀ l : List Uri, l.Sublist uris → (∀ u, u ∈ l ↔ Target w uris u) → gen l = gen' l) :
    run w gen calls uris d = run w gen' calls uris d := by
  unfold run
  split
  · rfl
  · rename_i roots dirs hc
    obtain ⟨-, h1, h2⟩ := collect_good hc
    rw [h roots h1 h2]

/-- **C85** (failure): if a document is not found, or the plugin or a generator fails, nothing is written. -/
theorem C85_failed (w : World Uri) (gen : List Uri → Option (List (Str × Str))) (calls : Nat → Call) (uris : List Uri) (d : Disk)
    (h : (∃ u ∈ uris, w.result u = none) ∨ ∀ l, gen l = none) : run w gen calls uris d = (d, .failed) := by
  unfold run
  rcases h with h | h
  · rw [collect_none _ _ _ h]
  · cases hc : collect w uris [] [] with
    | none => rfl
    | some x => simp only [h]

/-- **C85** (nothing is lost): whatever the system does, as long as files that exist are found, every path holds what it held
before or one of the generated files, or is a new file with the beginning of a generated file, or has a backup of its last
content. (Partial: an existing file that `os.Stat` does not find is overwritten without a backup, see `C85_stat_violated`.) -/
theorem C85_recoverable_partial (w : World Uri) (gen : List Uri → Option (List (Str × Str))) (calls : Nat → Call)
    (uris : List Uri) (d : Disk) (files : List (Str × Str)) (hgen : ∀ l, gen l = none ∨ gen l = some files)
    (hs : ∀ n, (calls n).statFails = false) (p : Str) :
    Recoverable (files.map (·.2)) d (run w gen calls uris d).1 p := by
  have h0 : ∀ p, Whole (files.map (·.2)) d d p := fun p => .inl rfl
  unfold run
  split
  · exact .inl (h0 p)
  · rename_i roots dirs hc
    rcases hgen roots with h | h
    · rw [h]; exact .inl (h0 p)
    · rw [h]
      exact writeAll_recoverable calls hs dirs files 0 d .ok (fun e he => List.mem_map.2 ⟨e, he, rfl⟩) h0 p

/-- **C85** (next to the source): a generated file in a directory that belongs to a document (its import path or its
`go_package`) is written into the directory of the document with the generated content. (Partial: the documents that the
directory of the response belongs to must be in one directory, see `C85_shared_package_violated`, and import paths and
`go_package` must be names separated by slashes, see `C85_dot_violated`.) -/
theorem C85_next_to_source_partial (w : World Uri) (gen : List Uri → Option (List (Str × Str))) (calls : Nat → Call)
    (uris : List Uri) (d : Disk) (ha : Absolute w uris) (pre post : List (Str × Str)) (name content k b : Str)
    (hgen : ∀ l : List Uri, (∀ u, u ∈ l ↔ Target w uris u) → gen l = some (pre ++ (name, content) :: post))
    (hw : WellNamed w uris (pre ++ (name, content) :: post)) (hn : In k b name)
    (u : Uri) (hu : Target w uris u) (hs : Speaks w u k)
    (hone : ∀ v, Target w uris v → Speaks w v k → home w v = home w u)
    (hlast : ∀ e ∈ post, ∀ k' v, In k' b e.1 → Target w uris v → Speaks w v k' → home w v = home w u → e.2 = content)
    (hr : (run w gen calls uris d).2 ≠ .failed) :
    (run w gen calls uris d).1.at_ (pathOf (home w u ++ [b])) = some (.file content) := by
  unfold run at hr ⊢
  cases hc : collect w uris [] [] with
  | none => rw [hc] at hr; simp at hr
  | some x =>
    obtain ⟨roots, dirs⟩ := x
    rw [hc] at hr
    simp only [] at hr ⊢
    obtain ⟨hgood, -, hroots⟩ := collect_good hc
    rw [hgen roots hroots] at hr ⊢
    simp only [] at hr ⊢
    obtain ⟨hkd, hkb⟩ := in_parts hn
    have hkey : k ∈ keys dirs := hgood.2 u hu k ((key_iff (hw.paths u hu.1) k).2 hs)
    cases hg : get dirs k with
    | none => exact absurd hkey (get_none.1 hg)
    | some dir =>
      obtain ⟨v, hv, hvk, hdir⟩ := good_get hgood ha hg
      have hhome : home w v = home w u := hone v hv ((key_iff (hw.paths v hv.1) k).1 hvk)
      have hj : join dir (baseOf name) = pathOf (home w u ++ [b]) := by
        rw [hkb, hdir, hhome, join_pathOf_name _ (home_names w u) _ hn.1]
      have hg' : get dirs (dirOf name) = some dir := by rw [hkd]; exact hg
      have := writeAll_writes calls dirs hg' post (by
        intro e he dir' hgd hjj
        obtain ⟨k', b', hin⟩ := hw.names e (by simp [he])
        obtain ⟨hk', hb'⟩ := in_parts hin
        rw [hk'] at hgd
        obtain ⟨v', hv', hvk', hdir'⟩ := good_get hgood ha hgd
        rw [hj, hb', hdir', join_pathOf_name _ (home_names w v') _ hin.1] at hjj
        have hl := pathOf_inj (by
            intro x hx
            rcases List.mem_append.1 hx with hx | hx
            · exact home_names w v' x hx
            · simp only [List.mem_singleton] at hx; rw [hx]; exact hin.1) (by
            intro x hx
            rcases List.mem_append.1 hx with hx | hx
            · exact home_names w u x hx
            · simp only [List.mem_singleton] at hx; rw [hx]; exact hn.1) hjj
        obtain ⟨hh, hbb⟩ := List.append_inj' hl rfl
        simp only [List.cons.injEq, and_true] at hbb
        subst hbb
        exact hlast e he k' v' hin hv' ((key_iff (hw.paths v' hv'.1) k').1 hvk') hh) pre 0 d .ok hr
      rw [hj] at this
      exact this

/-- **C85** (refusal): if a generated file is in a directory that belongs to no document, the command reports an error. -/
theorem C85_refused (w : World Uri) (gen : List Uri → Option (List (Str × Str))) (calls : Nat → Call)
    (uris : List Uri) (d : Disk) (files : List (Str × Str)) (name content k b : Str) (hpaths : ∀ u ∈ uris, ∃ k x, In k x (w.path u))
    (hgen : ∀ l : List Uri, (∀ u, u ∈ l ↔ Target w uris u) → gen l = some files)
    (hf : (name, content) ∈ files) (hn : In k b name) (hno : ∀ u, Target w uris u → ¬ Speaks w u k) :
    (run w gen calls uris d).2 ≠ .ok := by
  unfold run
  split
  · simp
  · rename_i roots dirs hc
    obtain ⟨hgood, -, hroots⟩ := collect_good hc
    rw [hgen roots hroots]
    simp only []
    refine writeAll_refused calls dirs ?_ _ _ _ _ hf
    rw [(in_parts hn).1]
    cases hg : get dirs k with
    | none => rfl
    | some dir =>
      obtain ⟨u, hu, hk, -⟩ := hgood.1 _ (get_mem hg)
      exact absurd ((key_iff (hpaths u hu.1) k).1 hk) (hno u hu)

/-- **C85** (success): if every document is found, no call fails, every generated file is in a directory that belongs to a
document and none of them would replace a directory, the command succeeds. -/
theorem C85_succeeds (w : World Uri) (gen : List Uri → Option (List (Str × Str))) (calls : Nat → Call)
    (uris : List Uri) (d : Disk) (ha : Absolute w uris) (files : List (Str × Str))
    (hfound : ∀ u ∈ uris, w.result u ≠ none)
    (hgen : ∀ l : List Uri, (∀ u, u ∈ l ↔ Target w uris u) → gen l = some files)
    (hw : WellNamed w uris files) (hfine : ∀ n, Fine (calls n))
    (hs : ∀ e ∈ files, ∀ k b, In k b e.1 → ∃ u, Target w uris u ∧ Speaks w u k)
    (hd : ∀ e ∈ files, ∀ k b u, In k b e.1 → Target w uris u → Speaks w u k → d.at_ (pathOf (home w u ++ [b])) ≠ some .dir) :
    (run w gen calls uris d).2 = .ok := by
  unfold run
  cases hc : collect w uris [] [] with
  | none =>
    have := collect_some (w := w) uris [] [] hfound
    rw [hc] at this; simp at this
  | some x =>
    obtain ⟨roots, dirs⟩ := x
    simp only []
    obtain ⟨hgood, -, hroots⟩ := collect_good hc
    rw [hgen roots hroots]
    simp only []
    refine writeAll_ok calls hfine dirs files 0 d fun e he => ?_
    obtain ⟨k, b, hin⟩ := hw.names e he
    obtain ⟨hk, hb⟩ := in_parts hin
    obtain ⟨u, hu, hsp⟩ := hs e he k b hin
    have hkey : k ∈ keys dirs := hgood.2 u hu k ((key_iff (hw.paths u hu.1) k).2 hsp)
    cases hg : get dirs k with
    | none => exact absurd hkey (get_none.1 hg)
    | some dir =>
      refine ⟨dir, by rw [hk]; exact hg, ?_⟩
      obtain ⟨v, hv, hvk, rfl⟩ := good_get hgood ha hg
      rw [hb, join_pathOf_name _ (home_names w v) _ hin.1]
      exact hd e he k b v hin hv ((key_iff (hw.paths v hv.1) k).1 hvk)

/-! ## Witnesses -/

/-- Three documents: `/w/a/x.proto` and `/w/b/y.proto` with the Go package `m/p`, and `/w/c/z.proto` with `./;foo`. -/
def demo : World Nat where
  result := fun u => match u with
    | 0 => some ⟨['p'], false, some ['m', '/', 'p']⟩
    | 1 => some ⟨['p'], false, some ['m', '/', 'p', ';', 'q']⟩
    | 2 => some ⟨['q'], false, some ['.', '/', ';', 'f', 'o', 'o']⟩
    | 3 => some ⟨['q'], true, none⟩
    | _ => none
  path := fun u => match u with
    | 0 => ['m', '/', 'a', '/', 'x']
    | 1 => ['m', '/', 'b', '/', 'y']
    | 2 => ['m', '/', 'c', '/', 'z']
    | _ => ['m', '/', 'd', '/', 'w']
  file := fun u => match u with
    | 0 => ['/', 'w', '/', 'a', '/', 'x']
    | 1 => ['/', 'w', '/', 'b', '/', 'y']
    | 2 => ['/', 'w', '/', 'c', '/', 'z']
    | _ => ['/', 'w', '/', 'd', '/', 'w']

/-- A disk on which `/w` and the directories of the documents exist. -/
def disk : Disk where
  at_ := fun p =>
    if p ∈ [['/'], ['/', 'w'], ['/', 'w', '/', 'a'], ['/', 'w', '/', 'b'], ['/', 'w', '/', 'c'], ['/', 'w', '/', 'd']] then some .dir
    else none
  backups := []

/-- The full claim is false when two documents in different directories have the same Go package (or one has the import path
of the other as Go package): the code of the first one is written next to the second one. -/
theorem C85_shared_package_violated :
    ∃ files : List (Str × Str), files = [(['m', '/', 'p', '/', 'x', '.', 'g', 'o'], ['c'])] ∧
      In ['m', '/', 'p'] ['x', '.', 'g', 'o'] ['m', '/', 'p', '/', 'x', '.', 'g', 'o'] ∧ Speaks demo 0 ['m', '/', 'p'] ∧
      home demo 0 = [['w'], ['a']] ∧
      (run demo (fun _ => some files) (fun _ => {}) [0, 1] disk).2 = .ok ∧
      (run demo (fun _ => some files) (fun _ => {}) [0, 1] disk).1.at_ ['/', 'w', '/', 'a', '/', 'x', '.', 'g', 'o'] = none ∧
      (run demo (fun _ => some files) (fun _ => {}) [0, 1] disk).1.at_ ['/', 'w', '/', 'b', '/', 'x', '.', 'g', 'o'] = some (.file ['c']) := by
  refine ⟨_, rfl, ⟨⟨⟨by simp, by simp, by simp⟩, by decide⟩, .inl ⟨?_, rfl⟩⟩, .inr ⟨_, _, rfl, rfl, by decide, .inl rfl⟩,
    by decide +kernel, by decide +kernel, by decide +kernel, by decide +kernel⟩
  intro part hp
  have e : splitOn '/' ['m', '/', 'p'] = [['m'], ['p']] := by decide
  rw [e] at hp
  simp only [List.mem_cons, List.not_mem_nil, or_false] at hp
  rcases hp with rfl | rfl <;> exact ⟨by simp, by simp, by simp⟩

/-- The full claim is false for a Go package that is not clean: with `go_package = "./;foo"` the generators put the file
into the directory `.` (`path.Join("./", "z.go")` is `z.go`), the table has `./`, and the file is refused. -/
theorem C85_dot_violated :
    let name := join ((splitOn ';' ['.', '/', ';', 'f', 'o', 'o']).headD []) ['z', '.', 'g', 'o']
    name = ['z', '.', 'g', 'o'] ∧
    (run demo (fun _ => some [(name, ['c'])]) (fun _ => {}) [2] disk).2 = .outside ∧
    (run demo (fun _ => some [(name, ['c'])]) (fun _ => {}) [2] disk).1.at_ ['/', 'w', '/', 'c', '/', 'z', '.', 'g', 'o'] = none := by
  refine ⟨by decide +kernel, by decide +kernel, by decide +kernel⟩

/-- handler.go:176: every error of `os.Stat` counts as "there is no such file". If it fails for another reason and writing fails
in the middle, an existing file is lost: only the beginning of the new content is there, and no backup. -/
theorem C85_stat_violated :
    let d : Disk := { disk with at_ := fun q => if q = ['/', 'w', '/', 'a', '/', 'x', '.', 'g', 'o'] then some (.file ['o', 'l', 'd']) else disk.at_ q, backups := [] }
    let d' := (run demo (fun _ => some [(['m', '/', 'p', '/', 'x', '.', 'g', 'o'], ['c', 'd'])])
      (fun _ => { statFails := true, written := some 1 }) [0] d).1
    d'.at_ ['/', 'w', '/', 'a', '/', 'x', '.', 'g', 'o'] = some (.file ['c']) ∧ d'.backups = [] := by
  decide +kernel

/-- The hypotheses are met: the documents of the example are absolute, and a file of the first one is written. -/
example : Absolute demo [0, 1, 2, 3] := by
  intro u hu
  simp only [List.mem_cons, List.not_mem_nil, or_false] at hu
  rcases hu with rfl | rfl | rfl | rfl
  · exact ⟨rfl, ['/', 'w', '/', 'a'], ['x'], rfl, ⟨by simp, by simp, by simp⟩, by decide⟩
  · exact ⟨rfl, ['/', 'w', '/', 'b'], ['y'], rfl, ⟨by simp, by simp, by simp⟩, by decide⟩
  · exact ⟨rfl, ['/', 'w', '/', 'c'], ['z'], rfl, ⟨by simp, by simp, by simp⟩, by decide⟩
  · exact ⟨rfl, ['/', 'w', '/', 'd'], ['w'], rfl, ⟨by simp, by simp, by simp⟩, by decide⟩

example : DirsExist demo [0, 1] disk := by
  intro u hu l hl
  have h : home demo u = [['w'], ['a']] ∨ home demo u = [['w'], ['b']] := by
    simp only [List.mem_cons, List.not_mem_nil, or_false] at hu
    rcases hu with rfl | rfl
    · exact .inl (by decide +kernel)
    · exact .inr (by decide +kernel)
  rcases h with h | h
  · rw [h] at hl
    rw [List.prefix_iff_eq_take] at hl
    rw [hl]
    rcases l with _ | ⟨a, _ | ⟨b, _ | ⟨c, l⟩⟩⟩ <;> simp <;> decide
  · rw [h] at hl
    rw [List.prefix_iff_eq_take] at hl
    rw [hl]
    rcases l with _ | ⟨a, _ | ⟨b, _ | ⟨c, l⟩⟩⟩ <;> simp <;> decide

/-- A name that tries to leave the directory: the file is refused, as the table has no such directory. -/
example : (run demo (fun _ => some [(['m', '/', 'a', '/', '.', '.', '/', '.', '.', '/', 'e'], ['c']), (['m', '/', 'a', '/', 'x'], ['c'])])
    (fun _ => {}) [0] disk).2 = .outside := by decide +kernel

/-- A file in the directory of the import path. -/
example : (run demo (fun _ => some [(['m', '/', 'a', '/', 'x', '.', 'g'], ['c'])]) (fun _ => {}) [0, 1] disk).1.at_
    ['/', 'w', '/', 'a', '/', 'x', '.', 'g'] = some (.file ['c']) := by decide +kernel

/-- The last name is `..`: the path is that of a directory, nothing is written. -/
example : (run demo (fun _ => some [(['m', '/', 'a', '/', '.', '.'], ['c'])]) (fun _ => {}) [0, 1] disk).2 = .failed := by decide +kernel

/-- A document with the pragma is not a target. -/
example : ¬ Target demo [3] 3 := by
  rintro ⟨-, d, h1, -, h3⟩
  cases h1
  cases h3

end Verif.Generate
