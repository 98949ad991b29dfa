import Verif.Lemmas.FindFileRuns

/-!
# C79: Imports are found, and the files found are those that the server shows
-/
namespace Verif.FindFile

/-- C79, partial: after any history, what is found for a path is the text of a document, which the server knows by the path of the
result: the text in the editor, if the document is open there; or a descriptor of a synthetic document. Missing: files of Go modules
that are open in the editor (`C79_open_violated`), and documents of the workspace with a path that begins with `google/`
(`C79_google_violated`). -/
theorem C79_located_partial (P : Program) (hist : List (World × Op)) (hn : NoGoogleRun P State.empty hist) (W : World) (hc : Closed W)
    (path : Path) (r : Found) (st' : State) (he : find P W (run P State.empty hist) path none = (st', .ok r)) : Located W st' r := by
  rw [find_none] at he
  exact findLocked_located (run_registered Registered.empty hn) hc he

/-- C79, partial: as long as nothing changes but by lookups, a second lookup, of the path of the result, gives the same result: the
compiler and the editor do not see different files. Missing: files of Go modules that are open in the editor or larger than 1 MB
(`C79_large_violated`). -/
theorem C79_again_partial (P : Program) (W : World) (hW : Sane W) (hc : Closed W) (hl : Small W) (hist : List (World × Op))
    (hh : ∀ x ∈ hist, x.1 = W ∧ Lookup x.2) (path : Path) (st' : State) (r : Found)
    (he : find P W (run P State.empty hist) path none = (st', .ok r)) :
    ∃ st'', find P W st' r.resolved none = (st'', .ok r) := by
  rw [find_none] at he
  simp only [find_none]
  exact again_locked (run_settled hW (Settled.empty W) hh) hW hc hl he

/-! ## Which file is found -/

/-- C79 (part): a path that begins with `google/` and that is linked into the program always stands for the file that is linked in,
whatever happened before, whatever documents and modules there are, and from wherever it is imported. -/
theorem C79_well_known (P : Program) (hist : List (World × Op)) (hW : ∀ x ∈ hist, Sane x.1) (W : World) (path : Path) (d : Desc)
    (t : Text) (hw : BelowGoogle path) (hr : P.registry path = some d) (hp : P.print d = some t) (whence : Option Path) :
    (find P W (run P State.empty hist) path whence).2 = .ok ⟨path, .text t⟩ := by
  have hw := wellKnown_iff.mpr hw
  have h := run_known (P := P) hW Known.empty
  generalize run P State.empty hist = st at h
  have : (findLocked P W st path).2 = .ok ⟨path, .text t⟩ := by
    unfold findLocked checkWellKnown checkGlobalCache
    simp only [hw, if_true, hr]
    cases hs : st.synthetic (.proto path) with
    | some src =>
      have := h.text path d t hw hr hp (.inr (by simp [hs]))
      rw [hs, Option.some.injEq] at this
      simp [this]
    | none => simp [hp]
  unfold find
  cases he : findLocked P W st path with
  | mk s x => rw [he] at this; simp only at this; subst this; rfl

/-- C79 (part): the path of a document of at most 1 MB that does not begin with `google/` stands for that document as it is shown;
the lookup changes nothing. -/
theorem C79_document (P : Program) (W : World) (st : State) (path : Path) (f : File) (t : Text) (whence : Option Path)
    (hw : ¬ BelowGoogle path) (hu : st.uriOf path = some (.file f)) (hs : shown W st (.file f) = some t)
    (hl : t.length ≤ 1048576) : find P W st path whence = (st, .ok ⟨path, .text t⟩) := by
  have hw := wellKnown_false.mpr hw
  have hr : W.read (.file f) = some t := hs
  have : findLocked P W st path = (st, .ok ⟨path, .text t⟩) := by
    unfold findLocked
    simp only [checkWellKnown, hw, isSynthetic, hu, checkFS, Option.bind_some, hr, largeFile, Nat.not_lt.mpr hl, Bool.false_eq_true, if_false]
  simp [find, this]

/-- C79 (part): a path that belongs to no document stands for the proto file in the Go package with that path, if there is one; after
that, it is the path of that file. -/
theorem C79_module (P : Program) (W : World) (st : State) (dir : Path) (name : Str) (pkg : Package) (t : Text) (whence : Option Path)
    (hm : W.module?.isSome) (hW : Sane W) (hg : ¬ [litGithub, litGogo, litGoogleapis] <+: dir) (hn : litProto.isSuffixOf name = true)
    (hu : st.uriOf (dir ++ [name]) = none) (hp : W.findPackage dir = some pkg) (hd : W.disk (pkg.dir ++ [name]) = some t) :
    (find P W st (dir ++ [name]) whence).2 = .ok ⟨dir ++ [name], .text t⟩ ∧
      (find P W st (dir ++ [name]) whence).1.uriOf (dir ++ [name]) = some (.file (pkg.dir ++ [name])) := by
  obtain ⟨m, hm⟩ := Option.isSome_iff_exists.mp hm
  obtain ⟨v1, v2, v3, v4⟩ := hW.valid dir pkg hp
  have hw : wellKnown (dir ++ [name]) = false := wellKnown_append v2 v3
  have hc : checkGoModule P W st (dir ++ [name]) =
      (st.foundSource (dir ++ [name]) (pkg.dir ++ [name]) pkg.isLocal, .ok ⟨dir ++ [name], .text t⟩) := by
    unfold checkGoModule
    simp only [hm, gogoRest_append hg, importFromGoModule_direct v2 hn v1 hp, moduleImport, hd, Option.isSome_some, if_true]
    rfl
  have : findLocked P W st (dir ++ [name]) =
      (st.foundSource (dir ++ [name]) (pkg.dir ++ [name]) pkg.isLocal, .ok ⟨dir ++ [name], .text t⟩) := by
    simp [findLocked, checkWellKnown, hw, isSynthetic, hu, checkFS, findModule, hc]
  simp [find, this, State.foundSource]

/-- C79 (part): if a Go package has only code generated from the file, the path stands for the descriptor in it; after that, it is
the path of a synthetic document. -/
theorem C79_generated (P : Program) (W : World) (st : State) (dir : Path) (name : Str) (pkg : Package) (d : Desc)
    (whence : Option Path) (hm : W.module?.isSome) (hW : Sane W) (hg : ¬ [litGithub, litGogo, litGoogleapis] <+: dir)
    (hn : litProto.isSuffixOf name = true) (hu : st.uriOf (dir ++ [name]) = none) (hp : W.findPackage dir = some pkg)
    (hd : W.disk (pkg.dir ++ [name]) = none) (hgen : W.generated name pkg.dir = some d) :
    (find P W st (dir ++ [name]) whence).2 = .ok ⟨dir ++ [name], .desc d⟩ ∧
      (find P W st (dir ++ [name]) whence).1.uriOf (dir ++ [name]) = some (.proto (dir ++ [name])) := by
  obtain ⟨m, hm⟩ := Option.isSome_iff_exists.mp hm
  obtain ⟨v1, v2, v3, v4⟩ := hW.valid dir pkg hp
  have hw : wellKnown (dir ++ [name]) = false := wellKnown_append v2 v3
  have hc : checkGoModule P W st (dir ++ [name]) =
      (st.foundDesc (dir ++ [name]) (dir ++ [name]) d, .ok ⟨dir ++ [name], .desc d⟩) := by
    unfold checkGoModule
    simp only [hm, gogoRest_append hg, importFromGoModule_direct v2 hn v1 hp, moduleImport, hd, Option.isSome_none,
      Bool.false_eq_true, if_false, Option.getD_none, hu, Option.bind_none, List.getLast?_append, List.getLast?_singleton,
      Option.some_or, Option.getD_some, hgen]
    rfl
  have : findLocked P W st (dir ++ [name]) = (st.foundDesc (dir ++ [name]) (dir ++ [name]) d, .ok ⟨dir ++ [name], .desc d⟩) := by
    simp [findLocked, checkWellKnown, hw, isSynthetic, hu, checkFS, findModule, hc]
  simp [find, this, State.foundDesc]

/-- C79 (part): the importing file matters only for paths that are not found without it. -/
theorem C79_context (P : Program) (W : World) (st st' : State) (path : Path) (r : Found) (importing : Path)
    (he : find P W st path none = (st', .ok r)) : find P W st path (some importing) = (st', .ok r) := by
  rw [find_none] at he
  simp [find, he]

/-! ## Paths relative to the importing file -/

/-- C79, partial: in the Go module of the workspace, a path that is not found otherwise stands for the file with that path relative
to the directory of the importing file. Its path is then that of its package. Missing: workspaces without Go module
(`C79_relative_violated`). -/
theorem C79_relative_partial (P : Program) (W : World) (st : State) (root sub : File) (mod path importing : Path) (x : Str) (t : Text)
    (hm : W.module? = some (root, mod)) (hi : st.uriOf importing = some (.file (root ++ sub ++ [x])))
    (ho : st.originOf (.file (root ++ sub ++ [x])) = some .localGoModule) (hu : st.uriOf path = none)
    (hd : (W.disk (root ++ sub ++ path)).isSome) (hs : shown W st (.file (root ++ sub ++ path)) = some t) (hl : t.length ≤ 1048576)
    (h1 : ∀ part ∈ root ++ sub ++ mod ++ path, plain part) (hp : path ≠ []) (hmod : mod ≠ []) (hg : mod.head? ≠ some litGoogle)
    (e : Err) (he : (find P W st path none).2 = .error e) :
    ∃ st', find P W st path (some importing) = (st', .ok ⟨mod ++ sub ++ path, .text t⟩) ∧
      st'.uriOf (mod ++ sub ++ path) = some (.file (root ++ sub ++ path)) := by
  obtain ⟨dir, last, rfl⟩ : ∃ dir last, path = dir ++ [last] :=
    ⟨_, _, (List.dropLast_concat_getLast hp).symm⟩
  have hr : ∀ part ∈ root ++ sub, plain part := fun y hy => h1 y (by rcases List.mem_append.mp hy with h | h <;> simp [h])
  have hpl : ∀ part ∈ dir ++ [last], plain part := fun y hy => h1 y (List.mem_append_right _ hy)
  have hf : firstFile W (candidates W (dir ++ [last]) (root ++ sub ++ [x])) = some (root ++ sub ++ (dir ++ [last])) := by
    simp only [candidates, List.dropLast_concat, List.cons_append, List.nil_append, joinFile_plain _ _ hr hpl, firstFile, hd, if_true]
  have hpk : goPackageOf W (root ++ sub ++ (dir ++ [last])) = some (mod ++ (sub ++ dir)) := by
    have : (rel root (root ++ sub ++ (dir ++ [last]))).dropLast = sub ++ dir := by
      rw [List.append_assoc, rel_append, ← List.append_assoc, List.dropLast_concat]
    simp only [goPackageOf, hm, Option.map_some, this]
    rw [joinPath_plain _ _ (fun y hy => h1 y (by simp [hy])) fun y hy => h1 y (by rcases List.mem_append.mp hy with h | h <;> simp [h])]
  have hname : joinPath (mod ++ (sub ++ dir)) [last] = mod ++ sub ++ (dir ++ [last]) := by
    rw [joinPath_plain _ _ (fun y hy => h1 y (by simp at hy ⊢; rcases hy with h | h | h <;> simp [h])) fun y hy => h1 y (by simp_all)]
    simp
  have hw : wellKnown (mod ++ sub ++ (dir ++ [last])) = false := by
    rw [← List.append_assoc]
    refine wellKnown_append (by simp [hmod]) ?_
    cases mod with
    | nil => exact absurd rfl hmod
    | cons a b => simpa using (show _ ≠ some kwGoogle from hg)
  obtain ⟨st1, ht, hu1⟩ : ∃ st1, translate W st (dir ++ [last]) importing = (st1, some (mod ++ sub ++ (dir ++ [last]))) ∧
      st1.uriOf (mod ++ sub ++ (dir ++ [last])) = some (.file (root ++ sub ++ (dir ++ [last]))) := by
    unfold translate
    simp only [hu, Option.isSome_none, Bool.false_eq_true, if_false, hi, isLocal_plain hp hpl, if_true, hf, canonical, ho, hpk]
    simp only [List.getLast?_append, List.getLast?_singleton, Option.some_or, Option.toList_some, hname]
    exact ⟨_, rfl, by simp⟩
  have hdoc := C79_document P W st1 (mod ++ sub ++ (dir ++ [last])) (root ++ sub ++ (dir ++ [last])) t none (wellKnown_false.mp hw) hu1 hs hl
  rw [find_none] at he hdoc
  have hloc : findLocked P W st (dir ++ [last]) = (st, .error e) := by
    cases hfl : findLocked P W st (dir ++ [last]) with
    | mk s y =>
      rw [hfl] at he
      simp only at he
      subst he
      rw [findLocked_error hfl]
  exact ⟨st1, by simp only [find, hloc, ht, hdoc], hu1⟩

/-- C79, partial: the same for files in other Go modules; the path is that of the importing file with the last parts replaced. -/
theorem C79_relative_module_partial (P : Program) (W : World) (st : State) (dir : File) (pkg path importing : Path) (x y : Str)
    (t : Text) (hi : st.uriOf importing = some (.file (dir ++ [x]))) (ho : st.originOf (.file (dir ++ [x])) = some .goModuleCache)
    (hpo : st.pathOf (.file (dir ++ [x])) = some (pkg ++ [y])) (hu : st.uriOf path = none)
    (hd : (W.disk (dir ++ path)).isSome) (hs : shown W st (.file (dir ++ path)) = some t) (hl : t.length ≤ 1048576)
    (h1 : ∀ part ∈ dir ++ pkg ++ path, plain part) (hp : path ≠ []) (hpkg : pkg ≠ []) (hg : pkg.head? ≠ some litGoogle)
    (e : Err) (he : (find P W st path none).2 = .error e) :
    ∃ st', find P W st path (some importing) = (st', .ok ⟨pkg ++ path, .text t⟩) ∧
      st'.uriOf (pkg ++ path) = some (.file (dir ++ path)) := by
  obtain ⟨sub, last, rfl⟩ : ∃ sub last, path = sub ++ [last] :=
    ⟨_, _, (List.dropLast_concat_getLast hp).symm⟩
  have hr : ∀ part ∈ dir, plain part := fun y hy => h1 y (by simp_all)
  have hpl : ∀ part ∈ sub ++ [last], plain part := fun y hy => h1 y (List.mem_append_right _ hy)
  have hf : firstFile W (candidates W (sub ++ [last]) (dir ++ [x])) = some (dir ++ (sub ++ [last])) := by
    simp only [candidates, List.dropLast_concat, List.cons_append, List.nil_append, joinFile_plain _ _ hr hpl, firstFile, hd, if_true]
  have hname : joinPath (pkg ++ [y]).dropLast (rel (dir ++ [x]).dropLast (dir ++ (sub ++ [last])).dropLast ++
      (dir ++ (sub ++ [last])).getLast?.toList) = pkg ++ (sub ++ [last]) := by
    rw [List.dropLast_concat, List.dropLast_concat, ← List.append_assoc dir, List.dropLast_concat, rel_append]
    simp only [List.getLast?_append, List.getLast?_singleton, Option.some_or, Option.toList_some]
    exact joinPath_plain _ _ (fun y hy => h1 y (by simp [hy])) hpl
  have hw : wellKnown (pkg ++ (sub ++ [last])) = false := by
    rw [← List.append_assoc]
    refine wellKnown_append (by simp [hpkg]) ?_
    cases pkg with
    | nil => exact absurd rfl hpkg
    | cons a b => simpa using (show _ ≠ some kwGoogle from hg)
  obtain ⟨st1, ht, hu1⟩ : ∃ st1, translate W st (sub ++ [last]) importing = (st1, some (pkg ++ (sub ++ [last]))) ∧
      st1.uriOf (pkg ++ (sub ++ [last])) = some (.file (dir ++ (sub ++ [last]))) := by
    unfold translate
    simp only [hu, Option.isSome_none, Bool.false_eq_true, if_false, hi, isLocal_plain hp hpl, if_true, hf, canonical, ho, hpo,
      Option.getD_some, hname]
    exact ⟨_, rfl, by simp⟩
  have hdoc := C79_document P W st1 (pkg ++ (sub ++ [last])) (dir ++ (sub ++ [last])) t none (wellKnown_false.mp hw) hu1 hs hl
  rw [find_none] at he hdoc
  have hloc : findLocked P W st (sub ++ [last]) = (st, .error e) := by
    cases hfl : findLocked P W st (sub ++ [last]) with
    | mk s z =>
      rw [hfl] at he
      simp only at he
      subst he
      rw [findLocked_error hfl]
  exact ⟨st1, by simp only [find, hloc, ht, hdoc], hu1⟩

/-! ## Synthetic documents -/

/-- C79 (part): after a compilation, every synthetic document without text, for which the compiler has a result that can be printed,
gets that text; texts that are there already stay, and no other document gets one. The paths to be compiled again are those of the
documents that got a text, each once. -/
theorem C79_incomplete (linked : Path → Option Text) (order : List Uri) (ho : order.Nodup) (st : State)
    (hall : ∀ u, (st.pathOf u).isSome → u ∈ order) :
    let out := checkIncomplete linked order st
    (∀ u, out.1.synthetic u = match u with
      | .file _ => st.synthetic u
      | .proto _ => (st.synthetic u).or ((st.pathOf u).bind linked)) ∧
    out.1.uriOf = st.uriOf ∧ out.1.pathOf = st.pathOf ∧
    out.2 = (order.filter fun u => (st.synthetic u).isNone && (out.1.synthetic u).isSome).filterMap st.pathOf := by
  obtain ⟨h1, h2, h3, h4⟩ := checkIncomplete_spec linked order ho st
  have h5 : ∀ u, (checkIncomplete linked order st).1.synthetic u = fill linked st u := by
    intro u
    rw [h1 u]
    split
    · rfl
    · rename_i hu
      cases u with
      | file f => rfl
      | proto p =>
        have : st.pathOf (.proto p) = none := by
          cases hp : st.pathOf (.proto p) with
          | none => rfl
          | some q => exact absurd (hall _ (by simp [hp])) hu
        simp [fill, this]
  refine ⟨h5, h2, h3, ?_⟩
  rw [h4]
  congr 1
  apply List.filter_congr
  intro u _
  rw [h5 u]

/-! ## Examples and counterexamples

The program has `google/x.proto`. The workspace is `/w`, its Go module `m`. There are the Go packages `n` in `/c`, with
`/c/y.proto`, and `k` in `/k`, with code generated from `z.proto`. -/

deriving instance DecidableEq for Except

/-- `c.proto` -/
def file (c : Char) : Str := c :: litProto

def demoP : Program where
  registry p := if p = [litGoogle, file 'x'] ∨ p = [litGoogle, ['a'], file 'x'] then some ⟨p, 1⟩ else none
  print d := some ['p', Char.ofNat (48 + d.id)]

def demoDisk (f : File) : Option Text :=
  if f = [['c'], file 'y'] then some ['o', 'l', 'd']
  else if f = [['w'], ['s'], file 'a'] then some ['a']
  else if f = [['w'], ['s'], file 'b'] then some ['b']
  else if f = [['w'], file 'b'] then some ['r']
  else if f = [['w'], litGoogle, file 'x'] then some ['g']
  else if f = [['c'], file 'q'] then some ['q']
  else none

def demoW : World where
  overlay _ := none
  disk := demoDisk
  module? := some ([['w']], [['m']])
  validImport _ := true
  findPackage q :=
    if q = [['n']] then some ⟨[['c']], false⟩ else if q = [['k']] then some ⟨[['k']], false⟩
    else if q = [litGithub, litGogo, litProtobuf, litGogoproto] then some ⟨[['c']], false⟩ else none
  applyEdits _ _ := none
  generated name dir := if name = file 'z' ∧ dir = [['k']] then some ⟨[file 'z'], 2⟩ else none
  goImports _ := some [[litGithub, litGogo, litGoogleapis, litGoogle, ['a']]]
  suffixMatch _ _ := none

theorem demo_packages {q : Path} {pkg : Package} (h : demoW.findPackage q = some pkg) :
    (q = [['n']] ∧ pkg = ⟨[['c']], false⟩) ∨ (q = [['k']] ∧ pkg = ⟨[['k']], false⟩) ∨
      (q = [litGithub, litGogo, litProtobuf, litGogoproto] ∧ pkg = ⟨[['c']], false⟩) := by
  simp only [demoW] at h
  split at h
  · rename_i hq; cases h; exact .inl ⟨hq, rfl⟩
  · split at h
    · rename_i hq; cases h; exact .inr (.inl ⟨hq, rfl⟩)
    · split at h
      · rename_i hq; cases h; exact .inr (.inr ⟨hq, rfl⟩)
      · cases h

theorem demo_sane : Sane demoW where
  valid q pkg h := by
    rcases demo_packages h with ⟨rfl, -⟩ | ⟨rfl, -⟩ | ⟨rfl, -⟩
    all_goals
      refine ⟨rfl, by decide, by decide, ?_⟩
      simp [plain, litGithub, litGogo, litProtobuf, litGogoproto]
  alternative e p q pkg h := by simp [demoW] at h

theorem demo_closed : Closed demoW := fun _ _ _ _ => rfl

theorem demo_small : Small demoW := by
  intro q pkg name t _ ht
  have : t.length ≤ 3 := by
    simp only [demoW, demoDisk] at ht
    repeat' split at ht
    all_goals first | cases ht; decide | cases ht
  exact Nat.le_trans this (by decide)

/-- Lookups of a file of the program, one from a Go module, and a descriptor from generated code. -/
def demoHist : List (World × Op) :=
  [(demoW, .find [litGoogle, file 'x'] none), (demoW, .find [['n'], file 'y'] none), (demoW, .find [['k'], file 'z'] none),
    (demoW, .incomplete [.proto [['k'], file 'z']] fun _ => some ['z'])]

example : ∀ x ∈ demoHist, x.1 = demoW ∧ Lookup x.2 := by
  intro x hx
  simp only [demoHist, List.mem_cons, List.not_mem_nil, or_false] at hx
  rcases hx with rfl | rfl | rfl | rfl
  · exact ⟨rfl, .find _⟩
  · exact ⟨rfl, .find _⟩
  · exact ⟨rfl, .find _⟩
  · exact ⟨rfl, .incomplete _ _⟩

example : NoGoogleRun demoP State.empty demoHist := ⟨trivial, trivial, trivial, trivial, trivial⟩

example : (find demoP demoW (run demoP State.empty demoHist) [['k'], file 'z'] none).2 = .ok ⟨[['k'], file 'z'], .text ['z']⟩ := by
  decide +kernel

example : (find demoP demoW (run demoP State.empty demoHist) [litGoogle, file 'x'] none).2 =
    .ok ⟨[litGoogle, file 'x'], .text ['p', '1']⟩ := by decide +kernel

/-- `s/a.proto` of the workspace, as a file of its Go module. -/
def demoLocal : State := step demoP demoW State.empty (.create [['w'], ['s'], file 'a'] [['m'], ['s'], file 'a'] .localGoModule)

/-- `s/a.proto` imports `b.proto`. -/
example : (find demoP demoW demoLocal [file 'b'] none).2 = .error .notExist ∧
    (find demoP demoW demoLocal [file 'b'] (some [['m'], ['s'], file 'a'])).2 = .ok ⟨[['m'], ['s'], file 'b'], .text ['b']⟩ := by
  decide +kernel

/-- `q.proto` in `/c`, imported by `n/y.proto`. -/
example : (find demoP demoW (run demoP State.empty demoHist) [file 'q'] none).2 = .error .notExist ∧
    (find demoP demoW (run demoP State.empty demoHist) [file 'q'] (some [['n'], file 'y'])).2 =
      .ok ⟨[['n'], file 'q'], .text ['q']⟩ := by
  decide +kernel

/-- C79 fails for a file of a Go module that is open in the editor: the first lookup gives the compiler the saved text. -/
theorem C79_open_violated :
    let W := { demoW with overlay := fun f => if f = [['c'], file 'y'] then some ['n', 'e', 'w'] else none }
    let r := find demoP W State.empty [['n'], file 'y'] none
    r.2 = .ok ⟨[['n'], file 'y'], .text ['o', 'l', 'd']⟩ ∧ r.1.uriOf [['n'], file 'y'] = some (.file [['c'], file 'y']) ∧
      shown W r.1 (.file [['c'], file 'y']) = some ['n', 'e', 'w'] ∧
      (find demoP W r.1 [['n'], file 'y'] none).2 = .ok ⟨[['n'], file 'y'], .text ['n', 'e', 'w']⟩ := by
  decide +kernel

/-- C79 fails for a large file of a Go module: the first lookup succeeds, the next one is refused. -/
theorem C79_large_violated (t : Text) (ht : 1048576 < t.length) :
    let W := { demoW with disk := fun f => if f = [['c'], file 'y'] then some t else none }
    let r := find demoP W State.empty [['n'], file 'y'] none
    r.2 = .ok ⟨[['n'], file 'y'], .text t⟩ ∧ (find demoP W r.1 [['n'], file 'y'] none).2 = .error .other := by
  intro W r
  have hr : r = (State.empty.foundSource [['n'], file 'y'] [['c'], file 'y'] false, .ok ⟨[['n'], file 'y'], .text t⟩) := rfl
  rw [hr]
  refine ⟨rfl, ?_⟩
  have hu : (State.empty.foundSource [['n'], file 'y'] [['c'], file 'y'] false).uriOf [['n'], file 'y'] =
      some (.file [['c'], file 'y']) := rfl
  have hd : W.read (.file [['c'], file 'y']) = some t := rfl
  have hw : wellKnown [['n'], file 'y'] = false := by decide
  simp only [find_none, findLocked, checkWellKnown, hw, isSynthetic, hu, checkFS, Option.bind_some, hd, largeFile, ht, if_true,
    Bool.false_eq_true, if_false]

example : 1048576 < (List.replicate (1048576 + 1) 'x').length := by
  rw [List.length_replicate]; decide

/-- C79 fails for a file of the workspace with the path of a file of the program: the path leads to the one, its text is that of the
other. -/
theorem C79_google_violated :
    let st := run demoP State.empty [(demoW, .find [litGoogle, file 'x'] none),
      (demoW, .create [['w'], litGoogle, file 'x'] [litGoogle, file 'x'] .relativePath)]
    let r := find demoP demoW st [litGoogle, file 'x'] none
    r.2 = .ok ⟨[litGoogle, file 'x'], .text ['p', '1']⟩ ∧ r.1.uriOf [litGoogle, file 'x'] = some (.file [['w'], litGoogle, file 'x']) ∧
      shown demoW r.1 (.file [['w'], litGoogle, file 'x']) = some ['g'] := by
  decide +kernel

/-- C79 fails for a document of the workspace with a path that begins with `google/`, but is no file of the program: the document is
there, its path is known, and it is not found (the comment on the order at resolver.go:275-282 says that documents are tried next). -/
theorem C79_unregistered_violated :
    let W := { demoW with disk := fun f => if f = [['w'], litGoogle, file 'v'] then some ['v'] else none }
    let st := step demoP W State.empty (.create [['w'], litGoogle, file 'v'] [litGoogle, file 'v'] .relativePath)
    st.uriOf [litGoogle, file 'v'] = some (.file [['w'], litGoogle, file 'v']) ∧
      shown W st (.file [['w'], litGoogle, file 'v']) = some ['v'] ∧
      (find demoP W st [litGoogle, file 'v'] (some [litGoogle, file 'v'])).2 = .error .notRegistered := by
  decide +kernel

/-- Without Go module: `s/a.proto`, `s/b.proto`, and `b.proto`. -/
def demoRelative : State :=
  run demoP State.empty [(demoW, .create [['w'], ['s'], file 'a'] [['s'], file 'a'] .relativePath),
    (demoW, .create [['w'], ['s'], file 'b'] [['s'], file 'b'] .relativePath),
    (demoW, .create [['w'], file 'b'] [file 'b'] .relativePath)]

/-- C79 fails in a workspace without Go module: `import "./b.proto"` in `s/a.proto` gives `b.proto` in the directory above, although
`s/b.proto` was found first. -/
theorem C79_relative_violated :
    let W := { demoW with module? := none }
    (find demoP W demoRelative [['.'], file 'b'] (some [['s'], file 'a'])).2 = .ok ⟨[file 'b'], .text ['r']⟩ ∧
      shown W demoRelative (.file [['w'], ['s'], file 'b']) = some ['b'] := by
  decide +kernel

/-- C79 fails there for `import "b.proto"`, too, if there is no such file in the directory above: `s/b.proto` is not found. -/
theorem C79_sibling_violated :
    let W := { demoW with module? := none, disk := fun f => if f = [['w'], file 'b'] then none else demoDisk f }
    let st := step demoP W demoRelative (.delete [['w'], file 'b'])
    (find demoP W st [file 'b'] (some [['s'], file 'a'])).2 = .error .notExist ∧
      shown W st (.file [['w'], ['s'], file 'b']) = some ['b'] := by
  decide +kernel

/-- C79 fails for a path that is found by means of generated code and that leads to a file of the program: the path of the result is
replaced by one that belongs to no document. -/
theorem C79_reverse_violated :
    let r := find demoP demoW demoLocal [['a'], file 'x'] (some [['m'], ['s'], file 'a'])
    r.2 = .ok ⟨[litGithub, litGogo, litGoogleapis, litGoogle, ['a'], file 'x'], .text ['p', '1']⟩ ∧
      r.1.uriOf [litGithub, litGogo, litGoogleapis, litGoogle, ['a'], file 'x'] = none := by
  decide +kernel

/-- C79 fails for `gogo.proto` in a Go package without that file: the lookup ends with an error, the file of `gogo/protobuf` (here in
`/c`) is not tried, as it is for other paths. -/
theorem C79_gogo_violated :
    let W := { demoW with disk := fun f => if f = [['c'], litGogoFile] then some ['o'] else none }
    (find demoP W State.empty [['k'], litGogoFile] none).2 = .error .other ∧
      (find demoP W State.empty [['h'], litGogoFile] none).2 = .ok ⟨[litGithub, litGogo, litProtobuf, litGogoproto, litGogoFile], .text ['o']⟩ := by
  decide +kernel

end Verif.FindFile
