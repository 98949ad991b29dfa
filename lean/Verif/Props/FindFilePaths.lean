import Verif.Props.FindFile

/-!
# C79: imports with a path relative to the importing file
-/
namespace Verif.FindFile

/-! ## Paths -/

/-- C79 (part): the files that are tried for an import are those one comes to from the directory, part by part. -/
theorem C79_join_file (dir : File) (p : Path) (hd : ∀ part ∈ dir, plain part) : joinFile dir p = walk dir p := by
  unfold joinFile
  rw [cleanAux_rooted _ _ (by simp), List.reverse_nil, walk_append, walk_plain _ _ hd, List.nil_append]

/-- C79 (part): a joined path leads to the same place as its parts, from every directory, and is as short as can be: names below
some `..`. -/
theorem C79_join_path (dir p : Path) :
    (∀ base, walk base (joinPath dir p) = walk (walk base dir) p) ∧
    ∃ k names, joinPath dir p = List.replicate k ['.', '.'] ++ names ∧ ∀ part ∈ names, plain part := by
  have h := cleanAux_relative (dir ++ p) 0 [] (by simp)
  exact ⟨fun base => (h.2 base).trans (walk_append _ _ _), h.1⟩

/-- C79 (part): a path is searched for relative to the importing file iff it is relative and does not lead out of any directory. -/
theorem C79_local (p : Path) :
    isLocal p = true ↔ p ≠ [] ∧ p.head? ≠ some [] ∧ ∀ dir : File, dir <+: walk dir p := by
  obtain ⟨⟨k, names, hc, hn⟩, hw⟩ := cleanAux_relative p 0 [] (by simp)
  simp only [List.reverse_nil, List.replicate_zero, List.append_nil] at hc hw
  have hw' : ∀ dir, walk dir p = walk dir (List.replicate k ['.', '.'] ++ names) := fun dir => by rw [← hc, hw]; rfl
  cases p with
  | nil => simp [isLocal]
  | cons head rest =>
    have : isLocal (head :: rest) = true ↔ head ≠ [] ∧ k = 0 := by
      simp only [isLocal, hc, Bool.and_eq_true, Bool.not_eq_true', List.isEmpty_eq_false_iff, bne_iff_ne]
      refine and_congr_right fun _ => ?_
      cases k with
      | zero =>
        simp only [List.replicate_zero, List.nil_append, iff_true]
        cases names with
        | nil => simp
        | cons a b => simpa using (hn a (by simp)).2.2
      | succ j => simp [List.replicate_succ]
    rw [this]
    simp only [ne_eq, reduceCtorEq, not_false_eq_true, List.head?_cons, Option.some.injEq, true_and]
    refine and_congr_right fun _ => ?_
    constructor
    · rintro rfl dir
      rw [hw', List.replicate_zero, List.nil_append, walk_plain _ _ hn]
      exact List.prefix_append _ _
    · intro h
      refine Classical.byContradiction fun hk => ?_
      have hpre := h (List.replicate k ((names.head?.getD []) ++ ['x']))
      have hup := walk_up [] (List.replicate k ((names.head?.getD []) ++ ['x']))
      rw [List.nil_append, List.length_replicate] at hup
      rw [hw', walk_append, hup, walk_plain _ _ hn, List.nil_append] at hpre
      obtain ⟨j, rfl⟩ := Nat.exists_eq_succ_of_ne_zero hk
      cases names with
      | nil => simp [List.replicate_succ] at hpre
      | cons a b => simp [List.replicate_succ] at hpre

example : isLocal [['a'], ['.', '.'], ['b']] = true ∧ isLocal [['a'], ['.', '.'], ['.', '.'], ['b']] = false ∧
    isLocal [[], ['b']] = false := by decide

/-! ## Files -/

/-- What holds for an import in a file of the Go module of the workspace, that is not found by its path alone: the directory of the
module is `root`, its name `mod`, the importing file is in the directory `sub` of it. -/
structure Importing (P : Program) (W : World) (st : State) (root sub : File) (mod path importing : Path) (x : Str) (e : Err) : Prop where
  module : W.module? = some (root, mod)
  uri : st.uriOf importing = some (.file (root ++ sub ++ [x]))
  origin : st.originOf (.file (root ++ sub ++ [x])) = some .localGoModule
  unknown : st.uriOf path = none
  isLocal : FindFile.isLocal path = true
  names : ∀ part ∈ root ++ sub ++ mod, plain part
  mod_ne : mod ≠ []
  google : mod.head? ≠ some litGoogle
  fails : (find P W st path none).2 = .error e

theorem walk_names (dir : File) (p : List Str) (h : ∀ part ∈ dir, plain part) : ∀ part ∈ walk dir p, plain part := by
  induction p generalizing dir with
  | nil => exact h
  | cons part rest ih =>
    rw [walk_cons]
    apply ih
    split
    · exact h
    · split
      · exact fun y hy => h y (List.dropLast_subset _ hy)
      · rename_i h1 h2
        intro y hy
        rcases List.mem_append.mp hy with hy | hy
        · exact h y hy
        · simp only [List.mem_singleton] at hy
          subst hy
          exact ⟨fun h => h1 (.inl h), fun h => h1 (.inr h), h2⟩

theorem found_in_module {P : Program} {W : World} {st : State} {root sub : File} {mod path importing : Path} {x : Str} {e : Err}
    (h : Importing P W st root sub mod path importing x e) {loc : File} {t : Text} (hloc : loc ≠ []) (hn : ∀ part ∈ loc, plain part)
    (hf : firstFile W (candidates W path (root ++ sub ++ [x])) = some (root ++ loc))
    (hs : shown W st (.file (root ++ loc)) = some t) (hl : t.length ≤ 1048576) :
    ∃ st', find P W st path (some importing) = (st', .ok ⟨mod ++ loc, .text t⟩) ∧
      st'.uriOf (mod ++ loc) = some (.file (root ++ loc)) := by
  obtain ⟨dir, last, rfl⟩ : ∃ dir last, loc = dir ++ [last] := ⟨_, _, (List.dropLast_concat_getLast hloc).symm⟩
  have hpk : goPackageOf W (root ++ (dir ++ [last])) = some (mod ++ dir) := by
    have : (rel root (root ++ (dir ++ [last]))).dropLast = dir := by rw [rel_append, List.dropLast_concat]
    simp only [goPackageOf, h.module, Option.map_some, this]
    rw [joinPath_plain _ _ (fun y hy => h.names y (by simp [hy])) fun y hy => hn y (by simp [hy])]
  have hname : joinPath (mod ++ dir) [last] = mod ++ (dir ++ [last]) := by
    rw [joinPath_plain _ _ _ fun y hy => hn y (by simp_all)]
    · simp
    · intro y hy
      rcases List.mem_append.mp hy with hy | hy
      · exact h.names y (by simp [hy])
      · exact hn y (by simp [hy])
  have hw : wellKnown (mod ++ (dir ++ [last])) = false := by
    rw [← List.append_assoc]
    refine wellKnown_append (by simp [h.mod_ne]) ?_
    have hg := h.google
    have hne := h.mod_ne
    cases mod with
    | nil => exact absurd rfl hne
    | cons a b => simpa using (show _ ≠ some kwGoogle from hg)
  obtain ⟨st1, ht, hu1⟩ : ∃ st1, translate W st path importing = (st1, some (mod ++ (dir ++ [last]))) ∧
      st1.uriOf (mod ++ (dir ++ [last])) = some (.file (root ++ (dir ++ [last]))) := by
    unfold translate
    simp only [h.unknown, Option.isSome_none, Bool.false_eq_true, if_false, h.uri, h.isLocal, if_true, hf, canonical, h.origin, hpk]
    simp only [List.getLast?_append, List.getLast?_singleton, Option.some_or, Option.toList_some, hname]
    exact ⟨_, rfl, by simp⟩
  have hdoc := C79_document P W st1 (mod ++ (dir ++ [last])) (root ++ (dir ++ [last])) t none (wellKnown_false.mp hw) hu1 hs hl
  have he := h.fails
  rw [find_none] at he hdoc
  have hlk : findLocked P W st path = (st, .error e) := by
    cases hfl : findLocked P W st path with
    | mk s y =>
      rw [hfl] at he
      simp only at he
      subst he
      rw [findLocked_error hfl]
  exact ⟨st1, by simp only [find, hlk, ht, hdoc], hu1⟩

/-- C79, partial: as `C79_relative_partial`, for paths with `.` and `..`. -/
theorem C79_relative_dots_partial (P : Program) (W : World) (st : State) (root sub loc : File) (mod path importing : Path) (x : Str)
    (e : Err) (h : Importing P W st root sub mod path importing x e) (t : Text) (hw : walk (root ++ sub) path = root ++ loc)
    (hloc : loc ≠ []) (hd : (W.disk (root ++ loc)).isSome) (hs : shown W st (.file (root ++ loc)) = some t) (hl : t.length ≤ 1048576) :
    ∃ st', find P W st path (some importing) = (st', .ok ⟨mod ++ loc, .text t⟩) ∧
      st'.uriOf (mod ++ loc) = some (.file (root ++ loc)) := by
  have hr : ∀ part ∈ root ++ sub, plain part := fun y hy => h.names y (List.mem_append_left _ hy)
  have hn := walk_names _ path hr
  rw [hw] at hn
  refine found_in_module h hloc (fun y hy => hn y (List.mem_append_right _ hy)) ?_ hs hl
  simp only [candidates, List.dropLast_concat, List.cons_append, List.nil_append, C79_join_file _ _ hr, hw, firstFile, hd, if_true]

/-- C79, partial: if there is no such file, and the path begins with the name of the directory of the importing file, it stands for
the file relative to the directory above, whatever other files there are. -/
theorem C79_duplicated_partial (P : Program) (W : World) (st : State) (root up : File) (d : Str) (rest mod importing : Path) (x : Str)
    (e : Err) (h : Importing P W st root (up ++ [d]) mod (d :: rest) importing x e) (t : Text) (hrest : rest ≠ [])
    (hr : ∀ part ∈ rest, plain part) (hno : W.disk (root ++ up ++ [d] ++ d :: rest) = none)
    (hd : (W.disk (root ++ up ++ d :: rest)).isSome) (hs : shown W st (.file (root ++ up ++ d :: rest)) = some t)
    (hl : t.length ≤ 1048576) :
    ∃ st', find P W st (d :: rest) (some importing) = (st', .ok ⟨mod ++ (up ++ d :: rest), .text t⟩) ∧
      st'.uriOf (mod ++ (up ++ d :: rest)) = some (.file (root ++ up ++ d :: rest)) := by
  have h1 : ∀ part ∈ root ++ up ++ [d], plain part := fun y hy => h.names y (by
    rw [List.append_assoc] at hy; exact List.mem_append_left _ hy)
  have h2 : ∀ part ∈ d :: rest, plain part := by
    intro y hy
    rcases List.mem_cons.mp hy with rfl | hy
    · exact h1 y (by simp)
    · exact hr y hy
  have h3 : ∀ part ∈ root ++ up, plain part := fun y hy => h1 y (List.mem_append_left _ hy)
  rw [List.append_assoc root up] at hd hs ⊢
  refine found_in_module h (by simp) ?_ ?_ hs hl
  · intro y hy
    rcases List.mem_append.mp hy with hy | hy
    · exact h1 y (by simp [hy])
    · exact h2 y hy
  · have hlen : 2 ≤ (d :: rest).length := by
      cases rest with
      | nil => exact absurd rfl hrest
      | cons a b => simp
    have e1 : (root ++ (up ++ [d]) ++ [x]).dropLast = root ++ up ++ [d] := by simp [← List.append_assoc]
    have e2 : (root ++ up ++ [d]).dropLast = root ++ up := by simp
    have e3 : (root ++ up ++ [d]).getLast? = some d := by simp
    simp only [candidates, e1, e2, e3, hlen, List.head?_cons, true_and, if_true, joinFile_plain _ _ h1 h2, joinFile_plain _ _ h3 h2,
      List.cons_append, List.nil_append, firstFile, hno, Option.isSome_none, Bool.false_eq_true, if_false]
    rw [List.append_assoc root up, if_pos hd]

/-- C79, partial: if there is no such file either, and none that is found by the end of the directory (C11), the path stands for the
file relative to the directory above. -/
theorem C79_above_partial (P : Program) (W : World) (st : State) (root up : File) (d : Str) (mod path importing : Path) (x : Str)
    (e : Err) (h : Importing P W st root (up ++ [d]) mod path importing x e) (t : Text) (hp : path ≠ [])
    (hr : ∀ part ∈ path, plain part) (hno : W.disk (root ++ up ++ [d] ++ path) = none)
    (hsuf : ∀ f, W.suffixMatch path (root ++ (up ++ [d]) ++ [x]) = some f → W.disk f = none ∨ f = root ++ up ++ path)
    (hd : (W.disk (root ++ up ++ path)).isSome) (hs : shown W st (.file (root ++ up ++ path)) = some t) (hl : t.length ≤ 1048576) :
    ∃ st', find P W st path (some importing) = (st', .ok ⟨mod ++ (up ++ path), .text t⟩) ∧
      st'.uriOf (mod ++ (up ++ path)) = some (.file (root ++ up ++ path)) := by
  have h1 : ∀ part ∈ root ++ up ++ [d], plain part := fun y hy => h.names y (by
    rw [List.append_assoc] at hy; exact List.mem_append_left _ hy)
  have h3 : ∀ part ∈ root ++ up, plain part := fun y hy => h1 y (List.mem_append_left _ hy)
  have e1 : (root ++ (up ++ [d]) ++ [x]).dropLast = root ++ up ++ [d] := by simp [← List.append_assoc]
  have e2 : (root ++ up ++ [d]).dropLast = root ++ up := by simp
  have hf : firstFile W (candidates W path (root ++ (up ++ [d]) ++ [x])) = some (root ++ up ++ path) := by
    have hrest : firstFile W ((W.suffixMatch path (root ++ (up ++ [d]) ++ [x])).toList ++ [root ++ up ++ path]) =
        some (root ++ up ++ path) := by
      cases hsm : W.suffixMatch path (root ++ (up ++ [d]) ++ [x]) with
      | none => simp only [Option.toList_none, List.nil_append, firstFile, hd, if_true]
      | some f =>
        rcases hsuf f hsm with hf | rfl
        · simp only [Option.toList_some, List.cons_append, List.nil_append, firstFile, hf, Option.isSome_none, Bool.false_eq_true,
            if_false, hd, if_true]
        · simp only [Option.toList_some, List.cons_append, firstFile, hd, if_true]
    simp only [candidates, e1, e2, joinFile_plain _ _ h1 hr, joinFile_plain _ _ h3 hr]
    simp only [List.cons_append, List.nil_append, firstFile, hno, Option.isSome_none, Bool.false_eq_true, if_false]
    split
    · simp only [List.cons_append, List.nil_append, firstFile, hd, if_true]
    · simpa using hrest
  rw [List.append_assoc root up] at hd hs hf ⊢
  refine found_in_module h (by simp [hp]) ?_ hf hs hl
  intro y hy
  rcases List.mem_append.mp hy with hy | hy
  · exact h1 y (by simp [hy])
  · exact hr y hy

theorem str_cons (a b : Str) (rest : Path) : Path.str (a :: b :: rest) = a ++ '/' :: Path.str (b :: rest) := by
  simp [Path.str, List.intercalate, List.intersperse]

/-- In a path whose parts do not end with a dot, no dot is followed by a slash or by nothing. -/
theorem str_dot (p : Path) (h : ∀ part ∈ p, part.getLast? ≠ some '.' ∧ '/' ∉ part) (pre post : Str)
    (e : Path.str p = pre ++ '.' :: post) : ∃ c post', post = c :: post' ∧ c ≠ '/' := by
  induction p generalizing pre with
  | nil => simp [Path.str, List.intercalate] at e
  | cons a rest ih =>
    obtain ⟨h1, h2⟩ := h a (by simp)
    cases rest with
    | nil =>
      have e' : a = pre ++ '.' :: post := by simpa [Path.str, List.intercalate] using e
      subst e'
      cases post with
      | nil => simp at h1
      | cons c post' => exact ⟨c, post', rfl, by rintro rfl; simp at h2⟩
    | cons b rest =>
      rw [str_cons, List.append_eq_append_iff] at e
      rcases e with ⟨a', rfl, e⟩ | ⟨c', rfl, e⟩
      · cases a' with
        | nil => simp at e
        | cons x a' =>
          simp only [List.cons_append, List.cons.injEq] at e
          exact ih (fun y hy => h y (List.mem_cons_of_mem _ hy)) a' e.2
      · cases c' with
        | nil => simp at e
        | cons x c' =>
          simp only [List.cons_append, List.cons.injEq] at e
          obtain ⟨rfl, rfl⟩ := e
          cases c' with
          | nil => simp at h1
          | cons c c' => exact ⟨c, _, rfl, by rintro rfl; simp at h2⟩

/-- C79 (part): a path that leads out of its directory is not searched for, neither relative to the importing file nor among the
imports of generated code (parts of the paths of Go packages do not end with a dot): the import fails. -/
theorem C79_outside (P : Program) (W : World) (st : State) (dir importing : Path) (name : Str) (e : Err)
    (hu : st.uriOf (dir ++ [name]) = none) (ho : ∃ base : File, ¬ base <+: walk base dir)
    (hg : ∀ uri imports, W.goImports uri = some imports → ∀ p ∈ imports, ∀ part ∈ p, part.getLast? ≠ some '.' ∧ '/' ∉ part)
    (hn : plain name) (he : (find P W st (dir ++ [name]) none).2 = .error e) :
    find P W st (dir ++ [name]) (some importing) = (st, .error e) := by
  obtain ⟨base, hbase⟩ := ho
  obtain ⟨⟨k, names, hc, hnames⟩, hw⟩ := cleanAux_relative dir 0 [] (by simp)
  simp only [List.reverse_nil, List.replicate_zero, List.append_nil] at hc hw
  have hk : k ≠ 0 := by
    rintro rfl
    have := hw base
    rw [hc, List.replicate_zero, List.nil_append, walk_plain _ _ hnames] at this
    exact hbase ⟨_, this⟩
  obtain ⟨j, rfl⟩ := Nat.exists_eq_succ_of_ne_zero hk
  have hloc : isLocal (dir ++ [name]) = false := by
    cases hp : isLocal (dir ++ [name]) with
    | false => rfl
    | true =>
      exfalso
      have h3 := ((C79_local _).mp hp).2.2
      obtain ⟨n, l, hl⟩ : ∃ (n : Nat) (l : Str), l ≠ [] ∧ l ≠ name ∧ l ∉ names :=
        ⟨0, List.replicate ((name :: names).flatten.length + 1) 'x', by simp, by
          intro h; have := congrArg List.length h; simp at this; omega, by
          intro h
          have : (List.replicate ((name :: names).flatten.length + 1) 'x').length ≤ names.flatten.length := by
            exact (List.sublist_flatten_of_mem h).length_le
          simp at this; omega⟩
      have := h3 (List.replicate (j + 1) l)
      have hup := walk_up [] (List.replicate (j + 1) l)
      rw [List.nil_append, List.length_replicate] at hup
      have e1 := hw (List.replicate (j + 1) l)
      rw [hc, Nat.succ_eq_add_one, walk_append, hup, walk_plain _ _ hnames, List.nil_append] at e1
      rw [walk_append] at this
      have e2 : walk (List.replicate (j + 1) l) dir = names := e1.symm
      rw [e2, walk_plain _ _ (by simpa using hn)] at this
      have hm : l ∈ names ++ [name] := this.subset (by simp)
      simp only [List.mem_append, List.mem_singleton] at hm
      exact hm.elim hl.2.2 hl.2.1
  rw [find_none] at he
  have hlk : findLocked P W st (dir ++ [name]) = (st, .error e) := by
    cases hfl : findLocked P W st (dir ++ [name]) with
    | mk s y =>
      rw [hfl] at he
      simp only at he
      subst he
      rw [findLocked_error hfl]
  have ht : translate W st (dir ++ [name]) importing = (st, none) := by
    unfold translate
    simp only [hu, Option.isSome_none, Bool.false_eq_true, if_false, hloc]
    split <;> rfl
  have hgi : ∀ imports : List Path, (∀ p ∈ imports, ∀ part ∈ p, part.getLast? ≠ some '.' ∧ '/' ∉ part) →
      generatedImport imports (dir ++ [name]) = none := by
    intro imports hi
    have hnone : (imports.filter fun p => (Path.str (List.replicate (j + 1) ['.', '.'] ++ names)).isSuffixOf (Path.str p)) = [] := by
      rw [List.filter_eq_nil_iff]
      intro p hp hs
      obtain ⟨pre, hpre⟩ := List.isSuffixOf_iff_suffix.mp hs
      have : ∃ post, Path.str (List.replicate (j + 1) ['.', '.'] ++ names) = '.' :: '.' :: post ∧ (post = [] ∨ ∃ q, post = '/' :: q) := by
        rw [List.replicate_succ, List.cons_append]
        cases List.replicate j ['.', '.'] ++ names with
        | nil => exact ⟨[], by simp [Path.str, List.intercalate], .inl rfl⟩
        | cons b r => exact ⟨'/' :: Path.str (b :: r), by rw [str_cons]; rfl, .inr ⟨_, rfl⟩⟩
      obtain ⟨post, hstr, hpost⟩ := this
      obtain ⟨c, post', h1, h2⟩ := str_dot p (hi p hp) (pre ++ ['.']) post (by rw [← hpre, hstr]; simp)
      rcases hpost with rfl | ⟨q, rfl⟩
      · simp at h1
      · simp only [List.cons.injEq] at h1
        exact h2 h1.1.symm
    have hne : List.replicate (j + 1) ['.', '.'] ++ names ≠ [] := by simp [List.replicate_succ]
    unfold generatedImport
    simp only [List.dropLast_concat, hc, Nat.succ_eq_add_one, if_neg hne, hnone]
    rfl
  have hrev : reverseLookup W st (dir ++ [name]) importing = none := by
    unfold reverseLookup
    cases W.module? with
    | none => rfl
    | some m =>
      cases hu : st.uriOf importing with
      | none => rfl
      | some uri =>
        cases hgo : W.goImports uri with
        | none => simp [hgo]
        | some imports => simpa [hgo] using hgi imports (hg uri imports hgo)
  simp only [find, hlk, ht, hrev]

/-- C79 (part): the path of a document stands for that document only: if it cannot be read, no other file is found instead. -/
theorem C79_registered (P : Program) (W : World) (st st' : State) (path importing : Path) (e : Err) (hu : (st.uriOf path).isSome)
    (he : find P W st path none = (st', .error e)) : find P W st path (some importing) = (st, .error e) := by
  rw [find_none] at he
  have := findLocked_error he
  subst this
  have ht : translate W st' path importing = (st', some path) := by unfold translate; rw [if_pos hu]
  simp only [find, he, ht]

/-- C79 (part): after a file got another path, it is found by that, and the old path belongs to no document. -/
theorem C79_moved (P : Program) (W : World) (st : State) (f : File) (p : Path) (t : Text) (whence : Option Path)
    (hst : ∀ old, st.pathOf (.file f) = some old → st.uriOf old = some (.file f)) (hw : ¬ BelowGoogle p)
    (hs : shown W st (.file f) = some t) (hl : t.length ≤ 1048576) :
    (find P W (step P W st (.move f p)) p whence).2 = .ok ⟨p, .text t⟩ ∧
    ∀ old, st.pathOf (.file f) = some old → old ≠ p → (step P W st (.move f p)).uriOf old = none := by
  have hu : (step P W st (.move f p)).uriOf p = some (.file f) := by
    simp only [step]
    cases ho : st.pathOf (.file f) with
    | none => simp
    | some old =>
      simp only
      split
      · rename_i h; rw [h]; exact hst old ho
      · rename_i h; simp [upd_other _ _ h]
  refine ⟨?_, ?_⟩
  · rw [C79_document P W _ p f t whence hw hu hs hl]
  · intro old ho hne
    simp only [step, ho, if_neg (Ne.symm hne), upd_same]

/-! ## Examples -/

/-- Files `w/s/t/b.proto`, `w/s/t/c.proto`, `w/s/d.proto`; `w/s/t/c.proto` is what the end of the directory leads to, always. -/
def treeW : World :=
  { demoW with
    disk := fun f =>
      if f = [['w'], ['s'], ['t'], file 'b'] then some ['b']
      else if f = [['w'], ['s'], ['t'], file 'c'] then some ['c']
      else if f = [['w'], ['s'], file 'd'] then some ['d'] else none
    suffixMatch := fun _ _ => some [['w'], ['s'], ['t'], file 'c'] }

/-- `w/s/t/a.proto` of the workspace. -/
def treeSt : State :=
  step demoP treeW State.empty (.create [['w'], ['s'], ['t'], file 'a'] [['m'], ['s'], ['t'], file 'a'] .localGoModule)

theorem tree_importing (W : World) (hm : W.module? = some ([['w']], [['m']])) (path : Path) (hu : treeSt.uriOf path = none)
    (hl : isLocal path = true) (hf : (find demoP W treeSt path none).2 = .error .notExist) :
    Importing demoP W treeSt [['w']] ([['s']] ++ [['t']]) [['m']] path [['m'], ['s'], ['t'], file 'a'] (file 'a') .notExist where
  module := hm
  uri := rfl
  origin := rfl
  unknown := hu
  isLocal := hl
  names := by intro part h; simp only [List.cons_append, List.nil_append, List.mem_cons, List.not_mem_nil, or_false] at h; rcases h with rfl | rfl | rfl | rfl <;> simp [plain]
  mod_ne := by simp
  google := by decide
  fails := hf

/-- `import "x/../b.proto"`. -/
example : ∃ st', find demoP treeW treeSt [['x'], ['.', '.'], file 'b'] (some [['m'], ['s'], ['t'], file 'a']) =
      (st', .ok ⟨[['m'], ['s'], ['t'], file 'b'], .text ['b']⟩) ∧
    st'.uriOf [['m'], ['s'], ['t'], file 'b'] = some (.file [['w'], ['s'], ['t'], file 'b']) :=
  C79_relative_dots_partial demoP treeW treeSt [['w']] ([['s']] ++ [['t']]) [['s'], ['t'], file 'b'] [['m']] _ _ _ .notExist
    (tree_importing treeW rfl _ (by decide +kernel) (by decide) (by decide +kernel)) ['b'] (by decide) (by simp) (by decide) (by decide)
    (by decide)

/-- `import "t/b.proto"`. -/
example : ∃ st', find demoP treeW treeSt [['t'], file 'b'] (some [['m'], ['s'], ['t'], file 'a']) =
      (st', .ok ⟨[['m'], ['s'], ['t'], file 'b'], .text ['b']⟩) ∧
    st'.uriOf [['m'], ['s'], ['t'], file 'b'] = some (.file [['w'], ['s'], ['t'], file 'b']) :=
  C79_duplicated_partial demoP treeW treeSt [['w']] [['s']] ['t'] [file 'b'] [['m']] _ _ .notExist
    (tree_importing treeW rfl _ (by decide +kernel) (by decide) (by decide +kernel)) ['b'] (by simp) (by simp [plain, file, kwProto])
    (by decide) (by decide) (by decide) (by decide)

/-- `import "d.proto"`. -/
example : ∃ st', find demoP { treeW with suffixMatch := fun _ _ => none } treeSt [file 'd'] (some [['m'], ['s'], ['t'], file 'a']) =
      (st', .ok ⟨[['m'], ['s'], file 'd'], .text ['d']⟩) ∧
    st'.uriOf [['m'], ['s'], file 'd'] = some (.file [['w'], ['s'], file 'd']) :=
  C79_above_partial demoP { treeW with suffixMatch := fun _ _ => none } treeSt [['w']] [['s']] ['t'] [['m']] [file 'd'] _ _ .notExist
    (tree_importing _ rfl _ (by decide +kernel) (by decide) (by decide +kernel)) ['d'] (by simp) (by simp [plain, file, kwProto])
    (by decide) (by simp) (by decide) (by decide) (by decide)

/-- `import "../d.proto"` is not found, although the file is there. -/
example : find demoP { treeW with goImports := fun _ => some [[['m'], ['s']]] } treeSt [['.', '.'], file 'd'] (some [['m'], ['s'], ['t'], file 'a']) =
    (treeSt, .error .notExist) :=
  C79_outside demoP _ treeSt [['.', '.']] _ (file 'd') .notExist (by decide +kernel) ⟨[['x']], by decide⟩
    (by rintro _ _ ⟨⟩; simp) (by simp [plain, file, kwProto]) (by decide +kernel)

/-- `w/s/t/a.proto` is not on disk. -/
example : find demoP treeW treeSt [['m'], ['s'], ['t'], file 'a'] (some [['m'], ['s'], ['t'], file 'a']) = (treeSt, .error .notExist) :=
  C79_registered demoP treeW treeSt (find demoP treeW treeSt [['m'], ['s'], ['t'], file 'a'] none).1 _ _ .notExist (by decide +kernel)
    (Prod.ext rfl (by decide +kernel))

example : (find demoP demoW (step demoP demoW demoLocal (.move [['w'], ['s'], file 'a'] [['n'], file 'a'])) [['n'], file 'a'] none).2 =
      .ok ⟨[['n'], file 'a'], .text ['a']⟩ ∧ ∀ old, demoLocal.pathOf (.file [['w'], ['s'], file 'a']) = some old → old ≠ [['n'], file 'a'] →
        (step demoP demoW demoLocal (.move [['w'], ['s'], file 'a'] [['n'], file 'a'])).uriOf old = none :=
  C79_moved demoP demoW demoLocal _ _ ['a'] none (by rintro old ⟨⟩; rfl) (wellKnown_false.mp (by decide)) (by decide) (by decide)

end Verif.FindFile
