import Verif.Model.PrintFiles
import Verif.Lemmas.GoPath
/-!
# C116: printing many files
-/
namespace Verif.PrintFiles

open GenerateWorkspace (Disk locate put)

/-- The events of a file that is printed: its writer is opened, used and closed. -/
def session (E : Env) (k : Nat) (fd : Fd) : List Ev := [.opened k fd.name, .wrote k fd.name (E.prints k fd).1, .closed k (E.closes k)]

/-- The events of files that are printed one after the other. -/
def sessions (E : Env) : Nat → List Fd → List Ev
  | _, [] => []
  | k, fd :: fds => session E k fd ++ sessions E (k + 1) fds

theorem printFiles_ok (E : Env) : ∀ (fds : List Fd) (k : Nat), (printFiles E k fds).2 = true →
    (printFiles E k fds).1 = sessions E k fds ∧ ∀ i fd, fds[i]? = some fd → E.opens (k + i) fd.name = true ∧ (E.prints (k + i) fd).2 = true
  | [], k, _ => ⟨rfl, by simp⟩
  | fd :: fds, k, h => by
    simp only [printFiles] at h ⊢
    cases ho : E.opens k fd.name with
    | false => simp [ho] at h
    | true =>
      cases hp : (E.prints k fd).2 with
      | false => simp [ho, hp] at h
      | true =>
        simp only [ho, hp, Bool.not_true, Bool.false_eq_true, if_false] at h ⊢
        obtain ⟨h1, h2⟩ := printFiles_ok E fds (k + 1) h
        refine ⟨by rw [h1]; rfl, ?_⟩
        intro i x hx
        cases i with
        | zero =>
          simp only [List.getElem?_cons_zero, Option.some.injEq] at hx
          subst hx
          exact ⟨ho, hp⟩
        | succ i =>
          have := h2 i x (by simpa using hx)
          rwa [show k + (i + 1) = k + 1 + i by omega]

theorem printFiles_error (E : Env) : ∀ (fds : List Fd) (k : Nat), (printFiles E k fds).2 = false →
    ∃ pre fd post, fds = pre ++ fd :: post ∧
      (∀ i x, pre[i]? = some x → E.opens (k + i) x.name = true ∧ (E.prints (k + i) x).2 = true) ∧
      ((E.opens (k + pre.length) fd.name = false ∧ (printFiles E k fds).1 = sessions E k pre ++ [.refused (k + pre.length) fd.name]) ∨
       (E.opens (k + pre.length) fd.name = true ∧ (E.prints (k + pre.length) fd).2 = false ∧
        (printFiles E k fds).1 = sessions E k pre ++ session E (k + pre.length) fd))
  | [], k, h => by simp [printFiles] at h
  | fd :: fds, k, h => by
    simp only [printFiles] at h ⊢
    cases ho : E.opens k fd.name with
    | false => exact ⟨[], fd, fds, rfl, by simp, .inl ⟨by simpa using ho, by simp [sessions]⟩⟩
    | true =>
      cases hp : (E.prints k fd).2 with
      | false => exact ⟨[], fd, fds, rfl, by simp, .inr ⟨by simpa using ho, by simpa using hp, by simp [sessions, session]⟩⟩
      | true =>
        simp only [ho, hp, Bool.not_true, Bool.false_eq_true, if_false] at h ⊢
        obtain ⟨pre, x, post, h1, h2, h3⟩ := printFiles_error E fds (k + 1) h
        have e : k + 1 + pre.length = k + (fd :: pre).length := by simp only [List.length_cons]; omega
        refine ⟨fd :: pre, x, post, by rw [h1]; rfl, ?_, ?_⟩
        · intro i y hy
          cases i with
          | zero =>
            simp only [List.getElem?_cons_zero, Option.some.injEq] at hy
            subst hy
            exact ⟨ho, hp⟩
          | succ i =>
            have := h2 i y (by simpa using hy)
            rwa [show k + (i + 1) = k + 1 + i by omega]
        · rw [e] at h3
          rcases h3 with ⟨a, b⟩ | ⟨a, b, c⟩
          · exact .inl ⟨a, by rw [b]; simp [sessions, session]⟩
          · exact .inr ⟨a, b, by rw [c]; simp [sessions, session]⟩

/-- **C116** (success): no error is returned exactly if all files can be opened and printed. -/
theorem C116_success (E : Env) (fds : List Fd) :
    (printFiles E 0 fds).2 = true ↔ ∀ i fd, fds[i]? = some fd → E.opens i fd.name = true ∧ (E.prints i fd).2 = true := by
  constructor
  · intro h i fd hi
    simpa using (printFiles_ok E fds 0 h).2 i fd hi
  · intro h
    cases hr : (printFiles E 0 fds).2 with
    | true => rfl
    | false =>
      obtain ⟨pre, fd, post, h1, -, h3⟩ := printFiles_error E fds 0 hr
      have := h pre.length fd (by simp [h1])
      rcases h3 with ⟨a, -⟩ | ⟨-, b, -⟩
      · rw [Nat.zero_add, this.1] at a
        cases a
      · rw [Nat.zero_add, this.2] at b
        cases b

/-- **C116** (order): without an error all files are printed, in order and one after the other. -/
theorem C116_all (E : Env) (fds : List Fd) (h : (printFiles E 0 fds).2 = true) : (printFiles E 0 fds).1 = sessions E 0 fds :=
  (printFiles_ok E fds 0 h).1

/-- **C116** (errors): after an error the files before the one that could not be opened or printed are printed, and those behind it are not
opened. -/
theorem C116_error (E : Env) (fds : List Fd) (h : (printFiles E 0 fds).2 = false) :
    ∃ pre fd post, fds = pre ++ fd :: post ∧ ((E.opens pre.length fd.name = false ∧ (printFiles E 0 fds).1 = sessions E 0 pre ++ [.refused pre.length fd.name]) ∨
       ((E.prints pre.length fd).2 = false ∧ (printFiles E 0 fds).1 = sessions E 0 pre ++ session E pre.length fd)) := by
  obtain ⟨pre, fd, post, h1, -, h3⟩ := printFiles_error E fds 0 h
  rw [Nat.zero_add] at h3
  exact ⟨pre, fd, post, h1, h3.imp_right fun x => x.2⟩

/-- How many writers are open. -/
def openWriters : List Ev → Int
  | [] => 0
  | .opened .. :: l => 1 + openWriters l
  | .closed .. :: l => -1 + openWriters l
  | _ :: l => openWriters l

theorem openWriters_append : ∀ a b : List Ev, openWriters (a ++ b) = openWriters a + openWriters b
  | [], b => by simp [openWriters]
  | e :: a, b => by
    cases e <;> simp only [List.cons_append, openWriters, openWriters_append a b] <;> omega

/-- **C116** (writers): at the end no writer is open, with or without an error; at no time are two open, and none is closed that is not open. -/
theorem C116_closed (E : Env) : ∀ (fds : List Fd) (k : Nat), openWriters (printFiles E k fds).1 = 0 ∧
    ∀ pre post, (printFiles E k fds).1 = pre ++ post → 0 ≤ openWriters pre ∧ openWriters pre ≤ 1
  | [], k => by
    refine ⟨rfl, ?_⟩
    intro pre post h
    have : pre = [] := by
      have h' := congrArg List.length h
      simp only [printFiles, List.length_nil, List.length_append] at h'
      exact List.eq_nil_of_length_eq_zero (by omega)
    subst this
    decide
  | fd :: fds, k => by
    simp only [printFiles]
    cases ho : E.opens k fd.name with
    | false =>
      refine ⟨rfl, ?_⟩
      intro pre post h
      simp only [Bool.not_false, if_true] at h
      rcases pre with _ | ⟨a, _ | ⟨b, pre⟩⟩
      · decide
      · simp only [List.cons_append, List.cons.injEq] at h
        rw [← h.1]
        simp [openWriters]
      · simp at h
    | true =>
      cases hp : (E.prints k fd).2 with
      | false =>
        simp only [Bool.not_true, Bool.not_false, Bool.false_eq_true, if_false, if_true]
        refine ⟨rfl, ?_⟩
        intro pre post h
        rcases pre with _ | ⟨a, _ | ⟨b, _ | ⟨c, _ | ⟨d, pre⟩⟩⟩⟩
        · decide
        all_goals simp only [List.cons_append, List.nil_append, List.cons.injEq] at h
        · rw [← h.1]; simp [openWriters]
        · rw [← h.1, ← h.2.1]; simp [openWriters]
        · rw [← h.1, ← h.2.1, ← h.2.2.1]; simp [openWriters]
        · simp at h
      | true =>
        simp only [Bool.not_true, Bool.false_eq_true, if_false]
        obtain ⟨h1, h2⟩ := C116_closed E fds (k + 1)
        refine ⟨by simp [openWriters, h1], ?_⟩
        intro pre post h
        rcases pre with _ | ⟨a, _ | ⟨b, _ | ⟨c, pre⟩⟩⟩
        · decide
        all_goals simp only [List.cons_append, List.nil_append, List.cons.injEq] at h
        · rw [← h.1]; simp [openWriters]
        · rw [← h.1, ← h.2.1]; simp [openWriters]
        · obtain ⟨e1, e2, e3, e4⟩ := h
          have := h2 pre post e4
          rw [← e1, ← e2, ← e3]
          simp only [openWriters]
          omega

/-! ## The disk -/

theorem effect_session (wd rootDir : Str) (E : Env) (k : Nat) (fd : Fd) (disk : Disk) :
    (session E k fd).foldl (effect wd rootDir) disk = put disk (placeOf wd rootDir fd.name) (some (E.prints k fd).1) := by
  funext q
  simp only [session, List.foldl_cons, List.foldl_nil, effect, put]
  split <;> rfl

theorem effect_sessions (wd rootDir : Str) (E : Env) : ∀ (fds : List Fd) (k : Nat) (disk : Disk),
    (∀ q, (∀ fd ∈ fds, placeOf wd rootDir fd.name ≠ q) → (sessions E k fds).foldl (effect wd rootDir) disk q = disk q) ∧
    ∀ pre fd post, fds = pre ++ fd :: post → (∀ x ∈ post, placeOf wd rootDir x.name ≠ placeOf wd rootDir fd.name) →
      (sessions E k fds).foldl (effect wd rootDir) disk (placeOf wd rootDir fd.name) = some (E.prints (k + pre.length) fd).1
  | [], k, disk => ⟨fun q _ => rfl, fun pre fd post h => by simp at h⟩
  | fd :: fds, k, disk => by
    obtain ⟨h1, h2⟩ := effect_sessions wd rootDir E fds (k + 1) (put disk (placeOf wd rootDir fd.name) (some (E.prints k fd).1))
    simp only [sessions, List.foldl_append, effect_session]
    constructor
    · intro q hq
      rw [h1 q (fun x hx => hq x (by simp [hx]))]
      simp only [put]
      rw [if_neg (fun e => hq fd (by simp) e.symm)]
    · intro pre x post e hp
      cases pre with
      | nil =>
        simp only [List.nil_append, List.cons.injEq] at e
        obtain ⟨rfl, rfl⟩ := e
        rw [h1 _ hp]
        simp [put]
      | cons y ys =>
        simp only [List.cons_append, List.cons.injEq] at e
        rw [h2 ys x post e.2 hp]
        simp only [List.length_cons]
        rw [show k + 1 + ys.length = k + (ys.length + 1) by omega]

/-- **C116** (disk): without an error, each file whose name no later file has is on the disk below the root with what was printed, and nothing else
is changed. (Partial: the name is not the path of the file, see `C116_path_violated`, and files of a package have the same name, see
`C116_package_violated`.) -/
theorem C116_disk_partial (wd rootDir : Str) (E : Env) (fds : List Fd) (disk : Disk) (h : (printToFileSystem wd rootDir E fds disk).2 = true) :
    (∀ q, (∀ fd ∈ fds, placeOf wd rootDir fd.name ≠ q) → (printToFileSystem wd rootDir E fds disk).1 q = disk q) ∧
    ∀ pre fd post, fds = pre ++ fd :: post → (∀ x ∈ post, placeOf wd rootDir x.name ≠ placeOf wd rootDir fd.name) →
      (printToFileSystem wd rootDir E fds disk).1 (placeOf wd rootDir fd.name) = some (E.prints pre.length fd).1 := by
  have h0 := C116_all E fds h
  simp only [printToFileSystem, h0]
  simpa using effect_sessions wd rootDir E fds 0 disk

/-- **C116** (places): below an absolute root directory, a file is in the directory itself under its name, wherever the program was started. -/
theorem C116_place (wd rootDir name : Str) (hr : rootDir.head? = some '/') (hn : GoPath.Name name) :
    placeOf wd rootDir name = GoPath.place rootDir ++ [name] := by
  have hb : name ≠ [] := hn.1.1
  have ha : rootDir ≠ [] := by
    rintro rfl
    cases hr
  have hj : GoPath.join rootDir name = GoPath.clean (rootDir ++ '/' :: name) := by
    unfold GoPath.join
    rw [if_neg ha, if_neg hb]
  have hh : (rootDir ++ '/' :: name).head? = some '/' := by
    rw [List.head?_append, hr]
    rfl
  have hc : (GoPath.clean (rootDir ++ '/' :: name)).head? = some '/' := by
    rw [GoPath.clean_rooted _ hh]
    rfl
  unfold placeOf locate GenerateCode.root
  rw [hj, if_pos hc, GoPath.place_clean _ hh, GoPath.place_append_name _ _ hn]

/-- **C116** (packages): if the last components of the packages are different, all files are below the root directory afterwards. -/
theorem C116_distinct_partial (wd rootDir : Str) (E : Env) (fds : List Fd) (disk : Disk) (hr : rootDir.head? = some '/')
    (hn : ∀ fd ∈ fds, GoPath.Name fd.name) (hd : (fds.map Fd.name).Nodup) (h : (printToFileSystem wd rootDir E fds disk).2 = true) :
    ∀ i fd, fds[i]? = some fd → (printToFileSystem wd rootDir E fds disk).1 (GoPath.place rootDir ++ [fd.name]) = some (E.prints i fd).1 := by
  intro i fd hi
  obtain ⟨hlt, he⟩ := List.getElem?_eq_some_iff.1 hi
  have hsplit : fds = fds.take i ++ fd :: fds.drop (i + 1) := by
    rw [← he, List.getElem_cons_drop, List.take_append_drop]
  have hmem : fd ∈ fds := List.mem_of_getElem? hi
  rw [← C116_place wd rootDir fd.name hr (hn fd hmem)]
  have hlen : (fds.take i).length = i := by simp; omega
  have key := (C116_disk_partial wd rootDir E fds disk h).2 (fds.take i) fd (fds.drop (i + 1)) hsplit ?_
  · rwa [hlen] at key
  · intro x hx e
    have hx' : x ∈ fds := List.mem_of_mem_drop hx
    rw [C116_place wd rootDir _ hr (hn x hx'), C116_place wd rootDir _ hr (hn fd hmem)] at e
    have e' : x.name = fd.name := by simpa using e
    rw [hsplit, List.map_append, List.map_cons, List.nodup_append] at hd
    exact (List.nodup_cons.1 hd.2.1).1 (List.mem_map.2 ⟨x, hx, e'⟩)

/-! ## Violations -/

theorem no_dot (fd : Fd) : '.' ∉ fd.name := by
  intro h
  have h1 : '.' ∈ fd.pkg.reverse.takeWhile (· ≠ '.') := by simpa [Fd.name] using h
  have := List.all_eq_true.1 List.all_takeWhile _ h1
  simp at this

/-- `open` is not given the name of the file, as the comment says, but the last component of its package: no name with an extension ever is. -/
theorem C116_path_violated (E : Env) (path : Str) (hp : '.' ∈ path) : ∀ (fds : List Fd) (k j : Nat),
    Ev.opened j path ∉ (printFiles E k fds).1 ∧ Ev.refused j path ∉ (printFiles E k fds).1
  | [], k, j => by simp [printFiles]
  | fd :: fds, k, j => by
    have hn : path ≠ fd.name := fun e => no_dot fd (e ▸ hp)
    have ih := C116_path_violated E path hp fds (k + 1) j
    simp only [printFiles]
    cases E.opens k fd.name <;> cases (E.prints k fd).2 <;> simp [hn, ih]

/-- Of two files of the same package only the later one remains, and no error is returned. -/
theorem C116_package_violated (wd rootDir : Str) (E : Env) (a b : Fd) (disk : Disk) (hab : a.pkg = b.pkg)
    (h : (printToFileSystem wd rootDir E [a, b] disk).2 = true) :
    (printToFileSystem wd rootDir E [a, b] disk).1 (placeOf wd rootDir a.name) = some (E.prints 1 b).1 ∧
    ∀ q, q ≠ placeOf wd rootDir a.name → (printToFileSystem wd rootDir E [a, b] disk).1 q = disk q := by
  obtain ⟨h1, h2⟩ := C116_disk_partial wd rootDir E [a, b] disk h
  have hn : a.name = b.name := by simp [Fd.name, hab]
  constructor
  · rw [hn]
    exact h2 [a] b [] rfl (by simp)
  · intro q hq
    refine h1 q ?_
    simp only [List.mem_cons, List.not_mem_nil, or_false]
    rintro x (rfl | rfl)
    · exact hq.symm
    · rw [← hn]; exact hq.symm

/-- An error of `Close`, which may mean that the text was not stored, is not returned. -/
theorem C116_close_violated (E : Env) (closes : Nat → Bool) : ∀ (fds : List Fd) (k : Nat),
    (printFiles { E with closes := closes } k fds).2 = (printFiles E k fds).2
  | [], _ => rfl
  | fd :: fds, k => by
    have ih := C116_close_violated E closes fds (k + 1)
    simp only [printFiles, ih]
    cases E.opens k fd.name <;> cases (E.prints k fd).2 <;> rfl

/-! ## Examples -/

namespace Example

def env : Env := ⟨fun _ _ => true, fun _ fd => (fd.path ++ ['!'], true), fun _ => false⟩

/-- The second file cannot be printed. -/
def bad : Env := ⟨fun _ _ => true, fun k fd => (fd.path, k != 1), fun _ => true⟩

def a : Fd := ⟨['a', '.', 'p'], ['x', '.', 'y']⟩
def b : Fd := ⟨['b', '.', 'p'], ['x', '.', 'y']⟩
def c : Fd := ⟨['c', '.', 'p'], ['z']⟩

example : (printFiles env 0 [a, c]).2 = true := (C116_success env [a, c]).2 (by
  intro i fd _
  exact ⟨rfl, rfl⟩)

example : (printFiles env 0 [a, c]).1 = sessions env 0 [a, c] := C116_all env _ (by decide)

example : (printFiles bad 0 [a, b, c]).1 = sessions bad 0 [a] ++ session bad 1 b := by decide +kernel

example : ∃ pre fd post, [a, b, c] = pre ++ fd :: post ∧ ((bad.opens pre.length fd.name = false ∧
    (printFiles bad 0 [a, b, c]).1 = sessions bad 0 pre ++ [.refused pre.length fd.name]) ∨
    ((bad.prints pre.length fd).2 = false ∧ (printFiles bad 0 [a, b, c]).1 = sessions bad 0 pre ++ session bad pre.length fd)) :=
  C116_error bad _ (by decide)

/-- Two packages: both files are there, as `/r/y` and `/r/z`. -/
example : (printToFileSystem ['/'] ['/', 'r'] env [a, c] fun _ => none).1 (placeOf ['/'] ['/', 'r'] ['y']) = some ['a', '.', 'p', '!'] :=
  (C116_disk_partial ['/'] ['/', 'r'] env [a, c] (fun _ => none) (by decide)).2 [] a [c] rfl (by decide +kernel)

example : placeOf ['w'] ['/', 'r', '/', '.'] ['y'] = [['r'], ['y']] := by
  rw [C116_place _ _ _ rfl ⟨⟨by simp, by simp, by simp⟩, by simp⟩]
  decide +kernel

/-- Both files, wherever the program runs. -/
example : (printToFileSystem ['w'] ['/', 'r'] env [a, c] fun _ => none).1 [['r'], ['z']] = some ['c', '.', 'p', '!'] := by
  have h := C116_distinct_partial ['w'] ['/', 'r'] env [a, c] (fun _ => none) rfl ?_ (by decide +kernel) (by decide +kernel) 1 c rfl
  · exact h
  · have ha : a.name = ['y'] := by decide +kernel
    have hc : c.name = ['z'] := by decide +kernel
    simp [ha, hc, GoPath.Name, FindFile.plain]

/-- One package: the first file is lost. -/
example : (printToFileSystem ['/'] ['/', 'r'] env [a, b] fun _ => none).1 (placeOf ['/'] ['/', 'r'] ['y']) = some ['b', '.', 'p', '!'] :=
  (C116_package_violated ['/'] ['/', 'r'] env a b (fun _ => none) rfl (by decide)).1

/-- The path of the file is not where it is written. -/
example : Ev.opened 0 a.path ∉ (printFiles env 0 [a]).1 := (C116_path_violated env a.path (by decide) [a] 0 0).1

end Example

end Verif.PrintFiles
