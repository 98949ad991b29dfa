import Verif.Model.GenerateWorkspace
import Verif.Props.GenerateCode
/-!
# C114: what generating a workspace leaves on the disk
-/
namespace Verif.GenerateWorkspace

open GenerateCode (Desc Output Sane home root Sibling absolute selected pkgDirs output)
open GoPath (place pathOf Name In)

/-- The files are on the disk: a file that a later one does not replace has its content, and all else is as before. -/
structure Written (wd : Str) (files : List Output) (disk disk' : Disk) : Prop where
  content : ∀ pre o post, files = pre ++ o :: post → (∀ o' ∈ post, locate wd o'.path ≠ locate wd o.path) →
    disk' (locate wd o.path) = some o.content
  rest : ∀ q, (∀ o ∈ files, locate wd o.path ≠ q) → disk' q = disk q

theorem written_nil (wd : Str) (disk : Disk) : Written wd [] disk disk := by
  refine ⟨?_, fun q _ => rfl⟩
  intro pre o post h
  simp at h

theorem written_cons {wd : Str} {o : Output} {os : List Output} {disk disk' : Disk}
    (h : Written wd os (put disk (locate wd o.path) (some o.content)) disk') : Written wd (o :: os) disk disk' := by
  constructor
  · intro pre x post e hp
    cases pre with
    | nil =>
      simp only [List.nil_append, List.cons.injEq] at e
      obtain ⟨rfl, rfl⟩ := e
      rw [h.rest _ hp]
      simp [put]
    | cons y ys =>
      simp only [List.cons_append, List.cons.injEq] at e
      exact h.content ys x post e.2 hp
  · intro q hq
    rw [h.rest q (fun x hx => hq x (by simp [hx]))]
    simp only [put]
    rw [if_neg (fun e => hq o (by simp) e.symm)]

theorem writeAll_ok (wd : Str) (fails : Nat → Option (Option Str)) : ∀ (os : List Output) (k : Nat) (disk : Disk),
    (writeAll wd fails k os disk).2 = true → Written wd os disk (writeAll wd fails k os disk).1
  | [], _, disk, _ => written_nil wd disk
  | o :: os, k, disk, h => by
    simp only [writeAll] at h ⊢
    split at h
    · simp at h
    · exact written_cons (writeAll_ok wd fails os (k + 1) _ h)

theorem writeAll_failed (wd : Str) (fails : Nat → Option (Option Str)) : ∀ (os : List Output) (k : Nat) (disk : Disk),
    (writeAll wd fails k os disk).2 = false → ∃ pre o post left mid, os = pre ++ o :: post ∧ fails (k + pre.length) = some left ∧
      (∀ i < pre.length, fails (k + i) = none) ∧ Written wd pre disk mid ∧
      (writeAll wd fails k os disk).1 = put mid (locate wd o.path) left
  | [], _, disk, h => by simp [writeAll] at h
  | o :: os, k, disk, h => by
    simp only [writeAll] at h ⊢
    cases hk : fails k with
    | some left => exact ⟨[], o, os, left, disk, rfl, by simpa using hk, by simp, written_nil wd disk, rfl⟩
    | none =>
      rw [hk] at h
      obtain ⟨pre, o', post, left, mid, h1, h2, h3, h4, h5⟩ := writeAll_failed wd fails os (k + 1) _ h
      refine ⟨o :: pre, o', post, left, mid, by simp [h1], ?_, ?_, written_cons h4, h5⟩
      · rw [← h2, List.length_cons]; congr 1; omega
      · intro i hi
        cases i with
        | zero => exact hk
        | succ i =>
          rw [← h3 i (by simpa using hi)]
          congr 1; omega

/-- **C114** (success): if no error is returned then all generated files are on the disk, unless a later one has the same place, and nothing else
is changed. -/
theorem C114_written (wd : Str) (compile : List Str → Option (List Desc)) (gen : List Str → Option (List (Str × Str)))
    (fails : Nat → Option (Option Str)) (disk : Disk) (h : (generateWorkspace wd compile gen fails disk).2 = true) :
    ∃ ds files, compile (absolute wd [['.']]) = some ds ∧ gen (selected .localOnly (absolute wd [['.']]) ds) = some files ∧
      Written wd (files.map (output (pkgDirs ds))) disk (generateWorkspace wd compile gen fails disk).1 := by
  unfold generateWorkspace at h ⊢
  simp only [GenerateCode.run] at h ⊢
  cases hc : compile (absolute wd [['.']]) with
  | none => simp [hc] at h
  | some ds =>
    simp only [hc] at h ⊢
    cases hg : gen (selected .localOnly (absolute wd [['.']]) ds) with
    | none => simp [hg] at h
    | some files =>
      simp only [hg] at h ⊢
      exact ⟨ds, files, rfl, hg, writeAll_ok wd fails _ 0 disk h⟩

/-- **C114** (failure): if an error is returned then nothing is changed, or exactly one file could not be written: the files before it are on the
disk, and those after it are as they were. -/
theorem C114_failed (wd : Str) (compile : List Str → Option (List Desc)) (gen : List Str → Option (List (Str × Str)))
    (fails : Nat → Option (Option Str)) (disk : Disk) (h : (generateWorkspace wd compile gen fails disk).2 = false) :
    (generateWorkspace wd compile gen fails disk).1 = disk ∨
      ∃ ds files pre o post left mid, compile (absolute wd [['.']]) = some ds ∧
        gen (selected .localOnly (absolute wd [['.']]) ds) = some files ∧ files.map (output (pkgDirs ds)) = pre ++ o :: post ∧
        fails pre.length = some left ∧ (∀ i < pre.length, fails i = none) ∧ Written wd pre disk mid ∧
        (generateWorkspace wd compile gen fails disk).1 = put mid (locate wd o.path) left := by
  unfold generateWorkspace at h ⊢
  simp only [GenerateCode.run] at h ⊢
  cases hc : compile (absolute wd [['.']]) with
  | none => simp
  | some ds =>
    simp only [hc] at h ⊢
    cases hg : gen (selected .localOnly (absolute wd [['.']]) ds) with
    | none => simp
    | some files =>
      simp only [hg] at h ⊢
      obtain ⟨pre, o, post, left, mid, h1, h2, h3, h4, h5⟩ := writeAll_failed wd fails _ 0 disk h
      simp only [Nat.zero_add] at h2 h3
      exact .inr ⟨ds, files, pre, o, post, left, mid, rfl, hg, h1, h2, h3, h4, h5⟩

/-- **C114** (errors): an error is returned exactly if compiling, generating or one of the writes fails. -/
theorem C114_error (wd : Str) (compile : List Str → Option (List Desc)) (gen : List Str → Option (List (Str × Str)))
    (fails : Nat → Option (Option Str)) (disk : Disk) :
    (generateWorkspace wd compile gen fails disk).2 = true ↔ ∃ ds files, compile (absolute wd [['.']]) = some ds ∧
      gen (selected .localOnly (absolute wd [['.']]) ds) = some files ∧ ∀ i < files.length, fails i = none := by
  constructor
  · intro h
    obtain ⟨ds, files, hc, hg, -⟩ := C114_written wd compile gen fails disk h
    refine ⟨ds, files, hc, hg, ?_⟩
    unfold generateWorkspace at h
    simp only [GenerateCode.run, hc, hg] at h
    have key : ∀ (os : List Output) (k : Nat) (disk : Disk), (writeAll wd fails k os disk).2 = true → ∀ i < os.length, fails (k + i) = none := by
      intro os
      induction os with
      | nil => simp
      | cons o os ih =>
        intro k disk h i hi
        simp only [writeAll] at h
        cases hk : fails k with
        | some left => simp [hk] at h
        | none =>
          simp only [hk] at h
          cases i with
          | zero => exact hk
          | succ i =>
            rw [← ih (k + 1) _ h i (by simpa using hi)]
            congr 1; omega
    intro i hi
    have := key _ 0 disk h i (by simpa using hi)
    simpa using this
  · rintro ⟨ds, files, hc, hg, hf⟩
    cases hr : (generateWorkspace wd compile gen fails disk).2 with
    | true => rfl
    | false =>
      exfalso
      unfold generateWorkspace at hr
      simp only [GenerateCode.run, hc, hg] at hr
      obtain ⟨pre, o, post, left, mid, h1, h2, -⟩ := writeAll_failed wd fails _ 0 disk hr
      have hl : pre.length < files.length := by
        have := congrArg List.length h1
        simp at this
        omega
      simp only [Nat.zero_add] at h2
      rw [hf _ hl] at h2
      cases h2

/-- **C114** (selection): the documents for which code is generated are those of the workspace that are below the working directory, or below a
sibling whose name begins with its name (`C86_sibling_violated`). -/
theorem C114_selected_partial (wd : Str) (hwd : wd.head? = some '/') (ds : List Desc) (h : Sane ds)
    (hl : ∀ d ∈ ds, d.local_ = true → d.file.isSome) (p : Str) :
    p ∈ selected .localOnly (absolute wd [['.']]) ds ↔
      ∃ d ∈ ds, d.path = p ∧ d.local_ = true ∧ ∃ f, d.file = some f ∧ (place wd <+: home f ∨ Sibling (place wd) (home f)) := by
  rw [GenerateCode.C86_selected_partial wd hwd [['.']] (by simp) ds h hl]
  have hr : root wd ['.'] = place wd := by
    unfold root
    rw [if_neg (by simp)]
    rfl
  simp only [List.mem_singleton, exists_eq_left, GenerateCode.Below, hr]

/-- **C114** (place): after a success, a file that was generated into the directory of the import path of a document is in the directory of the
document with its content, if no later file has the same place. (Partial: see `C114_collision_violated` and `C86_go_package_violated`.) -/
theorem C114_beside_partial (wd : Str) (compile : List Str → Option (List Desc)) (gen : List Str → Option (List (Str × Str)))
    (fails : Nat → Option (Option Str)) (disk : Disk) (h : (generateWorkspace wd compile gen fails disk).2 = true)
    (ds : List Desc) (hc : compile (absolute wd [['.']]) = some ds) (pre post : List (Str × Str)) (name content : Str)
    (hg : gen (selected .localOnly (absolute wd [['.']]) ds) = some (pre ++ (name, content) :: post)) (hs : Sane ds) (d : Desc) (hd : d ∈ ds)
    (f k x b : Str) (hf : d.file = some f) (hk : In k x d.path) (hn : In k b name) (hk0 : k ≠ ['.'])
    (hlast : ∀ o ∈ post, locate wd (output (pkgDirs ds) o).path ≠ home f ++ [b]) :
    (generateWorkspace wd compile gen fails disk).1 (home f ++ [b]) = some content := by
  obtain ⟨ds', files, hc', hg', hw⟩ := C114_written wd compile gen fails disk h
  rw [hc] at hc'
  cases hc'
  rw [hg] at hg'
  cases hg'
  have hp := (GenerateCode.C86_place_partial ds hs d hd f k x b name content hf hk hn hk0).1
  have hloc : locate wd (output (pkgDirs ds) (name, content)).path = home f ++ [b] := by
    rw [hp]
    unfold locate root
    rw [if_pos (by simp [pathOf]), GoPath.place_pathOf]
    intro y hy
    simp only [List.mem_append, List.mem_singleton] at hy
    rcases hy with hy | rfl
    · exact GenerateCode.home_names f y hy
    · exact hn.1
  have := hw.content (pre.map (output (pkgDirs ds))) (output (pkgDirs ds) (name, content)) (post.map (output (pkgDirs ds))) (by simp) (by
    intro o ho
    obtain ⟨y, hy, rfl⟩ := List.mem_map.1 ho
    rw [hloc]
    exact hlast y hy)
  rw [hloc] at this
  exact this

/-- Files of the well-known packages from two modules. -/
def two : List (Str × Str) := [(['a', '/'] ++ GenerateCode.google ++ ['x', '/', 'f'], ['1']), (['b', '/'] ++ GenerateCode.google ++ ['x', '/', 'f'], ['2'])]

/-- C114 is violated: of two files that are generated into directories with `google/` in their names, one replaces the other, without an error. -/
theorem C114_collision_violated :
    (generateWorkspace ['/', 'w'] (fun _ => some []) (fun _ => some two) (fun _ => none) fun _ => none).2 = true ∧
    ∀ q, (generateWorkspace ['/', 'w'] (fun _ => some []) (fun _ => some two) (fun _ => none) fun _ => none).1 q ≠ some ['1'] := by
  have h1 : locate ['/', 'w'] (output (pkgDirs []) (['a', '/'] ++ GenerateCode.google ++ ['x', '/', 'f'], ['1'])).path =
      locate ['/', 'w'] (output (pkgDirs []) (['b', '/'] ++ GenerateCode.google ++ ['x', '/', 'f'], ['2'])).path := by decide +kernel
  have h2 : (output (pkgDirs []) (['b', '/'] ++ GenerateCode.google ++ ['x', '/', 'f'], ['2'])).content = ['2'] := rfl
  refine ⟨rfl, fun q => ?_⟩
  simp only [generateWorkspace, GenerateCode.run, two, List.map_cons, List.map_nil, writeAll, put]
  rw [h1, h2]
  split
  · simp
  · simp

/-- C114 is violated: if a write fails, the files before it are written. -/
theorem C114_atomic_violated (wd : Str) (disk : Disk) (a b : Str × Str) (left : Option Str)
    (hab : locate wd (output (pkgDirs []) a).path ≠ locate wd (output (pkgDirs []) b).path) :
    let r := generateWorkspace wd (fun _ => some []) (fun _ => some [a, b]) (fun k => if k = 1 then some left else none) disk
    r.2 = false ∧ r.1 (locate wd (output (pkgDirs []) a).path) = some a.2 := by
  simp [generateWorkspace, GenerateCode.run, writeAll, put, hab]
  rfl

namespace Example

/-- A document `/w/a/y` and a file that is generated for it. -/
def ds : List Desc := [⟨['m', '/', 'a', '/', 'y'], some ['/', 'w', '/', 'a', '/', 'y'], ['p'], true⟩]

def files : List (Str × Str) := [(['m', '/', 'a', '/', 'g'], ['c'])]

example : (generateWorkspace ['/', 'w'] (fun _ => some ds) (fun l => if l = [['m', '/', 'a', '/', 'y']] then some files else none) (fun _ => none)
    fun _ => none).2 = true := by decide +kernel

example : (generateWorkspace ['/', 'w'] (fun _ => some ds) (fun l => if l = [['m', '/', 'a', '/', 'y']] then some files else none) (fun _ => none)
    fun _ => none).1 [['w'], ['a'], ['g']] = some ['c'] := by decide +kernel

example : (generateWorkspace ['/', 'w'] (fun _ => some ds) (fun _ => some files) (fun _ => some none) fun _ => some ['o']).2 = false := by
  decide +kernel

end Example

end Verif.GenerateWorkspace
