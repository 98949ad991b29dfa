import Verif.Model.References
import Mathlib.Data.List.Nodup
/-!
# Properties of the references request: C61
-/
namespace Verif.References

/-- C61: for a type, the request without the declaration gives all references; with the declaration it gives the
declaration in front of them. -/
theorem C61_type (doc : Str) (d : Loc) (refs : List Loc) :
    findReferences doc false (.type (some d) refs) = some refs ∧
    (findReferences doc true (.type (some d) refs)) = (findReferences doc false (.type (some d) refs)).map (d :: ·) ∧
    findReferences doc false (.type none refs) = some refs := ⟨rfl, rfl, rfl⟩

/-- Specification: a valid file has at most one package statement. -/
def Valid (f : File) : Prop := f.pkgs.length ≤ 1

/-- Specification: the location of a package statement that a file has and that the request finds. -/
def Declares (name : Str) (pm : Bool) (f : File) (l : Loc) : Prop :=
  f.usable = true ∧ f.uri = some l.uri ∧ ∃ parts, (l.decl, parts) ∈ f.pkgs ∧
    if parts.length ≤ 1 ∨ pm = false then l.parts = parts.length
    else 0 < l.parts ∧ l.parts ≤ parts.length ∧ joinWith '.' (parts.take l.parts) = name ∧
      ∀ n, 0 < n → n < l.parts → joinWith '.' (parts.take n) ≠ name

theorem prefixLen_iff {name : Str} {parts : List Str} {n : Nat} : prefixLen name parts = some n ↔
    0 < n ∧ n ≤ parts.length ∧ joinWith '.' (parts.take n) = name ∧ ∀ k, 0 < k → k < n → joinWith '.' (parts.take k) ≠ name := by
  unfold prefixLen
  rw [Option.map_eq_some_iff]
  constructor
  · rintro ⟨i, hi, rfl⟩
    rw [List.find?_range_eq_some] at hi
    obtain ⟨h1, h2, h3⟩ := hi
    refine ⟨by omega, ?_, of_decide_eq_true h1, fun k k1 k2 e => ?_⟩
    · have := List.mem_range.1 h2; omega
    · have := h3 (k - 1) (by omega)
      rw [show k - 1 + 1 = k by omega] at this
      simp [e] at this
  · rintro ⟨h1, h2, h3, h4⟩
    refine ⟨n - 1, ?_, by omega⟩
    rw [List.find?_range_eq_some]
    refine ⟨?_, List.mem_range.2 (by omega), fun j hj => ?_⟩
    · rw [show n - 1 + 1 = n by omega]; exact decide_eq_true h3
    · have := h4 (j + 1) (by omega) (by omega)
      simpa using this

theorem pkgRange_iff {name : Str} {pm : Bool} {parts : List Str} {n : Nat} : pkgRange name pm parts = some n ↔
    if parts.length ≤ 1 ∨ pm = false then n = parts.length
    else 0 < n ∧ n ≤ parts.length ∧ joinWith '.' (parts.take n) = name ∧ ∀ k, 0 < k → k < n → joinWith '.' (parts.take k) ≠ name := by
  unfold pkgRange
  split
  · exact ⟨fun h => (Option.some.inj h).symm, fun h => by rw [h]⟩
  · exact prefixLen_iff

/-- C61: for a package name, the request with the declaration gives the location of the package statement of each
file that has one, in valid files. -/
theorem C61_package_all (doc : Str) (files : List File) (name : Str) (pm : Bool) (hv : ∀ f ∈ files, Valid f) :
    ∃ locs, findReferences doc true (.package files name pm) = some locs ∧ ∀ l, l ∈ locs ↔ ∃ f ∈ files, Declares name pm f l := by
  refine ⟨_, rfl, fun l => ?_⟩
  unfold packageRefs
  rw [List.mem_flatMap]
  constructor
  · rintro ⟨f, hf, hl⟩
    refine ⟨f, hf, ?_⟩
    split at hl
    · rename_i hu
      cases hur : f.uri with
      | none => rw [hur] at hl; cases hl
      | some u =>
        rw [hur] at hl
        simp only at hl
        have hlen := hv f hf
        unfold Valid at hlen
        match hp : f.pkgs, hlen with
        | [], _ => rw [hp] at hl; cases hl
        | [d], _ =>
          rw [hp] at hl
          unfold fileLocs at hl
          cases hr : pkgRange name pm d.2 with
          | none => rw [hr] at hl; cases hl
          | some n =>
            rw [hr] at hl
            unfold fileLocs at hl
            rw [List.mem_singleton] at hl
            subst hl
            exact ⟨hu, hur, d.2, by rw [hp]; simp, pkgRange_iff.1 hr⟩
    · cases hl
  · rintro ⟨f, hf, h1, h2, parts, h3, h4⟩
    refine ⟨f, hf, ?_⟩
    rw [if_pos h1, h2]
    simp only
    have hlen := hv f hf
    unfold Valid at hlen
    match hp : f.pkgs, hlen with
    | [], _ => rw [hp] at h3; cases h3
    | [d], _ =>
      rw [hp, List.mem_singleton] at h3
      unfold fileLocs
      have hr := pkgRange_iff.2 h4
      subst h3
      rw [hr]
      simp [fileLocs]

/-- C61: for a package name, the request without the declaration leaves out exactly the package statement of the
document itself. -/
theorem C61_package (doc : Str) (files : List File) (name : Str) (pm : Bool) (hv : ∀ f ∈ files, Valid f) :
    ∃ locs, findReferences doc false (.package files name pm) = some locs ∧
      ∀ l, l ∈ locs ↔ (∃ f ∈ files, Declares name pm f l) ∧ ¬ ∃ f ∈ files, f.uri = some doc ∧ Declares name pm f l := by
  obtain ⟨locs, h1, h2⟩ := C61_package_all doc files name pm hv
  have e : locs = packageRefs files name pm := (Option.some.inj h1).symm
  refine ⟨_, rfl, fun l => ?_⟩
  rw [List.mem_filter]
  simp only [decide_not, Bool.not_eq_true', decide_eq_false_iff_not]
  rw [← e, h2]
  constructor
  · rintro ⟨h, hne⟩
    refine ⟨h, ?_⟩
    rintro ⟨f, hf, hu, hd⟩
    rw [hd.2.1] at hu
    exact hne (Option.some.inj hu)
  · rintro ⟨⟨f, hf, hd⟩, hn⟩
    exact ⟨⟨f, hf, hd⟩, fun hu => hn ⟨f, hf, by rw [hd.2.1, hu], hd⟩⟩

private def exFiles : List File :=
  [⟨some ['u'], true, [(0, [['a'], ['b']])]⟩, ⟨some ['v'], true, [(2, [['a'], ['c']])]⟩, ⟨none, true, [(0, [['a']])]⟩, ⟨some ['w'], false, []⟩]
example : ∀ f ∈ exFiles, Valid f := by simp [exFiles, Valid]
example : findReferences ['u'] true (.package exFiles ['a'] true) = some [⟨['u'], 0, 1⟩, ⟨['v'], 2, 1⟩] := by decide
example : findReferences ['u'] false (.package exFiles ['a'] true) = some [⟨['v'], 2, 1⟩] := by decide

end Verif.References
