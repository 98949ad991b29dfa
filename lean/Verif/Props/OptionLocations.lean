import Verif.Lemmas.OptionLocations

/-!
# C109: the source locations of options
-/
namespace Verif.OptionLocations

open SourceInfo (Valid get)

/-- **C109**: the location found under a path is the first with exactly that path; if there is none, and the path asks for an option, it is the
first location of the option (of the element of its value, unless the first element is asked for). -/
theorem C109_found (locs : List Loc) (hv : ∀ l ∈ locs, Valid l.path) (q : List Int) (hq : Valid q) (l : Loc) :
    get (sourceInfo locs) q = some l ↔
      First (fun l => l.path = q) locs l ∨ (∀ x ∈ locs, x.path ≠ q) ∧ First (fun l => Supplies l q) locs l := by
  have h1 : locs.find? (fun l => decide (l.path = q)) = some l ↔ First (fun l => l.path = q) locs l := find_first (by simp)
  have h2 : locs.find? (fun l => (walk .file 0 l.path l.path).contains q) = some l ↔ First (fun l => Supplies l q) locs l :=
    find_first (fun l => by rw [List.contains_iff_mem, mem_walk])
  rw [get_sourceInfo locs hv q hq, List.head?_filter]
  cases hf : locs.find? (fun l => decide (l.path = q)) with
  | some x =>
    rw [Option.some_or, ← h1, hf]
    have hx := List.mem_of_find?_eq_some hf
    have hx2 := List.find?_some hf
    constructor
    · exact .inl
    · rintro (h | ⟨h, -⟩)
      · exact h
      · exact absurd (by simpa using hx2) (h x hx)
  | none =>
    rw [Option.none_or, h2]
    rw [hf] at h1
    rw [List.find?_eq_none] at hf
    constructor
    · exact fun h => .inr ⟨fun x hx => by simpa using hf x hx, h⟩
    · rintro (h | ⟨-, h⟩)
      · exact absurd (h1.2 h) (by simp)
      · exact h

/-- **C109**: an option with any location (of its whole, of an element, or of a part of its value) has one under each path that the printer
may ask for: the whole and the first element. -/
theorem C109_every_option (locs : List Loc) (hv : ∀ l ∈ locs, Valid l.path) (p : List Int) (hp : OptionAt p) (l : Loc) (hl : l ∈ locs)
    (h : p <+: l.path) : (∃ x, get (sourceInfo locs) p = some x) ∧ (∃ x, get (sourceInfo locs) (p ++ [0]) = some x) ∧
      ∀ n, p ++ [n] <+: l.path → ∃ x, get (sourceInfo locs) (p ++ [n]) = some x := by
  have key : ∀ q, Supplies l q → ∃ x, get (sourceInfo locs) q = some x := by
    intro q hs
    have hq : Valid q := valid_walk (hv l hl) (mem_walk.2 hs)
    rw [get_sourceInfo locs hv q hq]
    have : ∃ x, locs.find? (fun l => (walk .file 0 l.path l.path).contains q) = some x := by
      cases hf : locs.find? (fun l => (walk .file 0 l.path l.path).contains q) with
      | some x => exact ⟨x, rfl⟩
      | none =>
        rw [List.find?_eq_none] at hf
        exact absurd (List.contains_iff_mem.2 (mem_walk.2 hs)) (hf l hl)
    obtain ⟨x, hx⟩ := this
    rw [hx]
    cases (locs.filter fun l => decide (l.path = q)).head? with
    | none => exact ⟨x, rfl⟩
    | some y => exact ⟨y, rfl⟩
  exact ⟨key _ ⟨p, hp, h, .inl rfl⟩, key _ ⟨p, hp, h, .inr (.inl rfl)⟩, fun n hn => key _ ⟨p, hp, h, .inr (.inr ⟨n, rfl, hn⟩)⟩⟩

/-- **C109**: a location that is found for an option is never one of another option: it lies at or below the path of the option; and for another
element than the first, at or below the path of the element. -/
theorem C109_own (locs : List Loc) (hv : ∀ l ∈ locs, Valid l.path) (p q : List Int) (hp : OptionAt p) (hq : Valid q) (ha : Asks p q) (l : Loc)
    (h : get (sourceInfo locs) q = some l) : l ∈ locs ∧ p <+: l.path ∧ (q ≠ p ++ [0] → q <+: l.path) := by
  rcases (C109_found locs hv q hq l).1 h with ⟨a, b, rfl, he, -⟩ | ⟨-, a, b, rfl, ⟨p', hp', hpre, hq'⟩, -⟩
  · replace he : l.path = q := he
    rw [he]
    refine ⟨by simp, ?_, fun _ => List.prefix_refl _⟩
    cases ha with
    | whole => exact List.prefix_refl _
    | element n => exact List.prefix_append _ _
  · refine ⟨by simp, ?_⟩
    have even : ∀ {e k}, Element e k → e.length % 2 = 0 := by
      intro e k he
      induction he with
      | file => rfl
      | child i _ _ ih => rw [List.length_append]; simp; omega
    have even' : ∀ {x}, OptionAt x → x.length % 2 = 0 := by
      rintro x ⟨e, k, o, tag, he, -, rfl⟩
      have := even he
      rw [List.length_append]
      simp
      omega
    have h1 := even' hp
    have h2 := even' hp'
    have hpp : p' = p := by
      cases ha with
      | whole =>
        rcases hq' with e | e | ⟨n, e, -⟩
        · exact e.symm
        · have := congrArg List.length e; simp at this; omega
        · have := congrArg List.length e; simp at this; omega
      | element m =>
        rcases hq' with e | e | ⟨n, e, -⟩
        · have := congrArg List.length e; simp at this; omega
        · exact (List.append_inj_left' e rfl).symm
        · exact (List.append_inj_left' e rfl).symm
    subst hpp
    refine ⟨hpre, fun hz => ?_⟩
    rcases hq' with e | e | ⟨n, -, e⟩
    · rw [e]; exact hpre
    · exact absurd e hz
    · exact e

/-- **C109**: paths that do not ask for an option have the locations of the source info and no other. -/
theorem C109_others (locs : List Loc) (hv : ∀ l ∈ locs, Valid l.path) (q : List Int) (hq : Valid q) (hn : ∀ p, OptionAt p → ¬ Asks p q) (l : Loc) :
    get (sourceInfo locs) q = some l ↔ First (fun l => l.path = q) locs l := by
  rw [C109_found locs hv q hq l]
  constructor
  · rintro (h | ⟨-, _, _, _, ⟨p, hp, -, h⟩, -⟩)
    · exact h
    · rcases h with rfl | rfl | ⟨n, rfl, -⟩
      · exact absurd .whole (hn q hp)
      · exact absurd (.element 0) (hn p hp)
      · exact absurd (.element n) (hn p hp)
  · exact .inl

/-! ## Examples -/

namespace Demo

/-- A field with the options 1000 (a part of the value has a location) and 1001 (two elements). -/
def locs : List Loc := [⟨[4, 0], 0⟩, ⟨[4, 0, 2, 1, 8, 1000, 5], 1⟩, ⟨[4, 0, 2, 1, 8, 1001, 0], 2⟩, ⟨[4, 0, 2, 1, 8, 1001, 1], 3⟩]

theorem valid : ∀ l ∈ locs, Valid l.path := by unfold Valid; decide +kernel

theorem optionAt (tag : Int) : OptionAt [4, 0, 2, 1, 8, tag] :=
  ⟨[4, 0, 2, 1], .field, 8, tag, .child (p := [4, 0]) 1 (.child (p := []) 0 .file .topMessage) .field, .field, rfl⟩

example : ∃ x, get (sourceInfo locs) ([4, 0, 2, 1, 8, 1000] ++ [0]) = some x :=
  (C109_every_option locs valid [4, 0, 2, 1, 8, 1000] (optionAt _) ⟨[4, 0, 2, 1, 8, 1000, 5], 1⟩ (by decide) ⟨[5], rfl⟩).2.1

example : get (sourceInfo locs) [4, 0, 2, 1, 8, 1000, 0] = some ⟨[4, 0, 2, 1, 8, 1000, 5], 1⟩ ∧
    get (sourceInfo locs) [4, 0, 2, 1, 8, 1001, 1] = some ⟨[4, 0, 2, 1, 8, 1001, 1], 3⟩ ∧
    get (sourceInfo locs) [4, 0, 2, 1, 8, 1001] = some ⟨[4, 0, 2, 1, 8, 1001, 0], 2⟩ ∧ get (sourceInfo locs) [4, 0, 2, 1, 8] = none := by
  decide +kernel

example (l : Loc) (h : get (sourceInfo locs) [4, 0, 2, 1, 8, 1001, 1] = some l) : [4, 0, 2, 1, 8, 1001, 1] <+: l.path :=
  (C109_own locs valid [4, 0, 2, 1, 8, 1001] _ (optionAt _) (by unfold Valid; decide) (.element 1) l h).2.2 (by decide)

end Demo

end Verif.OptionLocations
