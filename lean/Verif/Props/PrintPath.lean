import Verif.Lemmas.PrintPath
import Verif.Props.OptionLocations

/-!
# C110: the comments of a descriptor that is printed on its own
-/
namespace Verif.PrintPath

open OptionLocations (Loc First)
open SourceInfo (Valid)

/-- **C110**: the path that is computed for a descriptor leads to the element for which it stands. -/
theorem C110_path (f : File) (d : Dsc) (e : Elem) (h : Is f d e) : At (.file f) (findElement d) e := (findElement_at h).1

/-- **C110**: a path leads to at most one element. -/
theorem C110_at_unique (f : File) (p : List Int) (e e' : Elem) (h : At (.file f) p e) (h' : At (.file f) p e') : e = e' := h.unique h'

/-- **C110**: different descriptors of a file have different paths. -/
theorem C110_distinct (f : File) (d d' : Dsc) (e e' : Elem) (h : Is f d e) (h' : Is f d' e') (hp : findElement d = findElement d') : d = d' := by
  have key : ∀ n d d' e e', (findElement d).length = n → Is f d e → Is f d' e' → findElement d = findElement d' → d = d' := by
    intro n
    induction n using Nat.strongRecOn with
    | ind n ih =>
      intro d d' e e' hn h h' hp
      have he : e = e' := (findElement_at h).1.unique (hp ▸ (findElement_at h').1)
      subst he
      rcases findElement_step h with ⟨rfl, rfl⟩ | ⟨p, c, k, i, hi, -, h1, -, rfl⟩
      · rcases findElement_step h' with ⟨rfl, -⟩ | ⟨q, c', k', j, -, -, h2, -, -⟩
        · rfl
        · rw [h2] at hp
          simp [findElement] at hp
      · rcases findElement_step h' with ⟨rfl, -⟩ | ⟨q, c', k', j, hj, -, h2, -, rfl⟩
        · rw [h1] at hp
          simp [findElement] at hp
        · rw [h1, h2] at hp
          obtain ⟨h3, h4⟩ := List.append_inj' hp rfl
          simp only [List.cons.injEq, and_true] at h4
          have hij : i = j := by exact_mod_cast h4.2
          rw [ih _ (by rw [← hn, h1]; simp) p q c c' rfl hi hj h3, hij]
  exact key _ d d' e e' rfl h h' hp

/-- **C110**: an element other than a oneof that is printed on its own has the comments of the first location for its own place in the file,
and none if there is no such location. (Partial: not oneofs, see `C110_oneof_violated`.) -/
theorem C110_own_partial (f : File) (d : Dsc) (e : Elem) (h : Is f d e) (hd : ∀ p i, d ≠ .oneof p i) (locs : List Loc)
    (hv : ∀ l ∈ locs, Valid l.path) (hi : Valid (findElement d)) (l : Loc) :
    location locs d = some l ↔ First (fun l => l.path = findElement d) locs l := by
  have : located d = findElement d := by
    cases d <;> first | rfl | exact absurd rfl (hd _ _)
  unfold location
  rw [this]
  exact OptionLocations.C109_others locs hv _ hi (fun p hp => element_asks (findElement_at h).2 hp) l

theorem located_oneof (p : Dsc) (i : Nat) : located (.oneof p i) = findElement p ++ [8, 8, (i : Int)] := by
  have h1 : findElement (.oneof p i) = (findElement p ++ [8]) ++ [(i : Int)] := by simp [findElement]
  unfold located
  simp only
  rw [h1, List.dropLast_concat, List.getLastD_concat]
  simp

/-- **C110** fails for every oneof of every file: the path under which its location is looked for leads nowhere (it has an odd length), and
neither do those of its fields. -/
theorem C110_oneof_nowhere_violated (f : File) (p : Dsc) (i : Nat) (e : Elem) (h : Is f (.oneof p i) e) :
    (∀ x, ¬ At (.file f) (located (.oneof p i)) x) ∧ ∀ j x, ¬ At (.file f) (locatedField (.oneof p i) j) x ∧
      locatedField (.oneof p i) j = findElement p ++ [8, 2, (j : Int)] := by
  have odd : ∀ {a : Elem} {q : List Int} {x : Elem}, At a q x → q.length % 2 = 0 := by
    intro a q x hx
    induction hx with
    | here => rfl
    | step _ _ ih => simp; omega
  have := findElement_length p
  constructor
  · intro x hx
    have h2 := odd hx
    rw [located_oneof] at h2
    simp at h2
    omega
  · intro j x
    have h1 : findElement (.oneof p i) = (findElement p ++ [8]) ++ [(i : Int)] := by simp [findElement]
    have h3 : locatedField (.oneof p i) j = findElement p ++ [8, 2, (j : Int)] := by
      unfold locatedField
      rw [h1, List.dropLast_concat]
      simp
    refine ⟨fun hx => ?_, h3⟩
    have h2 := odd hx
    rw [h3] at h2
    simp at h2
    omega

/-! ## The elements of a oneof -/

theorem loop_fields {grow : Nat → Nat → Nat} (index : Nat) (oopath parent : Slice) (P : List Int) : ∀ (els : List El) (h : Heap),
    (∀ el ∈ els, el.isOption = false) → parent.Ok h → read h parent = P →
      loop grow oopath parent h els = els.map fun el => (el, own P index el) := by
  intro els
  induction els with
  | nil => intro h _ _ _; rfl
  | cons el els ih =>
    intro h hf ho hr
    cases el with
    | option tag => exact absurd (hf _ List.mem_cons_self) (by simp [El.isOption])
    | field i =>
      obtain ⟨h1, -, -, h4, -⟩ := append_spec (grow := grow) h parent ho [2, (i : Int)]
      obtain ⟨h5, h6⟩ := h4 parent ho (.inr (Nat.le_refl _))
      simp only [loop, List.map_cons]
      rw [ih _ (fun x hx => hf x (List.mem_cons_of_mem _ hx)) h5 (h6.trans hr), h1, hr]
      rfl

theorem loop_options {grow : Nat → Nat → Nat} (index : Nat) (oopath parent : Slice) (P : List Int) (fields : List El)
    (hfields : ∀ el ∈ fields, el.isOption = false) : ∀ (els : List El) (h : Heap),
    (∀ el ∈ els, el.isOption = true) → parent.Ok h → oopath.Ok h → parent.len ≤ oopath.len → read h parent = P →
      read h oopath = P ++ [8, (index : Int)] →
      loop grow oopath parent h (els ++ fields) = (els ++ fields).map fun el => (el, own P index el) := by
  intro els
  induction els with
  | nil => intro h _ ho _ _ hr _; exact loop_fields index oopath parent P fields h hfields ho hr
  | cons el els ih =>
    intro h hf ho ho' hlen hr hr'
    cases el with
    | field i => exact absurd (hf _ List.mem_cons_self) (by simp [El.isOption])
    | option tag =>
      obtain ⟨h1, -, -, h4, -⟩ := append_spec (grow := grow) h oopath ho' [2, (tag : Int)]
      obtain ⟨h5, h6⟩ := h4 parent ho (.inr hlen)
      obtain ⟨h7, h8⟩ := h4 oopath ho' (.inr (Nat.le_refl _))
      simp only [loop, List.cons_append, List.map_cons]
      rw [ih _ (fun x hx => hf x (List.mem_cons_of_mem _ hx)) h5 h7 hlen (h6.trans hr) (h8.trans hr'), h1, hr']
      simp [own]

/-- **C110**: if the options of a oneof are printed before its fields, as the order that the package format gives has it (C76), then the oneof, its name,
its options and its fields are looked for in their own places, whatever the capacity of the path is. (Partial: for other orders see
`C110_alias_violated`.) -/
theorem C110_elements_partial (grow : Nat → Nat → Nat) (h : Heap) (parent : Slice) (hs : parent.Ok h) (index : Nat) (options fields : List El)
    (ho : ∀ el ∈ options, el.isOption = true) (hf : ∀ el ∈ fields, el.isOption = false) :
    printOneOf grow h parent index (options ++ fields) =
      (read h parent ++ [8, (index : Int)], read h parent ++ [8, (index : Int), 1],
        (options ++ fields).map fun el => (el, own (read h parent) index el)) := by
  obtain ⟨h1, h2, h3, h4, -⟩ := append_spec (grow := grow) h parent hs [8, (index : Int)]
  obtain ⟨h5, h6⟩ := h4 parent hs (.inr (Nat.le_refl _))
  have hle : parent.len ≤ (append grow h parent [8, (index : Int)]).2.len := by rw [h3]; omega
  obtain ⟨k1, -, -, k4, -⟩ := append_spec (grow := grow) _ _ h2 [(1 : Int)]
  obtain ⟨k5, k6⟩ := k4 parent h5 (.inr hle)
  obtain ⟨k7, k8⟩ := k4 _ h2 (.inr (Nat.le_refl _))
  simp only [printOneOf]
  rw [loop_options index _ _ (read h parent) fields hf options _ ho k5 k7 hle (k6.trans h6) (k8.trans h1), k1, h1]
  simp

theorem loop_apart {grow : Nat → Nat → Nat} (index : Nat) (oopath parent : Slice) (P : List Int) (ha : oopath.array ≠ parent.array) :
    ∀ (els : List El) (h : Heap), parent.Ok h → oopath.Ok h → read h parent = P → read h oopath = P ++ [8, (index : Int)] →
      loop grow oopath parent h els = els.map fun el => (el, own P index el) := by
  intro els
  induction els with
  | nil => intro h _ _ _ _; rfl
  | cons el els ih =>
    intro h ho ho' hr hr'
    cases el with
    | option tag =>
      obtain ⟨h1, -, -, h4, -⟩ := append_spec (grow := grow) h oopath ho' [2, (tag : Int)]
      obtain ⟨h5, h6⟩ := h4 parent ho (.inl ha.symm)
      obtain ⟨h7, h8⟩ := h4 oopath ho' (.inr (Nat.le_refl _))
      simp only [loop, List.map_cons]
      rw [ih _ h5 h7 (h6.trans hr) (h8.trans hr'), h1, hr']
      simp [own]
    | field i =>
      obtain ⟨h1, -, -, h4, -⟩ := append_spec (grow := grow) h parent ho [2, (i : Int)]
      obtain ⟨h5, h6⟩ := h4 parent ho (.inr (Nat.le_refl _))
      obtain ⟨h7, h8⟩ := h4 oopath ho' (.inl ha)
      simp only [loop, List.map_cons]
      rw [ih _ h5 h7 (h6.trans hr) (h8.trans hr'), h1, hr]
      rfl

/-- **C110**: in every order, if the array of the path has no room for two more numbers. -/
theorem C110_any_order_partial (grow : Nat → Nat → Nat) (h : Heap) (parent : Slice) (hs : parent.Ok h) (index : Nat) (els : List El)
    (hcap : (h.getD parent.array []).length < parent.len + 2) :
    (printOneOf grow h parent index els).2.2 = els.map fun el => (el, own (read h parent) index el) := by
  obtain ⟨h1, h2, h3, h4, -⟩ := append_spec (grow := grow) h parent hs [8, (index : Int)]
  obtain ⟨h5, h6⟩ := h4 parent hs (.inr (Nat.le_refl _))
  have ha : (append grow h parent [8, (index : Int)]).2.array ≠ parent.array := by
    unfold append
    simp only
    rw [if_neg (by simp; simp at hcap; omega)]
    have := hs.1
    simp only
    omega
  obtain ⟨-, -, -, k4, -⟩ := append_spec (grow := grow) _ _ h2 [(1 : Int)]
  obtain ⟨k5, k6⟩ := k4 parent h5 (.inl ha.symm)
  obtain ⟨k7, k8⟩ := k4 _ h2 (.inr (Nat.le_refl _))
  simp only [printOneOf]
  exact loop_apart index _ _ (read h parent) ha els _ k5 k7 (k6.trans h6) (k8.trans h1)

/-! ## Examples -/

namespace Demo

/-- `message A { message B { enum E { V = 0; } oneof o { int32 x = 1; } } extend ... }`. -/
def file : File := ⟨[.mk [] [7] [] [] [.mk [5] [] [6] [[9]] []]], [], [], []⟩

theorem nested : Is file (.message (.message .file 0) 0) (.message (.mk [5] [] [6] [[9]] [])) := .nested (.topMessage .file rfl) rfl

theorem value : Is file (.value (.enum (.message (.message .file 0) 0) 0) 0) (.value 9) := .value (.enum nested rfl) rfl

example : At (.file file) [4, 0, 3, 0, 4, 0, 2, 0] (.value 9) := C110_path file _ _ value

example : location [⟨[4, 0], 1⟩, ⟨[4, 0, 3, 0, 4, 0, 2, 0], 2⟩] (.value (.enum (.message (.message .file 0) 0) 0) 0) =
    some ⟨[4, 0, 3, 0, 4, 0, 2, 0], 2⟩ :=
  (C110_own_partial file _ _ value (by simp) _ (by unfold Valid; decide +kernel) (by unfold Valid; decide +kernel) _).2
    ⟨[⟨[4, 0], 1⟩], [], rfl, rfl, by simp [findElement, Dsc.isMessage]⟩

/-- The path of a message at the top level: in an array of two numbers. -/
def heap : Heap := [[4, 0]]

example : printOneOf goGrow heap ⟨0, 2⟩ 3 [.option 1000, .field 5] =
    ([4, 0, 8, 3], [4, 0, 8, 3, 1], [(.option 1000, [4, 0, 8, 3, 2, 1000]), (.field 5, [4, 0, 2, 5])]) :=
  C110_elements_partial goGrow heap ⟨0, 2⟩ ⟨by decide, by decide⟩ 3 [.option 1000] [.field 5] (by simp [El.isOption]) (by simp [El.isOption])

example : (printOneOf goGrow heap ⟨0, 2⟩ 3 [.field 5, .option 1000]).2.2 =
    [(.field 5, [4, 0, 2, 5]), (.option 1000, [4, 0, 8, 3, 2, 1000])] :=
  C110_any_order_partial goGrow heap ⟨0, 2⟩ ⟨by decide, by decide⟩ 3 _ (by decide)

/-- The path of a message that is nested twice, as `printMessage` makes it: print.go:956. -/
def nestedPath : Heap × Slice :=
  let a := append goGrow [[0]] ⟨0, 0⟩ [4, 0]
  let b := append goGrow a.1 a.2 [3, 0]
  append goGrow b.1 b.2 [3, 0]

end Demo

/-- **C110** fails for a oneof that is printed on its own: its comment is not found. -/
theorem C110_oneof_violated : ∃ (f : File) (d : Dsc) (e : Elem) (locs : List Loc) (l : Loc), Is f d e ∧ locs = [l] ∧ l.path = findElement d ∧
    location locs d = none :=
  ⟨Demo.file, .oneof (.message (.message .file 0) 0) 0, .oneof 6, [⟨[4, 0, 3, 0, 8, 0], 1⟩], ⟨[4, 0, 3, 0, 8, 0], 1⟩,
    .oneof Demo.nested rfl, rfl, by decide +kernel, by decide +kernel⟩

/-- **C110** fails for an option after a field of a oneof in a message that is nested twice: it is looked for below the place of the
field, since the paths share an array. -/
theorem C110_alias_violated : (Demo.nestedPath.2.Ok Demo.nestedPath.1 ∧ read Demo.nestedPath.1 Demo.nestedPath.2 = [4, 0, 3, 0, 3, 0]) ∧
    (printOneOf goGrow Demo.nestedPath.1 Demo.nestedPath.2 1 [.field 5, .option 1000]).2.2 =
      [(.field 5, [4, 0, 3, 0, 3, 0, 2, 5]), (.option 1000, [4, 0, 3, 0, 3, 0, 2, 5, 2, 1000])] := by
  refine ⟨⟨?_, ?_⟩, ?_⟩
  · unfold Slice.Ok; decide +kernel
  · decide +kernel
  · decide +kernel

end Verif.PrintPath
