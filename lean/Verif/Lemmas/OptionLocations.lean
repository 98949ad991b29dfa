import Verif.Spec.OptionLocations
import Verif.Props.SourceInfo
import Mathlib.Tactic.Tauto

/-!
# Lemmas about the locations of options
-/
namespace Verif.OptionLocations

open SourceInfo (InfoMap Op Valid expected)

theorem next_child {k k' : Kind} {n : Int} (h : Child k n k') : next k n = some k' ∧ k' ≠ .option := by
  cases h <;> exact ⟨rfl, by decide⟩

theorem next_options {k : Kind} {n : Int} : next k n = some .option ↔ Options k n := by
  constructor
  · intro h
    cases k <;> simp only [next, edges, List.lookup_cons, List.lookup_nil] at h <;> (repeat' split at h) <;>
      first | (cases h; done) | (rename_i he; rw [beq_iff_eq] at he; subst he; constructor) | skip
    all_goals (rename_i he; rw [beq_iff_eq] at he; subst he; constructor)
  · intro h
    cases h <;> rfl

/-- What an edge leads to. -/
theorem next_cases {k k' : Kind} {n : Int} (h : next k n = some k') :
    k' = .option ∨ Child k n k' ∨ k' = .reservedRange ∨ k' = .reservedName := by
  cases k <;> simp only [next, edges, List.lookup_cons, List.lookup_nil] at h <;> (repeat' split at h) <;>
    first
    | (cases h; done)
    | (cases h; simp; done)
    | (rename_i he; rw [beq_iff_eq] at he; subst he; cases h; exact .inr (.inl (by constructor)))

theorem walk_nil {k : Kind} (h : edges k = []) (i : Nat) (path rest : List Int) : walk k i path rest = [] := by
  unfold walk
  split
  · simp [next, h]
  · rfl

/-- The loop follows the path of an element. -/
theorem walk_element {p : List Int} {k : Kind} (h : Element p k) : ∀ {path rest : List Int}, path = p ++ rest →
    walk .file 0 path path = walk k p.length path rest := by
  induction h with
  | file => intro path rest hp; subst hp; rfl
  | @child p k k' n i h hc ih =>
    intro path rest hp
    have hp' : path = p ++ n :: i :: rest := by simpa using hp
    rw [ih hp', walk, (next_child hc).1]
    have := (next_child hc).2
    simp only [List.length_append, List.length_cons, List.length_nil]

theorem newPaths_mem {p : List Int} {o tag : Int} {tail q : List Int} :
    q ∈ newPaths p.length (p ++ o :: tag :: tail) ↔
      q = p ++ [o, tag] ∨ q = p ++ [o, tag] ++ [0] ∨ ∃ n t, tail = n :: t ∧ q = p ++ [o, tag] ++ [n] := by
  have h1 : ∀ x : Int, (p ++ [o, tag, x]).set ((p ++ [o, tag, x]).length - 1) 0 = p ++ [o, tag, 0] := by
    intro x
    rw [List.length_append, show p.length + [o, tag, x].length - 1 = p.length + 2 by simp, List.set_append_right _ _ (by omega)]
    simp
  have h2 : (p ++ [o, tag, (0 : Int)]).take ((p ++ [o, tag, (0 : Int)]).length - 1) = p ++ [o, tag] := by
    rw [List.length_append, show p.length + [o, tag, (0 : Int)].length - 1 = p.length + 2 by simp, List.take_length_add_append]
    try rfl
  cases tail with
  | nil =>
    have h0 : (p ++ [o, tag]).take (p.length + 3) ++ List.replicate (p.length + 3 - (p ++ [o, tag]).length) 0 = p ++ [o, tag, 0] := by
      rw [List.take_length_add_append, show p.length + 3 - (p ++ [o, tag]).length = 1 by simp]
      simp
    unfold newPaths
    simp only [h0, h1, h2, List.mem_cons, List.not_mem_nil, or_false, List.append_assoc, List.cons_append, List.nil_append, reduceCtorEq,
      false_and, exists_false]
    tauto
  | cons n t =>
    have h0 : (p ++ o :: tag :: n :: t).take (p.length + 3) ++ List.replicate (p.length + 3 - (p ++ o :: tag :: n :: t).length) 0 =
        p ++ [o, tag, n] := by
      rw [List.take_length_add_append, show p.length + 3 - (p ++ o :: tag :: n :: t).length = 0 by simp]
      simp
    unfold newPaths
    simp only [h0, h1, h2, List.mem_cons, List.not_mem_nil, or_false, List.append_assoc, List.cons_append, List.nil_append]
    constructor
    · rintro (h | h | h)
      · exact .inr (.inr ⟨n, t, rfl, h⟩)
      · exact .inr (.inl h)
      · exact .inl h
    · rintro (h | h | ⟨n', t', e, h⟩)
      · exact .inr (.inr h)
      · exact .inr (.inl h)
      · cases e
        exact .inl h

/-- The loop ends at an option of an element. -/
theorem walk_sound {q path : List Int} : ∀ (k : Kind) (p rest : List Int), Element p k → path = p ++ rest → q ∈ walk k p.length path rest →
    ∃ e k' o tag tail, Element e k' ∧ Options k' o ∧ path = e ++ o :: tag :: tail ∧ q ∈ newPaths e.length path := by
  intro k p rest
  induction h : rest.length using Nat.strongRecOn generalizing k p rest with
  | ind len ih =>
    intro hel hp hq
    match rest, h with
    | [], _ => simp [walk] at hq
    | [_], _ => simp [walk] at hq
    | n :: x :: rest, h =>
      rw [walk] at hq
      cases hn : next k n with
      | none => rw [hn] at hq; cases hq
      | some k' =>
        rw [hn] at hq
        rcases next_cases hn with rfl | hc | rfl | rfl
        · exact ⟨p, k, n, x, rest, hel, next_options.1 hn, hp, hq⟩
        · have hne := (next_child hc).2
          have hq' : q ∈ walk k' (p ++ [n, x]).length path rest := by
            rw [List.length_append]
            cases k' <;> first | exact absurd rfl hne | exact hq
          exact ih rest.length (by simp at h; omega) k' (p ++ [n, x]) rest rfl (.child x hel hc) (by simpa using hp) hq'
        · exact absurd (show q ∈ [] from (walk_nil (k := .reservedRange) rfl (p.length + 2) path rest) ▸ hq) (by simp)
        · exact absurd (show q ∈ [] from (walk_nil (k := .reservedName) rfl (p.length + 2) path rest) ▸ hq) (by simp)

theorem mem_walk {l : Loc} {q : List Int} : q ∈ walk .file 0 l.path l.path ↔ Supplies l q := by
  constructor
  · intro h
    obtain ⟨e, k, o, tag, tail, he, ho, hp, hq⟩ := walk_sound (path := l.path) .file [] l.path .file rfl h
    rw [hp, newPaths_mem] at hq
    refine ⟨e ++ [o, tag], ⟨e, k, o, tag, he, ho, rfl⟩, ⟨tail, by rw [hp]; simp⟩, ?_⟩
    rcases hq with hq | hq | ⟨n, t, ht, hq⟩
    · exact .inl hq
    · exact .inr (.inl hq)
    · exact .inr (.inr ⟨n, hq, ⟨t, by rw [hp, ht, hq]; simp⟩⟩)
  · rintro ⟨p, ⟨e, k, o, tag, he, ho, rfl⟩, ⟨tail, ht⟩, hq⟩
    have hp : l.path = e ++ o :: tag :: tail := by rw [← ht]; simp
    rw [walk_element he hp, walk, next_options.2 ho]
    simp only
    rw [hp, newPaths_mem]
    rcases hq with hq | hq | ⟨n, hq, ⟨t, h2⟩⟩
    · exact .inl hq
    · exact .inr (.inl hq)
    · refine .inr (.inr ⟨n, t, ?_, hq⟩)
      rw [hq, hp] at h2
      simpa using h2.symm

/-! ## The calls -/

/-- The calls of `PutIfAbsent`. -/
def puts (locs : List Loc) : List (Op Loc) := locs.flatMap fun l => (walk .file 0 l.path l.path).map fun p => .put p l

/-- All calls. -/
def ops (locs : List Loc) : List (Op Loc) := locs.map (fun l => .add l.path l) ++ puts locs

theorem sourceInfo_ops (locs : List Loc) : sourceInfo locs = (ops locs).foldl SourceInfo.apply [] := by
  have h1 : ∀ (ls : List Loc) (m : InfoMap Loc), populate ls m = (ls.map fun l => Op.add l.path l).foldl SourceInfo.apply m := by
    intro ls m
    rw [List.foldl_map]
    rfl
  have h2 : ∀ (ls : List Loc) (m : InfoMap Loc), extend ls m = (puts ls).foldl SourceInfo.apply m := by
    intro ls
    induction ls with
    | nil => intro m; rfl
    | cons l ls ih =>
      intro m
      have e : puts (l :: ls) = ((walk .file 0 l.path l.path).map fun p => Op.put p l) ++ puts ls := rfl
      rw [e, List.foldl_append, ← ih, List.foldl_map]
      rfl
  unfold sourceInfo ops
  rw [List.foldl_append, ← h1, ← h2]

theorem expected_adds (q : List Int) (more : List (Op Loc)) : ∀ (ls : List Loc) (acc : List Loc),
    expected q (ls.map (fun l => Op.add l.path l) ++ more) acc = expected q more (acc ++ ls.filter fun l => decide (l.path = q)) := by
  intro ls
  induction ls with
  | nil => intro acc; simp
  | cons l ls ih =>
    intro acc
    simp only [List.map_cons, List.cons_append, expected]
    rw [ih]
    by_cases h : l.path = q <;> simp [h]

theorem expected_keeps (q : List Int) : ∀ (ps : List (List Int × Loc)) (acc : List Loc), acc ≠ [] →
    expected q (ps.map fun p => Op.put p.1 p.2) acc = acc := by
  intro ps
  induction ps with
  | nil => intro acc _; rfl
  | cons p ps ih =>
    intro acc h
    simp only [List.map_cons, expected]
    rw [if_neg (fun hh => h hh.2), ih acc h]

theorem expected_puts (q : List Int) : ∀ (ps : List (List Int × Loc)),
    expected q (ps.map fun p => Op.put p.1 p.2) [] = ((ps.find? fun p => decide (p.1 = q)).map (·.2)).toList := by
  intro ps
  induction ps with
  | nil => rfl
  | cons p ps ih =>
    simp only [List.map_cons, expected]
    by_cases h : p.1 = q
    · rw [if_pos ⟨h, trivial⟩, expected_keeps q ps _ (by simp), List.find?_cons_of_pos (by simpa using h)]
      rfl
    · rw [if_neg (fun hh => h hh.1), ih, List.find?_cons_of_neg (by simpa using h)]

theorem puts_pairs (locs : List Loc) : puts locs =
    (locs.flatMap fun l => (walk .file 0 l.path l.path).map fun p => (p, l)).map fun p => Op.put p.1 p.2 := by
  unfold puts
  induction locs with
  | nil => rfl
  | cons l ls ih => simp [List.flatMap_cons, ih]

theorem find_pairs (q : List Int) (locs : List Loc) :
    ((locs.flatMap fun l => (walk .file 0 l.path l.path).map fun p => (p, l)).find? fun p => decide (p.1 = q)).map (·.2) =
      locs.find? fun l => (walk .file 0 l.path l.path).contains q := by
  induction locs with
  | nil => rfl
  | cons l ls ih =>
    rw [List.flatMap_cons, List.find?_append]
    by_cases h : q ∈ walk .file 0 l.path l.path
    · rw [List.find?_cons_of_pos (by simpa using h)]
      have : ∀ (ps : List (List Int)), q ∈ ps → ((ps.map fun p => (p, l)).find? fun p => decide (p.1 = q)) = some (q, l) := by
        intro ps
        induction ps with
        | nil => intro hh; cases hh
        | cons x xs ihx =>
          intro hh
          by_cases hx : x = q
          · subst hx; rw [List.map_cons, List.find?_cons_of_pos (by simp)]
          · rw [List.map_cons, List.find?_cons_of_neg (by simpa using hx)]
            rcases List.mem_cons.1 hh with e | hh
            · exact absurd e.symm hx
            · exact ihx hh
      rw [this _ h]
      rfl
    · rw [List.find?_cons_of_neg (by simpa using h)]
      have : ((walk .file 0 l.path l.path).map fun p => (p, l)).find? (fun p => decide (p.1 = q)) = none := by
        rw [List.find?_eq_none]
        intro x hx
        obtain ⟨y, hy, rfl⟩ := List.mem_map.1 hx
        simp only [decide_eq_true_eq]
        rintro rfl
        exact h hy
      rw [this, Option.none_or, ih]

theorem valid_walk {l : Loc} (h : Valid l.path) {q : List Int} (hq : q ∈ walk .file 0 l.path l.path) : Valid q := by
  obtain ⟨p, -, hp, hq⟩ := mem_walk.1 hq
  have hv : Valid p := fun s hs => h s (hp.subset hs)
  rcases hq with rfl | rfl | ⟨n, rfl, h2⟩
  · exact hv
  · intro s hs
    rcases List.mem_append.1 hs with hs | hs
    · exact hv s hs
    · rw [List.mem_singleton] at hs
      subst hs
      decide
  · exact fun s hs => h s (h2.subset hs)

theorem get_sourceInfo (locs : List Loc) (hv : ∀ l ∈ locs, Valid l.path) (q : List Int) (hq : Valid q) :
    SourceInfo.get (sourceInfo locs) q =
      ((locs.filter fun l => decide (l.path = q)).head?).or (locs.find? fun l => (walk .file 0 l.path l.path).contains q) := by
  unfold SourceInfo.get
  rw [sourceInfo_ops, SourceInfo.C36_getAll _ _ q hq]
  · unfold ops
    rw [expected_adds, List.nil_append, puts_pairs]
    by_cases h : (locs.filter fun l => decide (l.path = q)) = []
    · rw [h, expected_puts, find_pairs]
      cases locs.find? fun l => (walk .file 0 l.path l.path).contains q <;> rfl
    · rw [expected_keeps q _ _ h]
      cases hf : locs.filter fun l => decide (l.path = q) with
      | nil => exact absurd hf h
      | cons a as => rfl
  · intro op hop
    rcases List.mem_append.1 hop with hop | hop
    · obtain ⟨l, hl, rfl⟩ := List.mem_map.1 hop
      exact hv l hl
    · obtain ⟨l, hl, hop⟩ := List.mem_flatMap.1 hop
      obtain ⟨p, hp, rfl⟩ := List.mem_map.1 hop
      exact valid_walk (hv l hl) hp

theorem find_first {p : Loc → Bool} {P : Loc → Prop} (hP : ∀ l, p l = true ↔ P l) {locs : List Loc} {l : Loc} :
    locs.find? p = some l ↔ First P locs l := by
  rw [List.find?_eq_some_iff_append]
  constructor
  · rintro ⟨h1, a, b, h2, h3⟩
    exact ⟨a, b, h2, (hP l).1 h1, fun x hx hpx => by simpa [(hP x).2 hpx] using h3 x hx⟩
  · rintro ⟨a, b, h2, h1, h3⟩
    refine ⟨(hP l).2 h1, a, b, h2, fun x hx => ?_⟩
    cases hpx : p x with
    | false => rfl
    | true => exact absurd ((hP x).1 hpx) (h3 x hx)

end Verif.OptionLocations
