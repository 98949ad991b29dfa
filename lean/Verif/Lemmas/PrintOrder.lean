import Verif.Spec.PrintOrder
import Mathlib.Data.Int.Order.Basic
import Verif.Util.GoSort

namespace Verif.PrintOrder

theorem codes_lt (a b : Name) : codes a < codes b ↔ a < b := by
  induction a generalizing b with
  | nil =>
    cases b with
    | nil => simp [codes]
    | cons y ys => simp [codes]
  | cons x xs ih =>
    cases b with
    | nil => simp [codes]
    | cons y ys =>
      have hxy : (x.toNat : Int) < (y.toNat : Int) ↔ x < y := by
        rw [Int.ofNat_lt]; exact Iff.rfl
      have hxe : (x.toNat : Int) = (y.toNat : Int) ↔ x = y := by
        rw [Int.ofNat_inj]
        exact ⟨fun h => Char.toNat_inj.mp h, fun h => by rw [h]⟩
      have := ih ys
      unfold codes at this
      simp only [codes, List.map_cons, List.cons_lt_cons_iff, hxy, hxe, this]

/-- A terminator below every code keeps the order and allows for something after the name. -/
theorem codes_append_lt (a b : Name) (x y : List Int) :
    codes a ++ (-1) :: x < codes b ++ (-1) :: y ↔ a < b ∨ (a = b ∧ x < y) := by
  induction a generalizing b with
  | nil =>
    cases b with
    | nil => simp [codes]
    | cons c cs =>
      have h1 : (-1 : Int) < (c.toNat : Int) := by omega
      have h2 : ¬ (-1 : Int) = (c.toNat : Int) := by omega
      simp [codes, List.cons_lt_cons_iff, h1, h2]
  | cons c cs ih =>
    cases b with
    | nil =>
      have h1 : ¬ (c.toNat : Int) < (-1 : Int) := by omega
      have h2 : ¬ (c.toNat : Int) = (-1 : Int) := by omega
      simp [codes, List.cons_lt_cons_iff, h1, h2]
    | cons d ds =>
      have hxy : (c.toNat : Int) < (d.toNat : Int) ↔ c < d := by
        rw [Int.ofNat_lt]; exact Iff.rfl
      have hxe : (c.toNat : Int) = (d.toNat : Int) ↔ c = d := by
        rw [Int.ofNat_inj]
        exact ⟨fun h => Char.toNat_inj.mp h, fun h => by rw [h]⟩
      have := ih ds
      unfold codes at this
      simp only [codes, List.map_cons, List.cons_append, List.cons_lt_cons_iff, hxy, hxe, this,
        List.cons.injEq]
      constructor
      · rintro (h | ⟨h, h' | h'⟩)
        · exact Or.inl (Or.inl h)
        · exact Or.inl (Or.inr ⟨h, h'⟩)
        · exact Or.inr ⟨⟨h, h'.1⟩, h'.2⟩
      · rintro ((h | ⟨h, h'⟩) | ⟨⟨h, h'⟩, h''⟩)
        · exact Or.inl h
        · exact Or.inr ⟨h, Or.inl h'⟩
        · exact Or.inr ⟨h, Or.inr ⟨h', h''⟩⟩

theorem pathLess_self (p : List Int) : pathLess p p = false := by
  induction p with
  | nil => rfl
  | cons x xs ih => simp [pathLess, ih]

theorem pathLess_append (pre a b : List Int) : pathLess (pre ++ a) (pre ++ b) = pathLess a b := by
  induction pre with
  | nil => rfl
  | cons x xs ih => simp [pathLess, ih]

/-- The loop over the paths is the lexicographic order. -/
theorem pathLess_iff (a b : List Int) : pathLess a b = true ↔ a < b := by
  induction a generalizing b with
  | nil => cases b <;> simp [pathLess]
  | cons x xs ih =>
    cases b with
    | nil => simp [pathLess]
    | cons y ys =>
      simp only [pathLess, List.cons_lt_cons_iff]
      split
      · rename_i h; simp [h]
      · split
        · rename_i h1 h2
          simp only [Bool.false_eq_true, false_iff]
          rintro (h | ⟨h, _⟩) <;> omega
        · have : x = y := by omega
          simp [this, ih]

theorem bit_lt (a b : Bool) : bit a < bit b ↔ (a = false ∧ b = true) := by
  cases a <;> cases b <;> decide

theorem bit_eq (a b : Bool) : bit a = bit b ↔ a = b := by
  cases a <;> cases b <;> decide

theorem optionLess_iff (a b : Name) :
    optionLess a b = true ↔ (bit (isCustom a) :: codes a) < (bit (isCustom b) :: codes b) := by
  rw [List.cons_lt_cons_iff, bit_lt, bit_eq, codes_lt]
  unfold optionLess
  cases isCustom a <;> cases isCustom b <;> simp

/-- The tag of an address is the number of the list in the descriptor. -/
theorem elemOf_tag {scope : Scope} {i : Nat} {v : Val} {e : Elem} (h : elemOf scope i v = some e) :
    e.tag = listNumber scope (kind e.val) := by
  unfold elemOf at h
  cases scope <;> simp only [fileElem, messageElem, enumElem, serviceElem, oneofElem] at h <;>
    split at h <;> first
      | (cases h; rfl)
      | cases h

theorem srcLoc_tag {scope : Scope} {info : List Int → Option (List Int)} {pre : List Int}
    {i : Nat} {v : Val} {e : Elem} (h : elemOf scope i v = some e)
    (hpos : 0 < listNumber scope (kind e.val)) (hidx : 0 ≤ e.index) :
    srcLoc info pre e = info (pre ++ [listNumber scope (kind e.val), e.index]) := by
  unfold srcLoc
  rw [elemOf_tag h, if_neg (by omega), if_neg (by omega)]

theorem srcLoc_located {scope : Scope} {info : List Int → Option (List Int)} {pre : List Int}
    {i : Nat} {v : Val} {e : Elem} (h : elemOf scope i v = some e)
    (hl : Located scope info pre e) : ∃ rest, srcLoc info pre e = some (pre ++ [e.tag, e.index] ++ rest) := by
  obtain ⟨h1, h2, rest, h3⟩ := hl
  refine ⟨rest, ?_⟩
  rw [srcLoc_tag h h1 h2, h3, elemOf_tag h]

/-- Elements at addresses with different tags are told apart by the tags. -/
theorem srcLess_located {scope : Scope} {info : List Int → Option (List Int)} {pre : List Int}
    {i j : Nat} {v w : Val} {a b : Elem}
    (ea : elemOf scope i v = some a) (eb : elemOf scope j w = some b)
    (ha : Located scope info pre a) (hb : Located scope info pre b) :
    srcLess scope info pre a b = true ↔ [a.tag, a.index] < [b.tag, b.index] := by
  obtain ⟨ra, ha'⟩ := srcLoc_located ea ha
  obtain ⟨rb, hb'⟩ := srcLoc_located eb hb
  unfold srcLess
  rw [ha', hb']
  simp only [List.append_assoc]
  rw [pathLess_append]
  by_cases ht : a.tag = b.tag
  · by_cases hi : a.index = b.index
    · have : srcLoc info pre a = srcLoc info pre b := by
        unfold srcLoc; rw [ht, hi]
      rw [ha', hb'] at this
      simp only [List.append_assoc, Option.some.injEq, List.append_cancel_left_eq] at this
      rw [this, pathLess_self, ht, hi]
      simp
    · rw [pathLess_iff]
      simp [List.cons_lt_cons_iff, ht, hi]
  · rw [pathLess_iff]
    simp [List.cons_lt_cons_iff, ht]

theorem isort_congr {α : Type} {le le' : α → α → Bool} (l : List α)
    (h : ∀ a ∈ l, ∀ b ∈ l, le a b = le' a b) : isort le l = isort le' l := by
  have key : ∀ (a : α) (l : List α), (∀ b ∈ l, le a b = le' a b) →
      insertBy le a l = insertBy le' a l := by
    intro a l
    induction l with
    | nil => intro _; rfl
    | cons b t ih =>
      intro hb
      simp only [insertBy]
      rw [hb b (by simp), ih (fun c hc => hb c (by simp [hc]))]
  induction l with
  | nil => rfl
  | cons a t ih =>
    simp only [isort]
    rw [ih (fun x hx y hy => h x (by simp [hx]) y (by simp [hy]))]
    exact key a _ (fun b hb => h a (by simp) b (by
      have := (isort_perm le' t).mem_iff.mp hb
      simp [this]))

/-- The insertion sort compares an element only with elements that come before it. -/
theorem goInsertionSort_congr {α : Type} {less less' : α → α → Bool} (l : List α)
    (h : l.Pairwise (fun a b => less b a = less' b a)) :
    goInsertionSort less l = goInsertionSort less' l := by
  have ins : ∀ (x : α) (acc : List α), (∀ a ∈ acc, less x a = less' x a) →
      goInsert less x acc = goInsert less' x acc := by
    intro x acc
    induction acc with
    | nil => intro _; rfl
    | cons p rest ih =>
      intro hp
      unfold goInsert
      rw [hp p (by simp), ih (fun a ha => hp a (by simp [ha]))]
  have loop : ∀ (l acc : List α), l.Pairwise (fun a b => less b a = less' b a) →
      (∀ a ∈ acc, ∀ b ∈ l, less b a = less' b a) → goSortLoop less acc l = goSortLoop less' acc l := by
    intro l
    induction l with
    | nil => intro acc _ _; rfl
    | cons x xs ih =>
      intro acc hp ha
      rw [List.pairwise_cons] at hp
      unfold goSortLoop
      rw [ins x acc (fun a h => ha a h x (by simp))]
      apply ih _ hp.2
      intro a hmem b hb
      rcases List.mem_cons.mp ((goInsert_perm less' x acc).mem_iff.mp hmem) with rfl | h'
      · exact hp.1 b hb
      · exact ha a h' b (by simp [hb])
  unfold goInsertionSort
  rw [loop l [] h (by simp)]

theorem elemOf_val {scope : Scope} {i : Nat} {v : Val} {e : Elem} (h : elemOf scope i v = some e) :
    e.val = v := by
  unfold elemOf at h
  cases scope <;> simp only [fileElem, messageElem, enumElem, serviceElem, oneofElem] at h <;>
    split at h <;> first
      | (cases h; rfl)
      | cases h

/-- In a scope, the order of `SortElements` is that of the keys. -/
theorem printLess_iff {scope : Scope} {info : List Int → Option (List Int)} {pre : List Int}
    {i j : Nat} {v w : Val} {a b : Elem}
    (ha : elemOf scope i v = some a) (hb : elemOf scope j w = some b)
    (la : Free scope a ∨ Located scope info pre a) (lb : Free scope b ∨ Located scope info pre b) :
    printLess scope info pre a b = true ↔ key scope a < key scope b := by
  have hsrc : Located scope info pre a → Located scope info pre b →
      (srcLess scope info pre a b = true ↔ [a.tag, a.index] < [b.tag, b.index]) :=
    srcLess_located ha hb
  have hself : a.tag = b.tag → a.index = b.index → srcLess scope info pre a b = false := by
    intro h1 h2
    have : srcLoc info pre a = srcLoc info pre b := by unfold srcLoc; rw [h1, h2]
    unfold srcLess
    rw [this]
    cases srcLoc info pre b with
    | none => rfl
    | some p => exact pathLess_self p
  unfold printLess
  generalize hS : srcLess scope info pre a b = S at hsrc hself
  clear hS
  unfold elemOf at ha hb
  cases scope <;> simp only [fileElem, messageElem, enumElem, serviceElem, oneofElem] at ha hb <;>
    split at ha <;> (try cases ha) <;> split at hb <;> (try cases hb) <;>
    simp only [Free, false_or, true_or, reduceCtorEq] at la lb <;>
    (try replace hsrc := hsrc la lb) <;>
    simp [sortElements, kind, key, listNumber, rank, customOption, importName, number, codes_lt, bit_lt, bit_eq,
      List.cons_lt_cons_iff] at hsrc hself ⊢ <;>
    (try (simp only [hsrc, hself]; done))
  all_goals first
    | exact decide_eq_true_iff
    | (rw [← hsrc]
       rename_i n _ m
       rcases Bool.eq_false_or_eq_true (isCustom n) with hn | hn <;>
         rcases Bool.eq_false_or_eq_true (isCustom m) with hm | hm <;> simp [hn, hm])

/-- In a scope, the canonical order is that of the documented keys. -/
theorem canonicalLess_iff {scope : Scope} {i j : Nat} {v w : Val} {a b : Elem}
    (ha : elemOf scope i v = some a) (hb : elemOf scope j w = some b) :
    canonicalLess a b = true ↔ docKey scope a < docKey scope b := by
  unfold canonicalLess
  unfold elemOf at ha hb
  cases scope <;> simp only [fileElem, messageElem, enumElem, serviceElem, oneofElem] at ha hb <;>
    split at ha <;> (try cases ha) <;> split at hb <;> (try cases hb) <;>
    simp [valLess, kind, docKey, docRank, codes_lt, optionLess_iff,
      List.cons_lt_cons_iff]
  all_goals first
    | (rw [codes_append_lt]
       rename_i n x _ m y
       by_cases h : x = y
       · rw [if_pos h]
         subst h
         simp [List.cons_lt_cons_iff]
       · rw [if_neg h]
         simp [h])
    | (rename_i n x _ m y
       by_cases h : n = m
       · rw [if_pos h]
         simp [h]
       · rw [if_neg h]
         simp [h])

/-- Without locations, an element that comes later in the lists of the printer is less than an
earlier one exactly if its key is. -/
theorem printLess_bare {scope : Scope} {pre : List Int} {i j : Nat} {v w : Val} {a b : Elem}
    (ha : elemOf scope i v = some a) (hb : elemOf scope j w = some b)
    (hblock : block scope (kind v) ≤ block scope (kind w)) :
    printLess scope (fun _ => none) pre b a = true ↔ bareKey scope b < bareKey scope a := by
  have hsrc : srcLess scope (fun _ => none) pre b a = false := by
    unfold srcLess srcLoc
    split <;> simp_all
  unfold printLess
  rw [hsrc]
  unfold elemOf at ha hb
  cases scope <;> simp only [fileElem, messageElem, enumElem, serviceElem, oneofElem] at ha hb <;>
    split at ha <;> (try cases ha) <;> split at hb <;> (try cases hb) <;>
    simp [sortElements, kind, bareKey, rank, customOption, importName, number, codes_lt, bit_lt,
      block, List.cons_lt_cons_iff] at hblock ⊢
  all_goals first
    | exact decide_eq_true_iff
    | (rename_i n _ m
       rcases Bool.eq_false_or_eq_true (isCustom n) with hn | hn <;>
         rcases Bool.eq_false_or_eq_true (isCustom m) with hm | hm <;> simp [hn, hm])

/-- An element the source info does not know against one it knows. -/
theorem unknownFirst_iff {scope : Scope} {i j : Nat} {v w : Val} {a b : Elem}
    (ea : elemOf scope i v = some a) (eb : elemOf scope j w = some b) :
    unknownFirst scope a.tag b.tag = true ↔ unknownGoesFirst scope (kind a.val) (kind b.val) := by
  unfold elemOf at ea eb
  cases scope <;> simp only [fileElem, messageElem, enumElem, serviceElem, oneofElem] at ea eb <;>
    split at ea <;> (try cases ea) <;> split at eb <;> (try cases eb) <;>
    simp [unknownFirst, unknownGoesFirst, kind, rank]

end Verif.PrintOrder
