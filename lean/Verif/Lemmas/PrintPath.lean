import Verif.Spec.PrintPath
import Verif.Lemmas.OptionLocations

/-!
# Lemmas about the paths of printed descriptors
-/
namespace Verif.PrintPath

open OptionLocations (Element Kind Child)

theorem At.snoc {e c e' : Elem} {p : List Int} {n : Int} {i : Nat} (h : At e p c) (hi : (c.children n)[i]? = some e') :
    At e (p ++ [n, (i : Int)]) e' := by
  induction h with
  | here e => exact .step hi (.here _)
  | step h1 _ ih => exact .step h1 (ih hi)

theorem At.unique {e c c' : Elem} {p : List Int} (h : At e p c) (h' : At e p c') : c = c' := by
  induction h with
  | here e => cases h'; rfl
  | @step e c1 e1 n i rest hi _ ih =>
    generalize hq : n :: (i : Int) :: rest = q at h'
    cases h' with
    | here => cases hq
    | @step _ c2 _ n2 i2 rest2 hi2 h2 =>
      simp only [List.cons.injEq] at hq
      obtain ⟨rfl, hii, rfl⟩ := hq
      have : i = i2 := by exact_mod_cast hii
      subst this
      rw [hi] at hi2
      cases hi2
      exact ih h2

theorem At.append {e e' : Elem} {p q : List Int} (hp : p.length % 2 = 0) (h : At e (p ++ q) e') : ∃ c, At e p c ∧ At c q e' := by
  induction hn : p.length using Nat.strongRecOn generalizing p e with
  | ind len ih =>
    match p, hp, hn with
    | [], _, _ => exact ⟨e, .here _, h⟩
    | [_], hp, _ => simp at hp
    | n :: x :: p, hp, hn =>
      generalize hq : n :: x :: p ++ q = r at h
      cases h with
      | here => cases hq
      | @step _ c1 _ n1 i1 rest1 hi1 h1 =>
        simp only [List.cons_append, List.cons.injEq] at hq
        obtain ⟨rfl, rfl, rfl⟩ := hq
        obtain ⟨c, h2, h3⟩ := ih p.length (by simp at hn; omega) (p := p) (by simp at hp; omega) h1 rfl
        exact ⟨c, .step hi1 h2, h3⟩

/-- The kind of an element. -/
def Elem.kind : Elem → Kind
  | .file _ => .file
  | .message _ => .message
  | .enum _ => .enum
  | .service _ => .service
  | .field _ => .field
  | .extension _ => .field
  | .oneof _ => .oneof
  | .value _ => .enumValue
  | .method _ => .method

theorem isMessage_of {f : File} {d : Dsc} {m : Msg} (h : Is f d (.message m)) : d.isMessage = true := by
  cases h <;> rfl

theorem not_isMessage_of {f g : File} {d : Dsc} (h : Is f d (.file g)) : d.isMessage = false := by
  cases h
  rfl

theorem getElem?_map_some {α : Type} {g : α → Elem} {l : List α} {i : Nat} {x : α} (h : l[i]? = some x) : (l.map g)[i]? = some (g x) := by
  rw [List.getElem?_map, h]
  rfl

/-- The descriptor of an element, from its parent and index. -/
def Elem.dsc : Elem → Dsc → Nat → Dsc
  | .file _, _, _ => .file
  | .message _, p, i => .message p i
  | .enum _, p, i => .enum p i
  | .service _, p, i => .service p i
  | .field _, p, i => .field p false i
  | .extension _, p, i => .field p true i
  | .oneof _, p, i => .oneof p i
  | .value _, p, i => .value p i
  | .method _, p, i => .method p i

/-- The last step of the path of a descriptor. -/
theorem findElement_step {f : File} {d : Dsc} {e : Elem} (h : Is f d e) : (d = .file ∧ e = .file f) ∨
    ∃ p c n i, Is f p c ∧ (c.children n)[i]? = some e ∧ findElement d = findElement p ++ [n, ((i : Nat) : Int)] ∧
      Child c.kind n e.kind ∧ d = e.dsc p i := by
  cases h with
  | file => exact .inl ⟨rfl, rfl⟩
  | topMessage h hi =>
    exact .inr ⟨_, _, 4, _, h, getElem?_map_some hi, by simp [findElement, not_isMessage_of h], .topMessage, rfl⟩
  | topEnum h hi => exact .inr ⟨_, _, 5, _, h, getElem?_map_some hi, by simp [findElement, not_isMessage_of h], .topEnum, rfl⟩
  | service h hi => exact .inr ⟨_, _, 6, _, h, getElem?_map_some hi, by simp [findElement], .service, rfl⟩
  | topExtension h hi => exact .inr ⟨_, _, 7, _, h, getElem?_map_some hi, by simp [findElement, not_isMessage_of h], .topExtension, rfl⟩
  | nested h hi => exact .inr ⟨_, _, 3, _, h, getElem?_map_some hi, by simp [findElement, isMessage_of h], .message, rfl⟩
  | enum h hi => exact .inr ⟨_, _, 4, _, h, getElem?_map_some hi, by simp [findElement, isMessage_of h], .enum, rfl⟩
  | field h hi => exact .inr ⟨_, _, 2, _, h, getElem?_map_some hi, by simp [findElement], .field, rfl⟩
  | extension h hi => exact .inr ⟨_, _, 6, _, h, getElem?_map_some hi, by simp [findElement, isMessage_of h], .extension, rfl⟩
  | oneof h hi => exact .inr ⟨_, _, 8, _, h, getElem?_map_some hi, by simp [findElement], .oneof, rfl⟩
  | value h hi => exact .inr ⟨_, _, 2, _, h, getElem?_map_some hi, by simp [findElement], .value, rfl⟩
  | method h hi => exact .inr ⟨_, _, 2, _, h, getElem?_map_some hi, by simp [findElement], .method, rfl⟩

theorem findElement_length (d : Dsc) : (findElement d).length % 2 = 0 := by
  induction d <;> simp only [findElement] <;> (repeat' split) <;> simp <;> omega

theorem findElement_at {f : File} {d : Dsc} {e : Elem} (h : Is f d e) : At (.file f) (findElement d) e ∧ Element (findElement d) e.kind := by
  have key : ∀ n d e, (findElement d).length = n → Is f d e → At (.file f) (findElement d) e ∧ Element (findElement d) e.kind := by
    intro n
    induction n using Nat.strongRecOn with
    | ind n ih =>
      intro d e hn h
      rcases findElement_step h with ⟨rfl, rfl⟩ | ⟨p, c, k, i, hp, hi, he, hc, -⟩
      · exact ⟨.here _, .file⟩
      · obtain ⟨h1, h2⟩ := ih _ (by rw [← hn, he]; simp) p c rfl hp
        rw [he]
        exact ⟨h1.snoc hi, .child _ h2 hc⟩
  exact key _ d e rfl h

/-! ## Paths of elements ask for no option -/

theorem Element.even {p : List Int} {k : Kind} (h : Element p k) : p.length % 2 = 0 := by
  induction h with
  | file => rfl
  | child i _ _ ih => rw [List.length_append]; simp; omega

theorem Element.unique {p : List Int} {k k' : Kind} (h : Element p k) (h' : Element p k') : k = k' := by
  induction h generalizing k' with
  | file =>
    generalize hq : ([] : List Int) = q at h'
    cases h' with
    | file => rfl
    | child => simp at hq
  | @child p k1 k2 n i h hc ih =>
    generalize hq : p ++ [n, i] = q at h'
    cases h' with
    | file => simp at hq
    | @child p' k1' k2' n' i' h' hc' =>
      have := List.append_inj' hq rfl
      obtain ⟨rfl, he⟩ := this
      simp only [List.cons.injEq, and_true] at he
      obtain ⟨rfl, rfl⟩ := he
      have := ih h'
      subst this
      have h1 := (OptionLocations.next_child hc).1
      have h2 := (OptionLocations.next_child hc').1
      rw [h1] at h2
      cases h2
      rfl

theorem element_asks {p q : List Int} {k : Kind} (h : Element q k) (hp : OptionLocations.OptionAt p) : ¬ OptionLocations.Asks p q := by
  obtain ⟨e, k1, o, tag, he, ho, rfl⟩ := hp
  intro ha
  have h1 := Element.even he
  have h2 := Element.even h
  cases ha with
  | whole =>
    generalize hq : e ++ [o, tag] = q at h
    cases h with
    | file => simp at hq
    | @child p' k2 _ n i h' hc =>
      have := List.append_inj' hq rfl
      obtain ⟨rfl, hx⟩ := this
      simp only [List.cons.injEq, and_true] at hx
      obtain ⟨rfl, rfl⟩ := hx
      have := Element.unique he h'
      subst this
      have h3 := (OptionLocations.next_child hc)
      rw [OptionLocations.next_options.2 ho] at h3
      simp only [Option.some.injEq] at h3
      exact h3.2 h3.1.symm
  | element n =>
    simp at h2
    omega

/-! ## Slices -/

/-- The slice lies in its array. -/
def Slice.Ok (h : Heap) (s : Slice) : Prop := s.array < h.length ∧ s.len ≤ (h.getD s.array []).length

theorem append_spec {grow : Nat → Nat → Nat} (h : Heap) (s : Slice) (hs : s.Ok h) (xs : List Int) :
    let r := append grow h s xs
    read r.1 r.2 = read h s ++ xs ∧ r.2.Ok r.1 ∧ r.2.len = s.len + xs.length ∧
      (∀ t : Slice, t.Ok h → (t.array ≠ s.array ∨ t.len ≤ s.len) → t.Ok r.1 ∧ read r.1 t = read h t) ∧
      (∀ t : Slice, t.Ok h → t.Ok r.1 ∧ (r.2.array ≠ s.array → read r.1 t = read h t)) := by
  obtain ⟨ha, hl⟩ := hs
  have hg : h.getD s.array [] = h[s.array] := by rw [List.getD_eq_getElem?_getD, List.getElem?_eq_getElem ha]; rfl
  intro r
  by_cases hc : s.len + xs.length ≤ (h.getD s.array []).length
  · have hr : r = (h.set s.array ((h.getD s.array []).take s.len ++ xs ++ (h.getD s.array []).drop (s.len + xs.length)),
        ⟨s.array, s.len + xs.length⟩) := by
      simp only [r, append, if_pos hc]
    have hlen : ((h.getD s.array []).take s.len ++ xs ++ (h.getD s.array []).drop (s.len + xs.length)).length =
        (h.getD s.array []).length := by
      simp only [List.length_append, List.length_take, List.length_drop]
      omega
    have hget : ∀ t : Nat, (h.set s.array ((h.getD s.array []).take s.len ++ xs ++ (h.getD s.array []).drop (s.len + xs.length))).getD t [] =
        if t = s.array then (h.getD s.array []).take s.len ++ xs ++ (h.getD s.array []).drop (s.len + xs.length) else h.getD t [] := by
      intro t
      rw [List.getD_eq_getElem?_getD, List.getElem?_set]
      by_cases ht : t = s.array
      · subst ht
        simp only [if_true, ha]
        rfl
      · rw [if_neg (fun e => ht e.symm), if_neg ht, List.getD_eq_getElem?_getD]
    have hok : ∀ t : Slice, t.Ok h → t.Ok r.1 := by
      intro t ht
      rw [hr]
      refine ⟨by simpa using ht.1, ?_⟩
      simp only
      rw [hget]
      split
      · rename_i he
        rw [hlen, ← he]
        exact ht.2
      · exact ht.2
    refine ⟨?_, ?_, by rw [hr], ?_, ?_⟩
    · rw [hr]
      simp only [read]
      rw [hget, if_pos rfl, List.take_append_of_le_length (by simp only [List.length_append, List.length_take]; omega),
        List.take_of_length_le (by simp only [List.length_append, List.length_take]; omega)]
    · rw [hr]
      refine ⟨by simpa using ha, ?_⟩
      simp only
      rw [hget, if_pos rfl, hlen]
      exact hc
    · intro t ht hd
      refine ⟨hok t ht, ?_⟩
      rw [hr]
      simp only [read]
      rw [hget]
      split
      · rename_i he
        have hd := hd.resolve_left (fun hn => hn he)
        rw [List.append_assoc, List.take_append_of_le_length (by rw [List.length_take]; omega), List.take_take, Nat.min_eq_left hd, he]
      · rfl
    · intro t ht
      refine ⟨hok t ht, fun hn => ?_⟩
      rw [hr] at hn
      exact absurd rfl hn
  · have hr : r = (h ++ [(h.getD s.array []).take s.len ++ xs ++
        List.replicate (grow (h.getD s.array []).length (s.len + xs.length) - (s.len + xs.length)) 0], ⟨h.length, s.len + xs.length⟩) := by
      simp only [r, append, if_neg hc]
    have hget : ∀ (a : List Int) (t : Nat), t < h.length → (h ++ [a]).getD t [] = h.getD t [] := by
      intro a t ht
      rw [List.getD_eq_getElem?_getD, List.getElem?_append_left ht, List.getD_eq_getElem?_getD]
    have hget' : ∀ (a : List Int), (h ++ [a]).getD h.length [] = a := by
      intro a
      rw [List.getD_eq_getElem?_getD, List.getElem?_append_right (Nat.le_refl _)]
      simp
    have hall : ∀ t : Slice, t.Ok h → t.Ok r.1 ∧ read r.1 t = read h t := by
      intro t ht
      rw [hr]
      refine ⟨⟨by have := ht.1; simp; omega, ?_⟩, ?_⟩
      · simp only
        rw [hget _ _ ht.1]
        exact ht.2
      · simp only [read]
        rw [hget _ _ ht.1]
    refine ⟨?_, ?_, by rw [hr], fun t ht _ => hall t ht, fun t ht => ⟨(hall t ht).1, fun _ => (hall t ht).2⟩⟩
    · rw [hr]
      simp only [read]
      rw [hget', List.take_append_of_le_length (by simp only [List.length_append, List.length_take]; omega),
        List.take_of_length_le (by simp only [List.length_append, List.length_take]; omega)]
    · rw [hr]
      refine ⟨by simp, ?_⟩
      simp only
      rw [hget']
      simp only [List.length_append, List.length_take, List.length_replicate]
      omega

end Verif.PrintPath
