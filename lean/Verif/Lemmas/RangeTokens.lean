import Verif.Spec.RangeTokens
import Mathlib.Tactic.Tauto
/-! Lemmas about the semantic tokens of a range. -/
namespace Verif.RangeTokens

open Inspect

/-- Whether a token or comment belongs to a leaf of the range. -/
def touches (lo hi : Int) (o : Out) : Bool := (leaves o).any fun i => decide (lo ≤ (i : Int) ∧ (i : Int) ≤ hi)

/-- All leaves are among those of `L`, and there are some. -/
def Sub (os : List Out) (L : List Nat) : Prop := ∀ o ∈ os, leaves o ≠ [] ∧ ∀ i ∈ leaves o, i ∈ L

theorem Sub.mono {os : List Out} {L M : List Nat} (h : Sub os L) (hm : ∀ i ∈ L, i ∈ M) : Sub os M := fun o ho => ⟨(h o ho).1, fun i hi => hm i ((h o ho).2 i hi)⟩

theorem Sub.append {a b : List Out} {L : List Nat} (ha : Sub a L) (hb : Sub b L) : Sub (a ++ b) L := fun o ho =>
  (List.mem_append.1 ho).elim (ha o) (hb o)

theorem sub_nil (L : List Nat) : Sub [] L := fun o ho => by simp at ho

theorem sub_flat {α : Type} (f : α → List Out) (l : List α) (L : List Nat) (h : ∀ x ∈ l, Sub (f x) L) : Sub (l.flatMap f) L := fun o ho => by
  obtain ⟨x, hx, ho⟩ := List.mem_flatMap.1 ho
  exact h x hx o ho

theorem sub_comments (a b : Leaf) (L : List Nat) (ha : a.id ∈ L) (hb : b.id ∈ L) : Sub (mkcomments a b) L := by
  intro o ho
  refine ⟨by simp only [mkcomments, List.mem_cons, List.not_mem_nil, or_false] at ho; rcases ho with rfl | rfl <;> simp [leaves], fun i hi => ?_⟩
  simp only [mkcomments, List.mem_cons, List.not_mem_nil, or_false] at ho
  rcases ho with rfl | rfl <;> simp only [leaves, List.mem_singleton] at hi <;> subst hi <;> assumption

theorem sub_tokens (f : Leaf) (r : List Leaf) (t : Typ) (m : Mods) (L : List Nat) (h : ∀ l ∈ f :: r, l.id ∈ L) : Sub (mktokens f r t m) L := by
  have hl : (r.getLastD f).id ∈ L := by
    apply h
    cases r with
    | nil => simp
    | cons a as =>
      rw [List.getLastD_cons]
      exact List.mem_cons_of_mem _ (by
        cases as with
        | nil => simp
        | cons b bs =>
          rw [List.getLastD_eq_getLast?, List.getLast?_eq_some_getLast (by simp)]
          exact List.mem_cons_of_mem _ (List.getLast_mem _))
  intro o ho
  simp only [mktokens, List.mem_cons] at ho
  rcases ho with rfl | ho
  · refine ⟨by simp [leaves], fun i hi => ?_⟩
    simp only [leaves] at hi
    obtain ⟨l, hl, rfl⟩ := List.mem_map.1 hi
    exact h l hl
  · exact sub_comments f _ L (h f (by simp)) hl o (by simpa [mkcomments] using ho)

theorem sub_one (l : Leaf) (t : Typ) (m : Mods) (L : List Nat) (h : l.id ∈ L) : Sub (mktokens l [] t m) L :=
  sub_tokens l [] t m L (by simpa using h)

theorem sub_leaf (l : Leaf) (L : List Nat) (h : l.id ∈ L) : Sub (visitLeaf l) L := by
  unfold visitLeaf
  split
  · exact sub_comments l l L h h
  · exact sub_one l _ _ L h
  · exact sub_one l _ _ L h
  · exact sub_one l _ _ L h
  · exact sub_nil L
  · split
    · exact sub_nil L
    · split
      · exact sub_comments l l L h h
      · exact sub_one l _ _ L h

theorem sub_nameTokens (n : Name) (t : Typ) (m : Mods) (L : List Nat) (h : ∀ i ∈ n.ids, i ∈ L) : Sub (n.tokens t m) L := by
  cases n with
  | ident l => exact sub_one l _ _ L (h _ (by simp [Name.ids]))
  | compound f r w g => exact sub_tokens f r _ _ L (fun l hl => h _ (List.mem_map.2 ⟨l, hl, rfl⟩))

theorem sub_name (n : Name) (L : List Nat) (h : ∀ i ∈ n.ids, i ∈ L) : Sub (visitName n) L := by
  cases n with
  | ident l => exact sub_leaf l L (h _ (by simp [Name.ids]))
  | compound f r w g => exact sub_flat _ _ _ (fun l hl => sub_leaf l L (h _ (List.mem_map.2 ⟨l, hl, rfl⟩)))

theorem sub_mark (k : Mark) (n : Name) (L : List Nat) (h : ∀ i ∈ n.ids, i ∈ L) : Sub (k.tokens n) L := by
  cases k with
  | whole t m => exact sub_nameTokens n t m L h
  | split m =>
    cases n with
    | ident l => exact sub_one l _ _ L (h _ (by simp [Name.ids]))
    | compound f r w g =>
      simp only [Mark.tokens, compoundIdent]
      split
      · exact sub_tokens f r _ _ L (fun l hl => h _ (List.mem_map.2 ⟨l, hl, rfl⟩))
      · exact sub_flat _ _ _ (fun l hl => sub_one l _ _ L (h _ (List.mem_map.2 ⟨l, hl, rfl⟩)))

theorem sub_marks : ∀ (kids : List Tree) (L : List Nat), (∀ i ∈ idss kids, i ∈ L) → Sub (marks kids) L
  | [], L, _ => sub_nil L
  | t :: kids, L, h => by
    have ih := sub_marks kids L (fun i hi => h i (by simp [idss, hi]))
    cases t with
    | named m n => exact (sub_mark m n L (fun i hi => h i (by simp [idss, ids, hi]))).append ih
    | _ => exact ih

theorem sub_ref (r : Ref) (L : List Nat) (h : ∀ i ∈ r.ids, i ∈ L) : Sub (visitRef r) L ∧ Sub (refTokens r) L := by
  cases r with
  | any op url slash name cl =>
    have h1 : op.id ∈ L := h _ (by simp [Ref.ids])
    have h2 : ∀ i ∈ url.ids, i ∈ L := fun i hi => h i (by simp [Ref.ids, hi])
    have h3 : slash.id ∈ L := h _ (by simp [Ref.ids])
    have h4 : ∀ i ∈ name.ids, i ∈ L := fun i hi => h i (by simp [Ref.ids, hi])
    have h5 : cl.id ∈ L := h _ (by simp [Ref.ids])
    exact ⟨((((sub_leaf _ _ h1).append (sub_name _ _ h2)).append (sub_leaf _ _ h3)).append (sub_name _ _ h4)).append (sub_leaf _ _ h5),
      ((((sub_one _ _ _ _ h1).append (sub_nameTokens _ _ _ _ h2)).append (sub_one _ _ _ _ h3)).append (sub_nameTokens _ _ _ _ h4)).append
        (sub_one _ _ _ _ h5)⟩
  | ext op name cl =>
    have h1 : op.id ∈ L := h _ (by simp [Ref.ids])
    have h4 : ∀ i ∈ name.ids, i ∈ L := fun i hi => h i (by simp [Ref.ids, hi])
    have h5 : cl.id ∈ L := h _ (by simp [Ref.ids])
    exact ⟨((sub_leaf _ _ h1).append (sub_name _ _ h4)).append (sub_leaf _ _ h5),
      ((sub_one _ _ _ _ h1).append (sub_nameTokens _ _ _ _ h4)).append (sub_one _ _ _ _ h5)⟩
  | plain name => exact ⟨sub_leaf _ _ (h _ (by simp [Ref.ids])), sub_one _ _ _ _ (h _ (by simp [Ref.ids]))⟩

theorem sub_part (p : Part) (L : List Nat) (h : ∀ i ∈ p.ids, i ∈ L) : Sub (partTokens p) L := by
  cases p with
  | ext op name cl =>
    have h1 : op.id ∈ L := h _ (by simp [Part.ids])
    have h4 : ∀ i ∈ name.ids, i ∈ L := fun i hi => h i (by simp [Part.ids, hi])
    have h5 : cl.id ∈ L := h _ (by simp [Part.ids])
    exact ((sub_one _ _ _ _ h1).append (sub_nameTokens _ _ _ _ h4)).append (sub_one _ _ _ _ h5)
  | plain name pseudo => exact sub_nameTokens _ _ _ _ h
  | dot l => exact sub_one _ _ _ _ (h _ (by simp [Part.ids]))

theorem sub_option (fd : Option Kind) (t : Tree) (L : List Nat) (h : ∀ i ∈ ids t, i ∈ L) : Sub (optionTokens fd t) L := by
  unfold optionTokens
  split
  · exact sub_one _ _ _ _ (h _ (by simp [ids]))
  · exact sub_one _ _ _ _ (h _ (by simp [ids]))
  · split
    · exact sub_one _ _ _ _ (h _ (by simp [ids]))
    · exact sub_nil L
  · exact sub_nil L

theorem sub_fieldLiteral (fd : Option Kind) (t : Tree) (L : List Nat) (h : ∀ i ∈ ids t, i ∈ L) : Sub (fieldLiteral fd t) L := by
  unfold fieldLiteral
  split
  · exact sub_one _ _ _ _ (h _ (by simp [ids]))
  · split
    · exact sub_one _ _ _ _ (h _ (by simp [ids]))
    · exact sub_nil L
  · split
    · exact sub_one _ _ _ _ (h _ (by simp [ids]))
    · exact sub_nil L
  · exact sub_nil L

theorem sub_element (fd : Option Kind) (t : Tree) (L : List Nat) (h : ∀ i ∈ ids t, i ∈ L) : Sub (elementTokens fd t) L := by
  unfold elementTokens
  split
  · exact sub_one _ _ _ _ (h _ (by simp [ids]))
  · split
    · exact sub_one _ _ _ _ (h _ (by simp [ids]))
    · exact sub_nil L
  · split
    · exact sub_one _ _ _ _ (h _ (by simp [ids]))
    · exact sub_nil L
  · exact sub_nil L

theorem mem_idss {t : Tree} : ∀ {ts : List Tree}, t ∈ ts → ∀ i ∈ ids t, i ∈ idss ts
  | [], h, _, _ => by simp at h
  | s :: ts, h, i, hi => by
    rcases List.mem_cons.1 h with rfl | h
    · simp [idss, hi]
    · simp [idss, mem_idss h i hi]

theorem sub_value (fd : Option Kind) (t : Tree) (L : List Nat) (h : ∀ i ∈ ids t, i ∈ L) : Sub (valueTokens fd t) L := by
  cases t with
  | array kids => exact sub_flat _ _ _ (fun k hk => sub_element fd k L (fun i hi => h i (by simpa [ids] using mem_idss hk i hi)))
  | _ => exact sub_fieldLiteral fd _ L h

mutual
theorem sub_visit : ∀ t : Tree, Sub (visit t) (ids t)
  | .leaf l => sub_leaf l _ (by simp [ids])
  | .special l => sub_one l _ _ _ (by simp [ids])
  | .named m n => sub_name n _ (by simp [ids])
  | .node kids => by
    simp only [visit, ids]
    exact (sub_marks kids _ (fun i hi => hi)).append (sub_visits kids)
  | .optionName parts => by
    simp only [visit, ids]
    exact sub_flat _ _ _ (fun p hp => sub_part p _ (fun i hi => List.mem_flatMap.2 ⟨p, hp, hi⟩))
  | .option fd pre val post => by
    simp only [visit, ids]
    exact (sub_option fd val _ (by simp; tauto)).append ((((sub_visits pre).mono (by simp; tauto)).append ((sub_visit val).mono (by simp; tauto))).append
      ((sub_visits post).mono (by simp; tauto)))
  | .field fd ref sep val post => by
    simp only [visit, ids]
    have hr := sub_ref ref (ref.ids ++ idss sep ++ ids val ++ idss post) (by simp; tauto)
    exact (hr.2.append (sub_value fd val _ (by simp; tauto))).append (((hr.1.append ((sub_visits sep).mono (by simp; tauto))).append
      ((sub_visit val).mono (by simp; tauto))).append ((sub_visits post).mono (by simp; tauto)))
  | .array kids => by
    simp only [visit, ids]
    exact sub_visits kids

theorem sub_visits : ∀ ts : List Tree, Sub (visits ts) (idss ts)
  | [] => sub_nil _
  | t :: ts => by
    simp only [visits, idss]
    exact ((sub_visit t).mono (by simp; tauto)).append ((sub_visits ts).mono (by simp; tauto))
end

theorem overlaps_of_mem {lo hi : Int} {L : List Nat} (hs : L.Pairwise (· ≤ ·)) {i : Nat} (hi' : i ∈ L) (h1 : lo ≤ i) (h2 : (i : Int) ≤ hi) :
    overlaps lo hi L = true := by
  have hne : L ≠ [] := List.ne_nil_of_mem hi'
  have ha : L.head hne ≤ i := by
    cases L with
    | nil => exact absurd rfl hne
    | cons a as =>
      rcases List.mem_cons.1 hi' with rfl | h
      · simp
      · exact (List.pairwise_cons.1 hs).1 i h
  have hb : i ≤ L.getLast hne := by
    obtain ⟨init, hL⟩ : ∃ init, L = init ++ [L.getLast hne] := ⟨L.dropLast, (List.dropLast_concat_getLast hne).symm⟩
    rw [hL] at hs hi'
    rcases List.mem_append.1 hi' with h | h
    · exact (List.pairwise_append.1 hs).2.2 i h _ (by simp)
    · simp only [List.mem_singleton] at h
      exact Nat.le_of_eq h
  unfold overlaps
  rw [List.head?_eq_some_head hne, List.getLast?_eq_some_getLast hne]
  simp only [decide_eq_true_eq]
  omega

theorem gate {lo hi : Int} {L : List Nat} (hs : L.Pairwise (· ≤ ·)) {X Y : List Out} (hY : Sub Y L)
    (h : X.filter (touches lo hi) = Y.filter (touches lo hi)) :
    (if overlaps lo hi L then X else []).filter (touches lo hi) = Y.filter (touches lo hi) := by
  split
  · exact h
  · rename_i hn
    rw [List.filter_nil, eq_comm, List.filter_eq_nil_iff]
    intro o ho ht
    simp only [touches, List.any_eq_true, decide_eq_true_eq] at ht
    obtain ⟨i, hi1, hi2, hi3⟩ := ht
    exact hn (overlaps_of_mem hs ((hY o ho).2 i hi1) hi2 hi3)

theorem leafIn_eq (lo hi : Int) (l : Leaf) : (leafIn lo hi l).filter (touches lo hi) = (visitLeaf l).filter (touches lo hi) :=
  gate (L := [l.id]) (by simp) (sub_leaf l _ (by simp)) rfl

theorem leavesIn_eq (lo hi : Int) : ∀ ls : List Leaf, (ls.flatMap (leafIn lo hi)).filter (touches lo hi) =
    (ls.flatMap visitLeaf).filter (touches lo hi)
  | [] => rfl
  | l :: ls => by simp only [List.flatMap_cons, List.filter_append, leafIn_eq, leavesIn_eq lo hi ls]

theorem nameIn_eq (lo hi : Int) (n : Name) (hs : n.ids.Pairwise (· ≤ ·)) :
    (nameIn lo hi n).filter (touches lo hi) = (visitName n).filter (touches lo hi) := by
  refine gate hs (sub_name n _ (fun i hi => hi)) ?_
  cases n with
  | ident l => exact leafIn_eq lo hi l
  | compound f r w g => exact leavesIn_eq lo hi (f :: r)

theorem refIn_eq (lo hi : Int) (r : Ref) (hs : r.ids.Pairwise (· ≤ ·)) :
    (refIn lo hi r).filter (touches lo hi) = (visitRef r).filter (touches lo hi) := by
  refine gate hs (sub_ref r _ (fun i hi => hi)).1 ?_
  cases r with
  | any op url slash name cl =>
    simp only [Ref.ids, List.pairwise_cons, List.pairwise_append] at hs
    simp only [visitRef, List.filter_append, leafIn_eq, nameIn_eq lo hi url hs.2.1, nameIn_eq lo hi name hs.2.2.1.2.1]
  | ext op name cl =>
    simp only [Ref.ids, List.pairwise_cons, List.pairwise_append] at hs
    simp only [visitRef, List.filter_append, leafIn_eq, nameIn_eq lo hi name hs.2.1]
  | plain name => exact leafIn_eq lo hi name

mutual
theorem visitIn_eq (lo hi : Int) : ∀ t : Tree, (ids t).Pairwise (· ≤ ·) →
    (visitIn lo hi t).filter (touches lo hi) = (visit t).filter (touches lo hi)
  | .leaf l, _ => leafIn_eq lo hi l
  | .special l, _ => gate (L := [l.id]) (by simp) (sub_one l _ _ _ (by simp)) rfl
  | .named _ n, hs => nameIn_eq lo hi n (by simpa [ids] using hs)
  | .node kids, hs => by
    simp only [visitIn]
    have hb := sub_visit (.node kids)
    simp only [ids] at hs hb
    refine gate hs hb ?_
    simp only [visit, List.filter_append, visitsIn_eq lo hi kids hs]
  | .optionName parts, hs => by
    simp only [visitIn]
    have hb := sub_visit (.optionName parts)
    simp only [ids] at hs hb
    exact gate hs hb rfl
  | .option fd pre val post, hs => by
    simp only [visitIn]
    have hb := sub_visit (.option fd pre val post)
    simp only [ids] at hs hb
    refine gate hs hb ?_
    simp only [List.pairwise_append] at hs
    simp only [visit, List.filter_append, visitsIn_eq lo hi pre hs.1.1, visitIn_eq lo hi val hs.1.2.1, visitsIn_eq lo hi post hs.2.1]
  | .field fd ref sep val post, hs => by
    simp only [visitIn]
    have hb := sub_visit (.field fd ref sep val post)
    simp only [ids] at hs hb
    refine gate hs hb ?_
    simp only [List.pairwise_append] at hs
    simp only [visit, List.filter_append, refIn_eq lo hi ref hs.1.1.1, visitsIn_eq lo hi sep hs.1.1.2.1, visitIn_eq lo hi val hs.1.2.1,
      visitsIn_eq lo hi post hs.2.1]
  | .array kids, hs => by
    simp only [visitIn]
    have hb := sub_visit (.array kids)
    simp only [ids] at hs hb
    refine gate hs hb ?_
    simp only [visit, visitsIn_eq lo hi kids hs]

theorem visitsIn_eq (lo hi : Int) : ∀ ts : List Tree, (idss ts).Pairwise (· ≤ ·) →
    (visitsIn lo hi ts).filter (touches lo hi) = (visits ts).filter (touches lo hi)
  | [], _ => rfl
  | t :: ts, hs => by
    simp only [idss, List.pairwise_append] at hs
    simp only [visitsIn, visits, List.filter_append, visitIn_eq lo hi t hs.1, visitsIn_eq lo hi ts hs.2.1]
end

theorem leafIn_sub (lo hi : Int) (l : Leaf) : (leafIn lo hi l).Sublist (visitLeaf l) := by
  unfold leafIn
  split
  · exact List.Sublist.refl _
  · exact List.nil_sublist _

theorem leavesIn_sub (lo hi : Int) : ∀ ls : List Leaf, (ls.flatMap (leafIn lo hi)).Sublist (ls.flatMap visitLeaf)
  | [] => List.Sublist.refl _
  | l :: ls => by
    simp only [List.flatMap_cons]
    exact (leafIn_sub lo hi l).append (leavesIn_sub lo hi ls)

theorem nameIn_sub (lo hi : Int) (n : Name) : (nameIn lo hi n).Sublist (visitName n) := by
  unfold nameIn
  split
  · cases n with
    | ident l => exact leafIn_sub lo hi l
    | compound f r w g => exact leavesIn_sub lo hi (f :: r)
  · exact List.nil_sublist _

theorem refIn_sub (lo hi : Int) (r : Ref) : (refIn lo hi r).Sublist (visitRef r) := by
  unfold refIn
  split
  · cases r with
    | any op url slash name cl =>
      exact ((((leafIn_sub lo hi op).append (nameIn_sub lo hi url)).append (leafIn_sub lo hi slash)).append (nameIn_sub lo hi name)).append
        (leafIn_sub lo hi cl)
    | ext op name cl => exact ((leafIn_sub lo hi op).append (nameIn_sub lo hi name)).append (leafIn_sub lo hi cl)
    | plain name => exact leafIn_sub lo hi name
  · exact List.nil_sublist _

mutual
theorem visitIn_sub (lo hi : Int) : ∀ t : Tree, (visitIn lo hi t).Sublist (visit t)
  | .leaf l => leafIn_sub lo hi l
  | .special l => by
    simp only [visitIn, visit]
    split
    · exact List.Sublist.refl _
    · exact List.nil_sublist _
  | .named _ n => nameIn_sub lo hi n
  | .node kids => by
    simp only [visitIn, visit]
    split
    · exact (List.Sublist.refl _).append (visitsIn_sub lo hi kids)
    · exact List.nil_sublist _
  | .optionName parts => by
    simp only [visitIn, visit]
    split
    · exact List.Sublist.refl _
    · exact List.nil_sublist _
  | .option fd pre val post => by
    simp only [visitIn, visit]
    split
    · exact (List.Sublist.refl _).append (((visitsIn_sub lo hi pre).append (visitIn_sub lo hi val)).append (visitsIn_sub lo hi post))
    · exact List.nil_sublist _
  | .field fd ref sep val post => by
    simp only [visitIn, visit]
    split
    · exact (List.Sublist.refl _).append ((((refIn_sub lo hi ref).append (visitsIn_sub lo hi sep)).append (visitIn_sub lo hi val)).append
        (visitsIn_sub lo hi post))
    · exact List.nil_sublist _
  | .array kids => by
    simp only [visitIn, visit]
    split
    · exact visitsIn_sub lo hi kids
    · exact List.nil_sublist _

theorem visitsIn_sub (lo hi : Int) : ∀ ts : List Tree, (visitsIn lo hi ts).Sublist (visits ts)
  | [] => List.Sublist.refl _
  | t :: ts => by
    simp only [visitsIn, visits]
    exact (visitIn_sub lo hi t).append (visitsIn_sub lo hi ts)
end

end Verif.RangeTokens
