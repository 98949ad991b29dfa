import Verif.Lemmas.TypeComplete
import Verif.Props.QuickFix
import Mathlib.Data.List.Forall2
/-!
# C106: accepting a type leaves a document in which the name of the type stands and is known
-/
namespace Verif.TypeComplete
open Verif.Documents (Pos)
open Verif.QuickFix (Edit posAfter sourcePosAfter Fits applyEdit editAddImport)
open Verif.ImportComplete (adjustColumn trimPrefix quoted)

/-- **C106**, what is offered: the items are those of the messages and enums among the candidates, each of them once, in the order of the
sort (C17); an item has the name that is to be shown as its label and is marked as an enum iff it is one. -/
theorem C106_offered (doc : Doc) (scope typed sfx : Str) (pos : Pos) (cands : List Cand) (items : List Item)
    (h : FromList doc scope typed sfx pos cands items) :
    ∃ types : List Cand, types.Perm (cands.filter (fun c => decide (IsType c))) ∧
      Completion.DistanceSort doc.pkg scope ((cands.filter (fun c => decide (IsType c))).map (fun c => ⟨c.fullName, c.pkg⟩))
        (types.map (fun c => ⟨c.fullName, c.pkg⟩)) ∧
      List.Forall₂ (fun c it => Shows doc.pkg typed c.fullName it.label ∧ (it.kind = .enum ↔ c.kind = .enum)) types items := by
  obtain ⟨out, ⟨hp, hs⟩, rfl⟩ := h
  refine ⟨out.filter (fun c => decide (IsType c)), hp.filter _, ?_, ?_⟩
  · refine ⟨(out.filter (fun c => decide (IsType c))).map (entry doc scope), ⟨?_, ?_⟩, ?_⟩
    · rw [List.map_map]
      exact (hp.filter _).map _
    · rw [List.pairwise_map]
      exact (hs.sublist List.filter_sublist)
    · rw [List.map_map]; rfl
  · refine (forall₂_filterMap out).imp ?_
    intro c it hi
    obtain ⟨_, h1, h2, _⟩ := item_of hi
    exact ⟨h1 ▸ shows_label doc typed c, h2⟩

/-- **C106**, the document afterwards: accepting an item replaces the word at the cursor by the name of the type. If the document does not
see a declaration of that name, one line with an import of the file of the type is inserted at the insertion point; otherwise nothing
else is changed. -/
theorem C106_text (doc : Doc) (w : World) (f a b l r rest : Str) (hres : Resolves doc w f)
    (hpoint : doc.point = sourcePosAfter a) (hl : '\n' ∉ l) (hr : '\n' ∉ r) (hf : Fits (a ++ b ++ l ++ (r ++ rest)))
    (scope : Str) (cands : List Cand) (items : List Item)
    (h : FromList doc scope l r (posAfter (a ++ b ++ l)) cands items) (it : Item) (hi : it ∈ items) :
    ∃ c ∈ cands, ∃ nm, Shows doc.pkg l c.fullName nm ∧
      (w.Visible f c.fullName → accept (a ++ b ++ l ++ (r ++ rest)) it = some (a ++ b ++ nm ++ rest)) ∧
      (¬ w.Visible f c.fullName → accept (a ++ b ++ l ++ (r ++ rest)) it =
        some (a ++ ("\nimport \"".toList ++ c.path ++ "\";".toList) ++ b ++ nm ++ rest)) := by
  obtain ⟨c, hc, he⟩ := mem_items h hi
  obtain ⟨_, _, _, _, h4, h5⟩ := item_of he
  refine ⟨c, hc, _, shows_label doc l c, ?_, ?_⟩
  · intro hv
    have hm : it.more = [] := by
      rw [h5]; unfold maybeResolveImport
      rw [(hres _).2 hv]
      simp only [Bool.true_eq_false, if_false]
      split <;> rfl
    unfold accept
    rw [hm, h4, List.foldl_nil, OptionComplete.replace_range _ _ _ _ hl hr hf]
  · intro hv
    have hm : it.more = [editAddImport doc.point c.path] := by
      rw [h5]; unfold maybeResolveImport
      rw [if_pos (by
        cases hb : doc.resolves c.fullName with
        | false => rfl
        | true => exact absurd ((hres _).1 hb) hv)]
    unfold accept
    rw [hm, h4, OptionComplete.replace_range _ _ _ _ hl hr hf, hpoint]
    have hfa : Fits a := by
      have := hf
      rw [List.append_assoc, List.append_assoc] at this
      exact this.left
    have := QuickFix.C84_add_import a (b ++ label doc l c ++ rest) c.path hfa
    simp only [List.foldl_cons, List.foldl_nil, Option.bind_some]
    rw [show a ++ b ++ label doc l c ++ rest = a ++ (b ++ label doc l c ++ rest) by simp, this]
    simp

/-- **C106**, the type is known: once the item has been accepted, the document sees a declaration of the name of the type, and everything
that it saw before. -/
theorem C106_visible (doc : Doc) (w : World) (f : Str) (hres : Resolves doc w f) (scope typed sfx : Str) (pos : Pos) (cands : List Cand)
    (hdecl : ∀ c ∈ cands, w.declares c.path c.fullName) (items : List Item) (h : FromList doc scope typed sfx pos cands items)
    (it : Item) (hi : it ∈ items) :
    ∃ c ∈ cands, Shows doc.pkg typed c.fullName it.label ∧ (after w f it).Visible f c.fullName ∧
      ∀ g n, w.Visible g n → (after w f it).Visible g n := by
  obtain ⟨c, hc, he⟩ := mem_items h hi
  have hmono : ∀ g n, w.Visible g n → (after w f it).Visible g n := by
    rintro g n ⟨k, hk, hd⟩
    exact ⟨k, hk.imp_right (fun hvia => via_mono (w' := after w f it) (fun _ _ _ hx => Or.inl hx) hvia), hd⟩
  refine ⟨c, hc, (item_of he).2.1 ▸ shows_label doc typed c, ?_, hmono⟩
  rcases more_of hres he with ⟨hv, _⟩ | ⟨_, hm⟩
  · exact hmono _ _ hv
  · exact ⟨c.path, .inr (.direct (.inr ⟨rfl, rfl, _, by rw [hm]; exact List.mem_singleton_self _, adds_edit doc c.path⟩)), hdecl c hc⟩

/-- **C106**, imports: an item adds an import only if the type is not known without it. It adds at most one, that of a file with a declaration
of the name; this is not the document itself, nor a file that the document imports already. -/
theorem C106_import_once (doc : Doc) (w : World) (f : Str) (hres : Resolves doc w f) (scope typed sfx : Str) (pos : Pos) (cands : List Cand)
    (hdecl : ∀ c ∈ cands, w.declares c.path c.fullName) (items : List Item) (h : FromList doc scope typed sfx pos cands items)
    (it : Item) (hi : it ∈ items) :
    ∃ c ∈ cands, Shows doc.pkg typed c.fullName it.label ∧ (it.more = [] ↔ w.Visible f c.fullName) ∧ it.more.length ≤ 1 ∧
      ∀ e ∈ it.more, ∃ p, AddsImport e p ∧ w.declares p c.fullName ∧ p ≠ f ∧ ¬ w.Imports f p := by
  obtain ⟨c, hc, he⟩ := mem_items h hi
  refine ⟨c, hc, (item_of he).2.1 ▸ shows_label doc typed c, ?_⟩
  rcases more_of hres he with ⟨hv, hm⟩ | ⟨hv, hm⟩
  · rw [hm]; simp [hv]
  · rw [hm]
    refine ⟨by simp [hv], by simp, ?_⟩
    intro e hm'
    rw [List.mem_singleton.1 hm']
    refine ⟨c.path, adds_edit doc c.path, hdecl c hc, ?_, ?_⟩
    · intro hp
      exact hv ⟨c.path, .inl hp, hdecl c hc⟩
    · rintro ⟨b, hb⟩
      exact hv ⟨c.path, .inr (.direct hb), hdecl c hc⟩

/-- **C106**, details: the full name of the type is to be seen in the label or in the detail; the file is given iff the type is not known
yet or is of another package. -/
theorem C106_detail (doc : Doc) (w : World) (f : Str) (hres : Resolves doc w f) (scope typed sfx : Str) (pos : Pos) (cands : List Cand)
    (hpath : ∀ c ∈ cands, '"' ∉ c.path ∧ '\\' ∉ c.path) (items : List Item) (h : FromList doc scope typed sfx pos cands items)
    (it : Item) (hi : it ∈ items) :
    ∃ c ∈ cands, Shows doc.pkg typed c.fullName it.label ∧
      (w.Visible f c.fullName ∧ c.pkg = doc.pkg → it.detail = c.fullName) ∧
      (¬ (w.Visible f c.fullName ∧ c.pkg = doc.pkg) →
        it.detail = c.fullName ++ " (from \"".toList ++ c.path ++ "\")".toList ∨
        (it.label = c.fullName ∧ it.detail = "from \"".toList ++ c.path ++ "\"".toList)) := by
  obtain ⟨c, hc, he⟩ := mem_items h hi
  obtain ⟨_, h1, _, h3, _, _⟩ := item_of he
  refine ⟨c, hc, h1 ▸ shows_label doc typed c, ?_, ?_⟩
  · rintro ⟨hv, hp⟩
    rw [h3]; unfold maybeResolveImport
    rw [(hres _).2 hv]
    simp [hp]
  · intro hn
    have hq : quoted c.path = '"' :: (c.path ++ ['"']) := by
      unfold quoted
      congr 2
      have : ∀ s : Str, '"' ∉ s → '\\' ∉ s → s.flatMap (fun c => if c = '"' ∨ c = '\\' then ['\\', c] else [c]) = s := by
        intro s
        induction s with
        | nil => intros; rfl
        | cons x t ih =>
          intro a b
          simp only [List.mem_cons, not_or] at a b
          rw [List.flatMap_cons, ih a.2 b.2, if_neg (by rintro (k | k) <;> simp_all)]
          rfl
      exact this _ (hpath c hc).1 (hpath c hc).2
    rw [h1, h3]
    unfold maybeResolveImport
    by_cases hv : w.Visible f c.fullName
    · rw [(hres _).2 hv]
      have hp : c.pkg ≠ doc.pkg := fun k => hn ⟨hv, k⟩
      left
      simp [hp, withPath, fromPath, hq]
    · rw [if_pos (by
        cases hb : doc.resolves c.fullName with
        | false => rfl
        | true => exact absurd ((hres _).1 hb) hv)]
      by_cases hl : label doc typed c = c.fullName
      · right
        simp [hl, fromPath, hq]
      · left
        simp [hl, withPath, fromPath, hq]

/-! ## What the name refers to -/

/-- **C106**, the name refers to the type. `pkg` is the package of the document, `inner` the messages around the place.

Partial: what stands in an inner scope must not hide the first word of the inserted name, see `C106_hidden_violated` and
`C106_package_violated`; names with a leading dot always refer to the type. -/
theorem C106_refers_partial (doc : Doc) (defs : List Str → Prop) (pkg inner target : List Str) (hpkg : doc.pkg = dotted pkg)
    (hw : Wf pkg) (hwt : Wf target) (hne : target ≠ []) (hclosed : ∀ p q, p ≠ [] → defs (p ++ q) → defs p) (hdef : defs target)
    (scope typed sfx : Str) (pos : Pos) (cands : List Cand) (items : List Item) (h : FromList doc scope typed sfx pos cands items)
    (c : Cand) (hc : c ∈ cands) (hty : IsType c) (hname : c.fullName = dotted target)
    (hhidden : ∀ s nm, s <+: pkg ++ inner → Wf nm → Shows doc.pkg typed c.fullName (dotted nm) → target.length < s.length + nm.length →
      ¬ defs (s ++ nm.take 1)) :
    ∃ it ∈ items, Refers defs (pkg ++ inner) it.label target := by
  obtain ⟨out, ⟨hp, _⟩, rfl⟩ := h
  obtain ⟨it, he⟩ := item_isType (doc := doc) (typed := typed) (sfx := sfx) (pos := pos) hty
  refine ⟨it, List.mem_filterMap.2 ⟨c, hp.mem_iff.2 hc, he⟩, ?_⟩
  have hs := (item_of he).2.1 ▸ shows_label doc typed c
  have key : ∀ sc nm : List Str, target = sc ++ nm → nm ≠ [] → sc <+: pkg ++ inner → it.label = dotted nm →
      Refers defs (pkg ++ inner) it.label target := by
    intro sc nm e hnm hpre hl
    have hwn : Wf nm := (Wf.append.1 (e ▸ hwt)).2
    refine .inr ⟨nm, hwn, hl, sc, hpre, ?_, ?_, e, hdef⟩
    · refine hclosed _ (nm.drop 1) ?_ ?_
      · cases nm with
        | nil => exact absurd rfl hnm
        | cons => simp
      · rw [List.append_assoc, List.take_append_drop, ← e]; exact hdef
    · intro s hsp hlt
      refine hhidden s nm hsp hwn (hl ▸ hs) ?_
      rw [e, List.length_append]; omega
  generalize hL : it.label = L at hs key
  cases hs with
  | absolute t ht => exact .inl ⟨by rw [hname], hdef⟩
  | qualified t u x ht hx => exact key [] target rfl hne List.nil_prefix hname
  | foreign ht hx => exact key [] target rfl hne List.nil_prefix hname
  | short _ ht hx =>
    rw [hname, hpkg] at hx
    -- the components of the package are the first components of the type
    obtain ⟨nm, hnm, e⟩ : ∃ nm, target = pkg ++ nm ∧ L = dotted nm ∧ nm ≠ [] := by
      by_cases hpk : pkg = []
      · subst hpk
        -- no name begins with a dot
        exfalso
        obtain ⟨q, qs, rfl⟩ := List.exists_cons_of_ne_nil hne
        obtain ⟨y, ey, _, _⟩ := Completion.tail_of q qs
        rw [ey] at hx
        have hq := hwt q (by simp)
        cases q with
        | nil => exact hq.1 rfl
        | cons d t =>
          simp [dotted, joinWith] at hx
          exact hq.2 (by simp [hx.1])
      · exact dotted_prefix L pkg target hw hwt hpk hx
    exact key pkg nm hnm e.2 (List.prefix_append _ _) e.1

/-- **C106** is violated by names of inner scopes: inside a message `p.M` with a nested message `T`, the item of the type `p.T` inserts `T`,
which refers to `p.M.T`. -/
theorem C106_hidden_violated :
    ∃ (defs : List Str → Prop) (doc : Doc) (target other place : List Str) (c : Cand) (typed : Str),
      defs target ∧ defs other ∧ target ≠ other ∧ doc.pkg <+: dotted place ∧ c.fullName = dotted target ∧
      ∀ (scope sfx : Str) (pos : Pos) (items : List Item), FromList doc scope typed sfx pos [c] items →
        ∃ it ∈ items, Refers defs place it.label other ∧ ¬ Refers defs place it.label target := by
  let p := ['p']; let M := ['M']; let T := ['T']
  let defs : List Str → Prop := fun x => x ∈ [[p], [p, M], [p, T], [p, M, T]]
  have hden : Denotes defs [p, M] [T] [p, M, T] := by
    refine ⟨[p, M], by decide, by decide, ?_, by decide, by decide⟩
    intro s hs hl
    have := hs.length_le
    simp at this hl
    omega
  refine ⟨defs, ⟨p, ⟨1, 1⟩, fun _ => true⟩, [p, T], [p, M, T], [p, M], ⟨['p', '.', 'T'], .message false false, ['a'], p⟩, T, by decide,
    by decide, by decide, by decide, by decide, ?_⟩
  rintro scope sfx pos items ⟨out, ⟨hp, _⟩, rfl⟩
  rw [List.perm_singleton] at hp
  subst hp
  refine ⟨_, List.mem_filterMap.2 ⟨_, List.mem_singleton_self _, rfl⟩, ?_⟩
  change Refers defs [p, M] T [p, M, T] ∧ ¬ Refers defs [p, M] T [p, T]
  refine ⟨.inr ⟨[T], by unfold Wf; decide, by decide, hden⟩, ?_⟩
  rintro (⟨h, _⟩ | ⟨nm, hw, h, hd⟩)
  · revert h; decide
  · have : nm = [T] := dotted_inj hw (by unfold Wf; decide) (h.symm.trans (by decide))
    subst this
    exact absurd (hd.unique hden) (by decide)

/-- **C106** is violated by the package of the document: in a document of package `a.b`, the item of the type `b.T` inserts `b.T`, which
refers to nothing, because `b` is the package of the document. -/
theorem C106_package_violated :
    ∃ (defs : List Str → Prop) (doc : Doc) (target place : List Str) (c : Cand) (typed : Str),
      defs target ∧ (∀ p q, p ≠ [] → defs (p ++ q) → defs p) ∧ doc.pkg = dotted place ∧ c.fullName = dotted target ∧
      ∀ (scope sfx : Str) (pos : Pos) (items : List Item), FromList doc scope typed sfx pos [c] items →
        ∃ it ∈ items, ∀ other, ¬ Refers defs place it.label other := by
  let a := ['a']; let b := ['b']; let T := ['T']
  let defs : List Str → Prop := fun x => x ∈ [[a], [a, b], [b], [b, T]]
  refine ⟨defs, ⟨['a', '.', 'b'], ⟨1, 1⟩, fun _ => true⟩, [b, T], [a, b], ⟨['b', '.', 'T'], .message false false, ['a'], b⟩, T, by decide,
    ?_, by decide, by decide, ?_⟩
  · intro p q hp h
    have hpre : p <+: p ++ q := List.prefix_append _ _
    have h' : p ++ q ∈ [[a], [a, b], [b], [b, T]] := h
    generalize p ++ q = r at h' hpre
    rw [List.prefix_iff_eq_take] at hpre
    simp only [List.mem_cons, List.not_mem_nil, or_false] at h'
    rcases h' with rfl | rfl | rfl | rfl <;>
    · match hl : p.length with
      | 0 => exact absurd (List.length_eq_zero_iff.1 hl) hp
      | 1 => rw [hl] at hpre; rw [hpre]; decide
      | k + 2 => rw [hl] at hpre; rw [hpre]; simp [defs]
  · rintro scope sfx pos items ⟨out, ⟨hp, _⟩, rfl⟩
    rw [List.perm_singleton] at hp
    subst hp
    refine ⟨_, List.mem_filterMap.2 ⟨_, List.mem_singleton_self _, rfl⟩, ?_⟩
    change ∀ other, ¬ Refers defs [a, b] ['b', '.', 'T'] other
    rintro other (⟨h, hd⟩ | ⟨nm, hw, h, hd⟩)
    · simp at h
    · have : nm = [b, T] := dotted_inj hw (by unfold Wf; decide) (h.symm.trans (by decide))
      subst this
      obtain ⟨sc, hs, h1, h2, rfl, h3⟩ := hd
      have hsc : sc = [] ∨ sc = [a] ∨ sc = [a, b] := by
        rw [List.prefix_iff_eq_take] at hs
        match hl : sc.length with
        | 0 => exact .inl (List.length_eq_zero_iff.1 hl)
        | 1 => rw [hl] at hs; exact .inr (.inl hs)
        | k + 2 => rw [hl] at hs; exact .inr (.inr (by simpa using hs))
      rcases hsc with rfl | rfl | rfl
      · exact h2 [a] (by decide) (by decide) (by decide)
      · revert h3; decide
      · revert h3; decide

/-! ## Import cycles -/

/-- **C106**, import cycles: accepting an item does not let files import each other in a circle.

Partial: the file of the type must not import the document, see `C106_cycle_violated`. -/
theorem C106_acyclic_partial (doc : Doc) (w : World) (f : Str) (hres : Resolves doc w f) (hac : w.Acyclic) (scope typed sfx : Str) (pos : Pos)
    (cands : List Cand) (hdecl : ∀ c ∈ cands, w.declares c.path c.fullName) (hback : ∀ c ∈ cands, ¬ Relation.TransGen w.Imports c.path f)
    (items : List Item) (h : FromList doc scope typed sfx pos cands items) (it : Item) (hi : it ∈ items) : (after w f it).Acyclic := by
  obtain ⟨c, hc, he⟩ := mem_items h hi
  have key : ∀ x y, Relation.TransGen (after w f it).Imports x y → Relation.TransGen w.Imports x y ∨
      (¬ w.Visible f c.fullName ∧ Relation.ReflTransGen w.Imports x f ∧ Relation.ReflTransGen w.Imports c.path y) := by
    have step : ∀ x y, (after w f it).Imports x y → w.Imports x y ∨ (¬ w.Visible f c.fullName ∧ x = f ∧ y = c.path) := by
      rintro x y ⟨b, hb | ⟨hx, _, e, hm, hadd⟩⟩
      · exact .inl ⟨b, hb⟩
      · rcases more_of hres he with ⟨_, k⟩ | ⟨hv, k⟩
        · rw [k] at hm; cases hm
        · rw [k] at hm
          rw [List.mem_singleton.1 hm] at hadd
          exact .inr ⟨hv, hx, adds_unique hadd (adds_edit doc c.path)⟩
    intro x y hxy
    induction hxy with
    | single h1 =>
      rcases step _ _ h1 with k | ⟨hv, rfl, rfl⟩
      · exact .inl (.single k)
      · exact .inr ⟨hv, .refl, .refl⟩
    | tail _ h1 ih =>
      rcases step _ _ h1 with k | ⟨hv, rfl, rfl⟩
      · rcases ih with m | ⟨hv, m1, m2⟩
        · exact .inl (m.tail k)
        · exact .inr ⟨hv, m1, m2.tail k⟩
      · rcases ih with m | ⟨hv, m1, m2⟩
        · exact .inr ⟨hv, m.to_reflTransGen, .refl⟩
        · exact .inr ⟨hv, m1, .refl⟩
  intro x hx
  rcases key x x hx with k | ⟨hv, k1, k2⟩
  · exact hac x k
  · rcases Relation.reflTransGen_iff_eq_or_transGen.1 (k2.trans k1) with e | e
    · exact hv ⟨c.path, .inl e.symm, hdecl c hc⟩
    · exact hback c hc e

/-- **C106** is violated by types of files that import the document: such a type is offered, and accepting it makes the two files import
each other. -/
theorem C106_cycle_violated :
    ∃ (doc : Doc) (w : World) (f : Str) (c : Cand) (typed : Str), Resolves doc w f ∧ w.Acyclic ∧ w.declares c.path c.fullName ∧ IsType c ∧
      ∀ (scope sfx : Str) (pos : Pos) (items : List Item), FromList doc scope typed sfx pos [c] items →
        ∃ it ∈ items, ¬ (after w f it).Acyclic := by
  let w : World := ⟨fun g h _ => g = ['b'] ∧ h = ['a'], fun g n => g = ['b'] ∧ n = ['p', '.', 'B']⟩
  have hno : ∀ n, ¬ w.Visible ['a'] n := by
    rintro n ⟨g, rfl | hg, hd⟩
    · exact absurd hd.1 (by decide)
    · have : ∀ g, ¬ w.Via ['a'] g := by
        intro g hg
        induction hg with
        | direct k => exact absurd k.1 (by decide)
        | pub _ _ ih => exact ih
      exact this g hg
  refine ⟨⟨['p'], ⟨1, 1⟩, fun _ => false⟩, w, ['a'], ⟨['p', '.', 'B'], .enum, ['b'], ['p']⟩, ['B'], ?_, ?_, ⟨rfl, rfl⟩, .inl rfl, ?_⟩
  · intro n
    simp [hno n]
  · intro x hx
    have hb : ∀ y z, Relation.TransGen w.Imports y z → y = ['b'] ∧ z = ['a'] := by
      intro y z h
      induction h with
      | single k => obtain ⟨_, k1, k2⟩ := k; exact ⟨k1, k2⟩
      | tail _ k ih => obtain ⟨_, k1, k2⟩ := k; exact ⟨ih.1, k2⟩
    obtain ⟨h1, h2⟩ := hb x x hx
    rw [h1] at h2
    exact absurd h2 (by decide)
  · rintro scope sfx pos items ⟨out, ⟨hp, _⟩, rfl⟩
    rw [List.perm_singleton] at hp
    subst hp
    refine ⟨_, List.mem_filterMap.2 ⟨_, List.mem_singleton_self _, rfl⟩, ?_⟩
    intro hac
    refine hac ['a'] (.tail (.single (b := ['b']) ⟨false, .inr ⟨rfl, rfl, _, List.mem_singleton_self _, rfl⟩⟩) ⟨false, .inl ⟨rfl, rfl⟩⟩)

/-! ## Examples -/

namespace Demo

/-- `main.proto` of package `p` imports `lib.proto`, which imports `base.proto` publicly; `far.proto` is not imported. -/
def world : World where
  imports g h b := (g = "main.proto".toList ∧ h = "lib.proto".toList ∧ b = false) ∨ (g = "lib.proto".toList ∧ h = "base.proto".toList ∧ b = true)
  declares g n := (g = "base.proto".toList ∧ n = "q.Base".toList) ∨ (g = "far.proto".toList ∧ n = "p.Far".toList) ∨
    (g = "main.proto".toList ∧ n = "p.M".toList)

def doc : Doc := ⟨"p".toList, ⟨1, 18⟩, fun n => n = "q.Base".toList || n = "p.M".toList⟩

def far : Cand := ⟨"p.Far".toList, .message false false, "far.proto".toList, "p".toList⟩
def base : Cand := ⟨"q.Base".toList, .enum, "base.proto".toList, "q".toList⟩

theorem via (g : Str) : world.Via "main.proto".toList g ↔ g = "lib.proto".toList ∨ g = "base.proto".toList := by
  constructor
  · intro h
    induction h with
    | direct k =>
      rcases k with ⟨_, k, _⟩ | ⟨k, _⟩
      · exact .inl k
      · exact absurd k (by decide)
    | pub _ k _ =>
      rcases k with ⟨_, _, k⟩ | ⟨_, k, _⟩
      · cases k
      · exact .inr k
  · have h1 : world.Via "main.proto".toList "lib.proto".toList := .direct (b := false) (.inl ⟨rfl, rfl, rfl⟩)
    rintro (rfl | rfl)
    · exact h1
    · exact .pub h1 (.inr ⟨rfl, rfl, rfl⟩)

/-- The contract of the name resolution holds for this document. -/
theorem resolves : Resolves doc world "main.proto".toList := by
  intro n
  unfold World.Visible
  simp only [via]
  constructor
  · intro h
    simp only [doc, Bool.or_eq_true, decide_eq_true_eq] at h
    rcases h with rfl | rfl
    · exact ⟨"base.proto".toList, .inr (.inr rfl), .inl ⟨rfl, rfl⟩⟩
    · exact ⟨"main.proto".toList, .inl rfl, .inr (.inr ⟨rfl, rfl⟩)⟩
  · rintro ⟨g, hg, ⟨k1, k2⟩ | ⟨k1, k2⟩ | ⟨k1, k2⟩⟩
    · rw [k2]; decide
    · rw [k1] at hg
      exact absurd hg (by decide)
    · rw [k2]; decide

def items (typed : Str) (pos : Pos) : List Item := [far, base].filterMap (item doc typed [] pos)

/-- The types of the own package come first. -/
theorem fromList (typed : Str) (pos : Pos) : FromList doc [] typed [] pos [base, far] (items typed pos) :=
  ⟨[far, base], ⟨List.Perm.swap _ _ _, by decide⟩, rfl⟩

example : (items "Fa".toList ⟨3, 4⟩).map (fun i => (i.label, i.detail)) =
    [("Far".toList, "p.Far (from \"far.proto\")".toList), ("q.Base".toList, "q.Base (from \"base.proto\")".toList)] := by decide

example : ∃ types : List Cand, types.Perm [base, far] ∧
    List.Forall₂ (fun c it => Shows doc.pkg "Fa".toList c.fullName it.label ∧ (it.kind = .enum ↔ c.kind = .enum)) types (items "Fa".toList ⟨3, 4⟩) := by
  obtain ⟨t, h1, _, h3⟩ := C106_offered doc [] "Fa".toList [] ⟨3, 4⟩ [base, far] _ (fromList _ _)
  exact ⟨t, h1, h3⟩

theorem declared : ∀ c ∈ [base, far], world.declares c.path c.fullName := by
  intro c hc
  simp only [List.mem_cons, List.not_mem_nil, or_false] at hc
  rcases hc with rfl | rfl
  · exact .inl ⟨rfl, rfl⟩
  · exact .inr (.inl ⟨rfl, rfl⟩)

example (it : Item) (hi : it ∈ items "Fa".toList ⟨3, 4⟩) :
    (after world "main.proto".toList it).Visible "main.proto".toList "q.Base".toList ∨
    (after world "main.proto".toList it).Visible "main.proto".toList "p.Far".toList := by
  obtain ⟨c, hc, _, h, _⟩ := C106_visible doc world "main.proto".toList resolves [] "Fa".toList [] ⟨3, 4⟩ [base, far] declared _ (fromList _ _) it hi
  simp only [List.mem_cons, List.not_mem_nil, or_false] at hc
  rcases hc with rfl | rfl
  · exact .inl h
  · exact .inr h

example (it : Item) (hi : it ∈ items "Fa".toList ⟨3, 4⟩) : it.more.length ≤ 1 := by
  obtain ⟨_, _, _, _, h, _⟩ := C106_import_once doc world "main.proto".toList resolves [] "Fa".toList [] ⟨3, 4⟩ [base, far] declared _ (fromList _ _) it hi
  exact h

example (it : Item) (hi : it ∈ items "Fa".toList ⟨3, 4⟩) : ∃ c ∈ [base, far], Shows doc.pkg "Fa".toList c.fullName it.label := by
  obtain ⟨c, h, k, _⟩ := C106_detail doc world "main.proto".toList resolves [] "Fa".toList [] ⟨3, 4⟩ [base, far] (by decide) _ (fromList _ _) it hi
  exact ⟨c, h, k⟩

/-- The insertion point is behind the syntax line. -/
def doc2 : Doc := ⟨"p".toList, sourcePosAfter "syntax = 'pro3';".toList, doc.resolves⟩

def items2 : List Item :=
  [far, base].filterMap (item doc2 "Fa".toList [] (posAfter ("syntax = 'pro3';".toList ++ "\nmessage M { ".toList ++ "Fa".toList)))

example (it : Item) (hi : it ∈ items2) :
    ∃ c ∈ [base, far], ∃ nm, Shows doc2.pkg "Fa".toList c.fullName nm ∧ (¬ world.Visible "main.proto".toList c.fullName →
      accept ("syntax = 'pro3';".toList ++ "\nmessage M { ".toList ++ "Fa".toList ++ ([] ++ " x = 1; }".toList)) it =
        some ("syntax = 'pro3';".toList ++ ("\nimport \"".toList ++ c.path ++ "\";".toList) ++ "\nmessage M { ".toList ++ nm ++ " x = 1; }".toList)) := by
  obtain ⟨c, h, nm, k, _, m⟩ := C106_text doc2 world "main.proto".toList
    "syntax = 'pro3';".toList "\nmessage M { ".toList "Fa".toList [] " x = 1; }".toList resolves rfl (by decide) (by decide)
    (by unfold Fits; decide) [] [base, far] items2 ⟨[far, base], ⟨List.Perm.swap _ _ _, by decide⟩, rfl⟩ it hi
  exact ⟨c, h, nm, k, m⟩

example : items2.map (accept "syntax = 'pro3';\nmessage M { Fa x = 1; }".toList) =
    [some "syntax = 'pro3';\nimport \"far.proto\";\nmessage M { Far x = 1; }".toList,
     some "syntax = 'pro3';\nmessage M { q.Base x = 1; }".toList] := by decide

/-- In the message `p.M`, the name `Far` refers to `p.Far`. -/
example : ∃ it ∈ items "Fa".toList ⟨3, 4⟩,
    Refers (fun x => x ∈ [["p".toList], ["p".toList, "M".toList], ["p".toList, "Far".toList]]) (["p".toList] ++ ["M".toList]) it.label
      ["p".toList, "Far".toList] := by
  refine C106_refers_partial doc _ ["p".toList] ["M".toList] ["p".toList, "Far".toList] rfl (by unfold Wf; decide) (by unfold Wf; decide) (by simp)
    ?_ (by decide) [] "Fa".toList [] ⟨3, 4⟩ [base, far] _ (fromList _ _) far (by decide) (by decide) (by decide) ?_
  · intro p q hp h
    have hpre : p <+: p ++ q := List.prefix_append _ _
    generalize p ++ q = r at h hpre
    rw [List.prefix_iff_eq_take] at hpre
    simp only [List.mem_cons, List.not_mem_nil, or_false] at h
    rcases h with rfl | rfl | rfl <;>
    · match hl : p.length with
      | 0 => exact absurd (List.length_eq_zero_iff.1 hl) hp
      | 1 => rw [hl] at hpre; rw [hpre]; decide
      | k + 2 => rw [hl] at hpre; rw [hpre]; simp
  · intro s nm hs hw hsh hlen
    have h1 : dotted nm = "Far".toList := shows_unique hsh (Shows.short _ (by decide) (by decide))
    have h2 : nm = ["Far".toList] := dotted_inj hw (by unfold Wf; decide) h1
    subst h2
    have h3 : s = ["p".toList, "M".toList] := by
      have := hs.length_le
      simp at hlen this
      rw [List.prefix_iff_eq_take] at hs
      rw [hs, show s.length = 2 by omega]; rfl
    subst h3
    decide

example (it : Item) (hi : it ∈ items "Fa".toList ⟨3, 4⟩) (hac : world.Acyclic) : (after world "main.proto".toList it).Acyclic := by
  refine C106_acyclic_partial doc world _ resolves hac [] "Fa".toList [] ⟨3, 4⟩ [base, far] declared ?_ _ (fromList _ _) it hi
  intro c hc h
  have key : ∀ y z, Relation.TransGen world.Imports y z → z = "lib.proto".toList ∨ z = "base.proto".toList := by
    intro y z h
    induction h with
    | single k => obtain ⟨_, ⟨_, k, _⟩ | ⟨_, k, _⟩⟩ := k; exacts [.inl k, .inr k]
    | tail _ k _ => obtain ⟨_, ⟨_, k, _⟩ | ⟨_, k, _⟩⟩ := k; exacts [.inl k, .inr k]
  exact absurd (key _ _ h) (by decide)

end Demo

end Verif.TypeComplete
