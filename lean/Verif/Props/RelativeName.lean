import Verif.Model.Completion
import Verif.Lemmas.Dotted

/-!
# C18: the relative type name inserted by a completion denotes the chosen type

Names are lists of components; see `Verif/Spec/Names.lean` for the lookup of names.
-/
namespace Verif.Completion

/-! ## Lemmas on names -/

theorem parent_dotted (ps : List Str) (n : Str) (hn : '.' ∉ n) :
    parent (dotted (ps ++ [n])) = dotted ps := by
  by_cases hp : ps = []
  · subst hp; simp [dotted, joinWith, parent, lastIndexChar_none _ _ hn]
  · rw [dotted_append _ _ hp (by simp)]
    simp [parent, dotted, joinWith, lastIndexChar_append _ _ _ hn]

theorem name_dotted (ps : List Str) (n : Str) (hn : '.' ∉ n) :
    name (dotted (ps ++ [n])) = n := by
  by_cases hp : ps = []
  · subst hp; simp [dotted, joinWith, name, lastIndexChar_none _ _ hn]
  · rw [dotted_append _ _ hp (by simp)]
    simp [name, dotted, joinWith, lastIndexChar_append _ _ _ hn]

theorem append_dotted (ps : List Str) (n : Str) (h : Wf ps) :
    append (dotted ps) n = dotted (ps ++ [n]) := by
  unfold append
  by_cases hp : ps = []
  · subst hp; simp [dotted, joinWith]
  · rw [if_neg (fun e => hp ((dotted_eq_nil h).mp e)), dotted_append _ _ hp (by simp)]
    simp [dotted, joinWith]

theorem foldl_append_dotted (ss acc : List Str) (h : Wf (acc ++ ss)) :
    ss.foldl append (dotted acc) = dotted (acc ++ ss) := by
  induction ss generalizing acc with
  | nil => simp
  | cons s t ih =>
    simp only [List.foldl_cons]
    rw [append_dotted acc s (Wf.append.mp h).1, ih _ (by simpa using h)]
    simp

theorem walk_dotted (fp n : Str) : ∀ (fuel : Nat) (ps ss : List Str), Wf (ps ++ ss) → ps.length < fuel →
    (∀ qs, qs <+: ps → dotted qs = fp → qs = []) →
    walk (dotted (ps ++ ss)) fp n fuel (dotted ps) ss = some (dotted (ps ++ ss ++ [n])) := by
  intro fuel
  induction fuel with
  | zero => intro ps ss _ h; omega
  | succ fuel ih =>
    intro ps ss hw hl hno
    unfold walk
    by_cases h1 : dotted ps = fp
    · rw [if_pos h1]
      have := hno ps (List.prefix_refl _) h1
      subst this
      have h2 := foldl_append_dotted ss [] hw
      simp only [dotted, joinWith, List.nil_append] at h2 hw ⊢
      rw [h2]
      exact congrArg some (append_dotted ss n hw)
    · rw [if_neg h1]
      by_cases h2 : dotted ps = []
      · rw [if_pos h2, append_dotted _ _ hw]
      · rw [if_neg h2]
        have hne : ps ≠ [] := fun e => h2 (by rw [e]; rfl)
        obtain ⟨qs, q, rfl⟩ : ∃ qs q, ps = qs ++ [q] :=
          ⟨_, _, (List.dropLast_concat_getLast hne).symm⟩
        have hq : '.' ∉ q := (hw q (by simp)).2
        rw [parent_dotted _ _ hq, name_dotted _ _ hq]
        have := ih qs (q :: ss) (by simpa using hw) (by simp at hl; omega)
          (fun rs hr => hno rs (hr.trans (List.prefix_append _ _)))
        simpa using this

/-! ## Lemmas on the byte comparison -/

/-- Last dot of `u`, counted from `i`, or `ld` if there is none. -/
def dotAfter (u : Str) (i ld : Nat) : Nat :=
  match lastIndexChar '.' u with
  | some j => i + j
  | none => ld

theorem commonLoop_common (u as bs : Str) (i ld : Nat) :
    commonLoop (u ++ as) (u ++ bs) i ld = commonLoop as bs (i + u.length) (dotAfter u i ld) := by
  induction u generalizing i ld with
  | nil => simp [dotAfter, lastIndexChar]
  | cons c t ih =>
    simp only [List.cons_append, commonLoop, if_pos, ih, dotAfter, lastIndexChar, List.length_cons]
    cases lastIndexChar '.' t with
    | some j => simp only []; congr 1 <;> omega
    | none =>
      simp only []
      by_cases hc : c = '.'
      · simp [hc]; congr 1; omega
      · simp [hc]; congr 1; omega

theorem commonLoop_mismatch (p q : Char) (as bs : Str) (i ld : Nat) (h : p ≠ q) :
    commonLoop (p :: as) (q :: bs) i ld = (i, ld) := by
  simp [commonLoop, h]

/-- What follows a component: nothing, or a dot. -/
def Tail (x : Str) : Prop := x = [] ∨ ∃ y, x = '.' :: y

theorem mismatch (a b x y : Str) (ha : '.' ∉ a) (hb : '.' ∉ b) (hab : a ≠ b) (hx : Tail x)
    (hy : Tail y) (h1 : ¬ (x = [] ∧ a <+: b)) (h2 : ¬ (y = [] ∧ b <+: a)) :
    ∃ w p q x' y', '.' ∉ w ∧ p ≠ q ∧ a ++ x = w ++ p :: x' ∧ b ++ y = w ++ q :: y' := by
  induction a generalizing b with
  | nil =>
    cases b with
    | nil => exact absurd rfl hab
    | cons d t =>
      rcases hx with rfl | ⟨x', rfl⟩
      · exact absurd ⟨rfl, List.nil_prefix⟩ h1
      · exact ⟨[], '.', d, x', t ++ y, by simp, fun e => hb (by simp [← e]), by simp, by simp⟩
  | cons c s ih =>
    cases b with
    | nil =>
      rcases hy with rfl | ⟨y', rfl⟩
      · exact absurd ⟨rfl, List.nil_prefix⟩ h2
      · exact ⟨[], c, '.', s ++ x, y', by simp, fun e => ha (by simp [e]), by simp, by simp⟩
    | cons d t =>
      by_cases hcd : c = d
      · subst hcd
        simp only [List.mem_cons, not_or] at ha hb
        obtain ⟨w, p, q, x', y', k1, k2, k3, k4⟩ := ih t ha.2 hb.2 (fun e => hab (by rw [e]))
          (fun h => h1 ⟨h.1, by simpa using h.2⟩) (fun h => h2 ⟨h.1, by simpa using h.2⟩)
        exact ⟨c :: w, p, q, x', y', by simp [ha.1, k1], k2, by simp [k3], by simp [k4]⟩
      · exact ⟨[], c, d, s ++ x, t ++ y, by simp, hcd, by simp, by simp⟩

/-! ## C18 -/

/-- The packages `c ++ t` and `c ++ f` differ right behind `c`, and neither of the two texts
is a prefix of the other one except at a dot. -/
def Aligned : List Str → List Str → Prop
  | a :: ta, b :: fb => a ≠ b ∧ ¬ (ta = [] ∧ a <+: b) ∧ ¬ (fb = [] ∧ b <+: a)
  | _, _ => True

theorem tail_of (a : Str) (ta : List Str) : ∃ x, dotted (a :: ta) = a ++ x ∧ Tail x ∧ (x = [] ↔ ta = []) := by
  cases ta with
  | nil => exact ⟨[], by simp [dotted, joinWith], .inl rfl, by simp⟩
  | cons y ys =>
    exact ⟨'.' :: dotted (y :: ys), by simp [dotted, joinWith_cons], .inr ⟨_, rfl⟩, by simp⟩

theorem cutAt_append (u v : Str) : cutAt u.length (u ++ '.' :: v) = v := by
  simp [cutAt]

theorem cutAt_self (u : Str) : cutAt u.length u = [] := by
  simp [cutAt]

/-- The part of the two packages that is left by the cut of the common prefix. -/
theorem cut_aligned (c t f : List Str) (ht : Wf (c ++ t)) (hf : Wf (c ++ f)) (ha : Aligned t f) :
    (if 0 < cutIndex (dotted (c ++ t)) (dotted (c ++ f)) then
        cutAt (cutIndex (dotted (c ++ t)) (dotted (c ++ f))) (dotted (c ++ t))
      else dotted (c ++ t)) = dotted t ∧
    (if 0 < cutIndex (dotted (c ++ t)) (dotted (c ++ f)) then
        cutAt (cutIndex (dotted (c ++ t)) (dotted (c ++ f))) (dotted (c ++ f))
      else dotted (c ++ f)) = dotted f := by
  have hc := (Wf.append.mp ht).1
  -- the common text is a prefix of one of the packages
  have base : ∀ u v : Str, commonLoop (u ++ v) u 0 0 = (u.length, dotAfter u 0 0) ∧
      commonLoop u (u ++ v) 0 0 = (u.length, dotAfter u 0 0) := by
    intro u v
    have e1 := commonLoop_common u v [] 0 0
    have e2 := commonLoop_common u [] v 0 0
    rw [List.append_nil] at e1 e2
    rw [e1, e2]
    constructor
    · cases v <;> simp [commonLoop]
    · simp [commonLoop]
  by_cases hc0 : c = []
  · subst hc0
    simp only [List.nil_append] at *
    cases t with
    | nil => simp [cutIndex, dotted, joinWith, commonLoop]
    | cons a ta =>
      cases f with
      | nil => simp [cutIndex, dotted, joinWith, commonLoop]
      | cons b fb =>
        obtain ⟨hne, h1, h2⟩ := ha
        obtain ⟨x, ex, tx, nx⟩ := tail_of a ta
        obtain ⟨y, ey, ty, ny⟩ := tail_of b fb
        obtain ⟨w, p, q, x', y', hw, hpq, k1, k2⟩ := mismatch a b x y (ht a (by simp)).2
          (hf b (by simp)).2 hne tx ty (by rwa [nx]) (by rwa [ny])
        have hk : cutIndex (dotted (a :: ta)) (dotted (b :: fb)) = 0 := by
          rw [ex, ey, k1, k2, cutIndex, commonLoop_common, commonLoop_mismatch _ _ _ _ _ _ hpq]
          simp [dotAfter, lastIndexChar_none _ _ hw]
        simp [hk]
  · have hpos : 0 < (dotted c).length :=
      List.length_pos_iff.mpr (fun e => hc0 ((dotted_eq_nil hc).mp e))
    have hk : cutIndex (dotted (c ++ t)) (dotted (c ++ f)) = (dotted c).length := by
      by_cases t0 : t = []
      · subst t0
        by_cases f0 : f = []
        · subst f0
          have := (base (dotted c) []).1
          simp only [List.append_nil] at this ⊢
          simp [cutIndex, this]
        · rw [dotted_append c f hc0 f0]
          have := (base (dotted c) ('.' :: dotted f)).2
          simp only [List.append_nil]
          simp [cutIndex, this]
      · rw [dotted_append c t hc0 t0]
        by_cases f0 : f = []
        · subst f0
          have := (base (dotted c) ('.' :: dotted t)).1
          simp only [List.append_nil]
          simp [cutIndex, this]
        · rw [dotted_append c f hc0 f0]
          obtain ⟨a, ta, rfl⟩ := List.exists_cons_of_ne_nil t0
          obtain ⟨b, fb, rfl⟩ := List.exists_cons_of_ne_nil f0
          obtain ⟨hne, h1, h2⟩ := ha
          obtain ⟨x, ex, tx, nx⟩ := tail_of a ta
          obtain ⟨y, ey, ty, ny⟩ := tail_of b fb
          obtain ⟨w, p, q, x', y', hw, hpq, k1, k2⟩ := mismatch a b x y (ht a (by simp)).2
            (hf b (by simp)).2 hne tx ty (by rwa [nx]) (by rwa [ny])
          rw [ex, ey, k1, k2]
          have e1 : dotted c ++ '.' :: (w ++ p :: x') = (dotted c ++ '.' :: w) ++ p :: x' := by simp
          have e2 : dotted c ++ '.' :: (w ++ q :: y') = (dotted c ++ '.' :: w) ++ q :: y' := by simp
          rw [e1, e2, cutIndex, commonLoop_common, commonLoop_mismatch _ _ _ _ _ _ hpq]
          simp [dotAfter, lastIndexChar_append _ _ _ hw]
    rw [hk, if_pos hpos, if_pos hpos]
    constructor
    · by_cases t0 : t = []
      · subst t0; simpa [dotted, joinWith] using cutAt_self (dotted c)
      · rw [dotted_append c t hc0 t0, cutAt_append]
    · by_cases f0 : f = []
      · subst f0; simpa [dotted, joinWith] using cutAt_self (dotted c)
      · rw [dotted_append c f hc0 f0, cutAt_append]

/-- **C18**, the inserted text: if `c` is the common part of the package of the chosen type
and of the package of the file, the inserted name is the rest of the chosen type's name.

Partial: the packages must be `Aligned`, see `C18_misaligned_violated`. -/
theorem C18_shortest_partial (c t f : List Str) (n : Str) (ht : Wf (c ++ t ++ [n])) (hf : Wf (c ++ f))
    (ha : Aligned t f) :
    relativeFullName (dotted (c ++ t ++ [n])) (dotted (c ++ f)) = some (dotted (t ++ [n])) := by
  have hn : '.' ∉ n := (ht n (by simp)).2
  have hct := (Wf.append.mp ht).1
  have hwt := (Wf.append.mp hct).2
  have hwf := (Wf.append.mp hf).2
  unfold relativeFullName
  rw [parent_dotted _ _ hn, name_dotted _ _ hn]
  obtain ⟨e1, e2⟩ := cut_aligned c t f hct hf ha
  simp only [e1, e2]
  have := walk_dotted (dotted f) n ((dotted t).length + 1) t [] (by simpa using hwt)
    (by have := length_le_dotted hwt; omega) (by
      intro qs hq e
      obtain ⟨r, rfl⟩ := hq
      have := dotted_inj (Wf.append.mp hwt).1 hwf e
      subst this
      cases qs with
      | nil => rfl
      | cons a as => exact absurd rfl ha.1)
  simpa using this

/-- **C18**: the inserted name denotes the chosen type.

Partial: the packages must be `Aligned` (see `C18_misaligned_violated`), and no package or
type in a scope of the file's package that the chosen type does not share has the same
first name (see `C18_shadowed_violated`). -/
theorem C18_denotes_partial (defs : List Str → Prop) (c t f : List Str) (n : Str)
    (ht : Wf (c ++ t ++ [n])) (hf : Wf (c ++ f)) (ha : Aligned t f)
    (hclosed : ∀ p q, p ≠ [] → defs (p ++ q) → defs p) (hdef : defs (c ++ t ++ [n]))
    (hshadow : ∀ s, s <+: c ++ f → c.length < s.length → ¬ defs (s ++ (t ++ [n]).take 1)) :
    ∃ nm, relativeFullName (dotted (c ++ t ++ [n])) (dotted (c ++ f)) = some (dotted nm) ∧
      Denotes defs (c ++ f) nm (c ++ t ++ [n]) := by
  refine ⟨t ++ [n], C18_shortest_partial c t f n ht hf ha, c, List.prefix_append _ _, ?_, hshadow,
    by simp, hdef⟩
  refine hclosed _ ((t ++ [n]).drop 1) ?_ ?_
  · cases t <;> simp
  · rw [List.append_assoc, List.take_append_drop]
    simpa using hdef

/-- C18 is violated when one package is a textual prefix of the other one in the middle of
a component: the inserted names do not name the chosen type. -/
theorem C18_misaligned_violated :
    relativeFullName "foo.barbaz.A".toList "foo.bar".toList = some "az.A".toList ∧
    relativeFullName "foo.bar.A".toList "foo.barbaz".toList = some "A".toList ∧
    relativeFullName "foobar.A".toList "foo".toList = some "ar.A".toList ∧
    relativeFullName "foo.A".toList "foobar".toList = some "A".toList := by decide

/-- The first of them, against the specification: with the types `foo.barbaz.A` and the
package `foo.bar`, the inserted name denotes nothing at all. -/
theorem C18_wrong_type_violated :
    ∃ (defs : List Str → Prop) (pkg target nm : List Str),
      defs target ∧ defs pkg ∧ (∀ p q, p ≠ [] → defs (p ++ q) → defs p) ∧
      relativeFullName (dotted target) (dotted pkg) = some (dotted nm) ∧ Wf nm ∧
      ∀ d, ¬ Denotes defs pkg nm d := by
  let a := "foo".toList
  let b := "bar".toList
  let b2 := "barbaz".toList
  let A := "A".toList
  refine ⟨fun x => x ∈ [[a], [a, b], [a, b2], [a, b2, A]], [a, b], [a, b2, A],
    ["az".toList, A], by decide, by decide, ?_, by decide, by unfold Wf; decide, ?_⟩
  · intro p q hp h
    have : p ∈ [[], [a], [a, b], [a, b2], [a, b2, A]] := by
      have hpre : p <+: p ++ q := List.prefix_append _ _
      generalize p ++ q = r at h hpre
      simp only [List.mem_cons, List.not_mem_nil, or_false] at h
      rw [List.prefix_iff_eq_take] at hpre
      rcases h with rfl | rfl | rfl | rfl <;>
      · match hl : p.length with
        | 0 => rw [hl] at hpre; rw [hpre]; decide
        | 1 => rw [hl] at hpre; rw [hpre]; decide
        | 2 => rw [hl] at hpre; rw [hpre]; decide
        | k + 3 => rw [hl] at hpre; rw [hpre]; simp
    simpa [hp] using this
  · rintro d ⟨scope, hs, _, _, rfl, hd⟩
    have : ["az".toList, A] <:+ scope ++ ["az".toList, A] := List.suffix_append _ _
    generalize scope ++ ["az".toList, A] = r at hd this
    simp only [List.mem_cons, List.not_mem_nil, or_false] at hd
    rcases hd with rfl | rfl | rfl | rfl <;> revert this <;> decide

/-- C18 is violated when a type of the same name exists in an inner scope: the name inserted
for `foo.A` in package `foo.bar` is `A`, which denotes `foo.bar.A`. -/
theorem C18_shadowed_violated :
    ∃ (defs : List Str → Prop) (pkg target other nm : List Str),
      defs target ∧ target ≠ other ∧
      relativeFullName (dotted target) (dotted pkg) = some (dotted nm) ∧
      Denotes defs pkg nm other := by
  refine ⟨fun x => x ∈ [["foo".toList, "A".toList], ["foo".toList, "bar".toList, "A".toList]],
    ["foo".toList, "bar".toList], ["foo".toList, "A".toList],
    ["foo".toList, "bar".toList, "A".toList], ["A".toList], by decide, by decide, by decide,
    ["foo".toList, "bar".toList], by decide, by decide, ?_, by decide, by decide⟩
  intro s hs hl
  have := hs.length_le
  simp at this hl
  omega

example : relativeFullName "foo.bar.baz.A".toList "foo.bar.quux".toList = some "baz.A".toList :=
  C18_shortest_partial ["foo".toList, "bar".toList] ["baz".toList] ["quux".toList] "A".toList
    (by unfold Wf; decide) (by unfold Wf; decide) (by unfold Aligned; decide)

end Verif.Completion
