import Mathlib.Tactic.Common
import Verif.Props.CodeActions
/-!
# Properties of code action requests: C68, exactly which actions are returned
-/
namespace Verif.CodeActions

/-- Specification: kind `k` is wanted by the filter `only`. -/
def Wanted (explicit only : List Kind) (k : Kind) : Prop :=
  (k ∈ ["source.fixAll".toList, "source.organizeImports".toList, "quickfix".toList, "refactor.rewrite".toList, "refactor.inline".toList,
      "refactor.extract".toList] ∧ (only = [] ∨ ∃ o ∈ only, SubKind o k)) ∨ (k ∈ only ∧ k ∈ explicit)

/-- Specification: the kind under which imports are offered for undeclared names: the first wanted one of quick fix,
organize imports and fix all. -/
def ImportKind (w : Kind → Prop) (k : Kind) : Prop :=
  (k = "quickfix".toList ∧ w "quickfix".toList) ∨
  (k = "source.organizeImports".toList ∧ ¬ w "quickfix".toList ∧ w "source.organizeImports".toList) ∨
  (k = "source.fixAll".toList ∧ ¬ w "quickfix".toList ∧ ¬ w "source.organizeImports".toList ∧ w "source.fixAll".toList)

/-- Specification: action `a` is offered for the diagnostic `d`. -/
def FromDiag (imports : Str → Kind → List Action) (w : Kind → Prop) (d : Diag) (a : Action) : Prop :=
  d.hasData = true ∧
  ((∃ r ∈ d.actions, ∃ u, r.uri = some u ∧ w r.kind ∧ a = ⟨r.title, r.kind, some [(u, r.edits)]⟩) ∨
   (∃ n k, d.undeclared = some n ∧ n ≠ [] ∧ ImportKind w k ∧ a ∈ imports n k ∧
     (k = "source.organizeImports".toList → imports n k = [a])))

/-- Specification: action `a` is found by a wanted refactoring. -/
def FromRefactor (refactors : Kind → List Action) (w : Kind → Prop) (linked : Bool) (a : Action) : Prop :=
  linked = true ∧ ∃ k, (k = "refactor.extract".toList ∨ k = "refactor.inline".toList ∨ k = "refactor.rewrite".toList) ∧ w k ∧ a ∈ refactors k

theorem wants_iff (order explicit only : List Kind) (horder : order.Perm supported) (want : List (Kind × Bool))
    (hw : requestedKinds order explicit only = some want) (k : Kind) : wants want k = true ↔ Wanted explicit only k := by
  obtain ⟨want', hw', hk⟩ := C30_offered_partial order explicit only horder
  rw [hw] at hw'
  cases hw'
  constructor
  · intro h
    rcases C30_nothing_else order explicit only horder want hw k h with hs | h'
    · rcases (hk k hs).1 h with h' | h' | h'
      · exact .inl ⟨hs, .inl h'⟩
      · exact .inl ⟨hs, .inr h'⟩
      · exact .inr h'
    · exact .inr h'
  · rintro (⟨hs, h' | h'⟩ | ⟨h1, h2⟩)
    · exact (hk k hs).2 (.inl h')
    · exact (hk k hs).2 (.inr (.inl h'))
    · unfold requestedKinds at hw
      have hne : only ≠ [] := by rintro rfl; cases h1
      have hl : only.length ≠ 0 := fun h0 => hne (List.length_eq_zero_iff.1 h0)
      simp only [if_neg hl] at hw
      split at hw
      · cases hw
      · cases hw
        rw [wants_foldl]
        exact .inr (.inr ⟨h1, h2⟩)

theorem undeclaredKind_iff (want : List (Kind × Bool)) (k : Kind) :
    undeclaredKind want = some k ↔ ImportKind (fun k => wants want k = true) k := by
  unfold undeclaredKind ImportKind
  have aux : ∀ j : Kind, some j = some k ↔ k = j := fun j => ⟨fun h => (Option.some.inj h).symm, fun h => h ▸ rfl⟩
  by_cases h1 : wants want quickFix = true
  · rw [if_pos h1, aux]
    exact ⟨fun h => .inl ⟨h, h1⟩, fun h => h.elim (·.1) (fun h => h.elim (absurd h1 ·.2.1) (absurd h1 ·.2.1))⟩
  · rw [if_neg h1]
    by_cases h2 : wants want organizeImports = true
    · rw [if_pos h2, aux]
      exact ⟨fun h => .inr (.inl ⟨h, h1, h2⟩), fun h => h.elim (absurd ·.2 h1) (fun h => h.elim (·.1) (absurd h2 ·.2.2.1))⟩
    · rw [if_neg h2]
      by_cases h3 : wants want fixAll = true
      · rw [if_pos h3, aux]
        exact ⟨fun h => .inr (.inr ⟨h, h1, h2, h3⟩), fun h => h.elim (absurd ·.2 h1) (fun h => h.elim (absurd ·.2.2 h2) (·.1))⟩
      · rw [if_neg h3]
        exact ⟨fun h => (by cases h), fun h => h.elim (absurd ·.2 h1) (fun h => h.elim (absurd ·.2.2 h2) (absurd ·.2.2.2 h3))⟩

theorem mem_undeclaredActions (imports : Str → Kind → List Action) (want : List (Kind × Bool)) (o : Option Str) (a : Action) :
    a ∈ undeclaredActions imports want o ↔ ∃ n k, o = some n ∧ n ≠ [] ∧ ImportKind (fun k => wants want k = true) k ∧
      a ∈ imports n k ∧ (k = organizeImports → imports n k = [a]) := by
  cases o with
  | none => simp [undeclaredActions]
  | some n =>
    simp only [undeclaredActions]
    by_cases hn : n = []
    · simp [hn]
    · rw [if_neg hn]
      constructor
      · intro h
        cases hk : undeclaredKind want with
        | none => rw [hk] at h; cases h
        | some k =>
          rw [hk] at h
          simp only at h
          by_cases hc : (imports n k).length ≠ 1 ∧ k = organizeImports
          · rw [if_pos hc] at h; cases h
          · rw [if_neg hc] at h
            refine ⟨n, k, rfl, hn, (undeclaredKind_iff want k).1 hk, h, fun ho => ?_⟩
            have hl : (imports n k).length = 1 := by
              exact Decidable.byContradiction fun hl => hc ⟨hl, ho⟩
            obtain ⟨b, hb⟩ := List.length_eq_one_iff.1 hl
            rw [hb] at h ⊢
            rw [List.mem_singleton] at h
            rw [h]
      · rintro ⟨n', k, hn', _, hk, ha, ho⟩
        cases hn'
        rw [(undeclaredKind_iff want k).2 hk]
        simp only
        rw [if_neg]
        · exact ha
        · rintro ⟨h1, h2⟩
          rw [ho h2] at h1
          simp at h1

theorem mem_diagLoop (imports : Str → Kind → List Action) (want : List (Kind × Bool)) (ds : List Diag) :
    ∀ l, diagLoop imports want ds = some l →
      ∀ a, a ∈ l ↔ ∃ d ∈ ds, FromDiag imports (fun k => wants want k = true) d a := by
  induction ds with
  | nil => intro l hl a; cases hl; simp
  | cons d ds ih =>
    intro l hl a
    unfold diagLoop at hl
    by_cases h1 : d.hasData = false
    · rw [if_pos h1] at hl
      rw [ih l hl a]
      constructor
      · rintro ⟨x, hx, h⟩; exact ⟨x, List.mem_cons_of_mem _ hx, h⟩
      · rintro ⟨x, hx, h⟩
        rcases List.mem_cons.1 hx with rfl | hx
        · have := h.1; rw [h1] at this; cases this
        · exact ⟨x, hx, h⟩
    · rw [if_neg h1] at hl
      by_cases h2 : d.readable = false
      · rw [if_pos h2] at hl; cases hl
      · rw [if_neg h2] at hl
        cases hr : diagLoop imports want ds with
        | none => rw [hr] at hl; cases hl
        | some rest =>
          rw [hr] at hl
          cases hl
          have hd : d.hasData = true := by simpa using h1
          have ht : a ∈ toActions want d.actions ↔ ∃ r ∈ d.actions, ∃ u, r.uri = some u ∧ wants want r.kind = true ∧
              a = ⟨r.title, r.kind, some [(u, r.edits)]⟩ := by
            unfold toActions
            rw [List.mem_filterMap]
            constructor
            · rintro ⟨r, hr, h⟩
              cases hu : r.uri with
              | none => rw [hu] at h; cases h
              | some u =>
                rw [hu] at h
                simp only at h
                by_cases hk : wants want r.kind = true
                · rw [if_pos hk] at h
                  exact ⟨r, hr, u, hu, hk, (Option.some.inj h).symm⟩
                · rw [if_neg hk] at h; cases h
            · rintro ⟨r, hr, u, hu, hk, rfl⟩
              exact ⟨r, hr, by rw [hu]; simp only; rw [if_pos hk]⟩
          rw [List.mem_append, List.mem_append, ht, mem_undeclaredActions, ih rest hr a]
          constructor
          · rintro ((h | h) | ⟨x, hx, h⟩)
            · exact ⟨d, by simp, hd, .inl h⟩
            · exact ⟨d, by simp, hd, .inr h⟩
            · exact ⟨x, List.mem_cons_of_mem _ hx, h⟩
          · rintro ⟨x, hx, h⟩
            rcases List.mem_cons.1 hx with rfl | hx
            · exact .inl h.2
            · exact .inr ⟨x, hx, h⟩

theorem diagLoop_none (imports : Str → Kind → List Action) (want : List (Kind × Bool)) (ds : List Diag) :
    diagLoop imports want ds = none ↔ ∃ d ∈ ds, d.hasData = true ∧ d.readable = false := by
  induction ds with
  | nil => simp [diagLoop]
  | cons d ds ih =>
    unfold diagLoop
    cases h1 : d.hasData with
    | false => simp [h1, ih]
    | true =>
      cases h2 : d.readable with
      | false => simp [h1, h2]
      | true => simp [h1, h2, ih]

/-- The list before merging. -/
theorem getCodeActions_eq (order explicit : List Kind) (horder : order.Perm supported) (imports : Str → Kind → List Action)
    (refactors : Kind → List Action) (linked mapperOk : Bool) (only : List Kind) (diags : List Diag) :
    ∃ want, requestedKinds order explicit only = some want ∧
    (getCodeActions order explicit imports refactors linked mapperOk only diags = .err ∧
      ((∃ d ∈ diags, d.hasData = true ∧ d.readable = false) ∨
       (linked = true ∧ mapperOk = false ∧ ∃ k, (k = refactorExtract ∨ k = refactorInline ∨ k = refactorRewrite) ∧ Wanted explicit only k)) ∨
    (¬ ((∃ d ∈ diags, d.hasData = true ∧ d.readable = false) ∨
       (linked = true ∧ mapperOk = false ∧ ∃ k, (k = refactorExtract ∨ k = refactorInline ∨ k = refactorRewrite) ∧ Wanted explicit only k)) ∧
     ∃ l, getCodeActions order explicit imports refactors linked mapperOk only diags = finish want l ∧
      ∀ a, a ∈ l ↔ (∃ d ∈ diags, FromDiag imports (Wanted explicit only) d a) ∨
        FromRefactor refactors (Wanted explicit only) linked a)) := by
  obtain ⟨want, hw, _⟩ := C30_offered_partial order explicit only horder
  have hwi := wants_iff order explicit only horder want hw
  have hwf : (fun k => wants want k = true) = Wanted explicit only := funext fun k => propext (hwi k)
  refine ⟨want, hw, ?_⟩
  unfold getCodeActions
  rw [hw]
  simp only
  cases hd : diagLoop imports want diags with
  | none => exact .inl ⟨rfl, .inl ((diagLoop_none _ _ _).1 hd)⟩
  | some result =>
    have hres := mem_diagLoop imports want diags result hd
    rw [hwf] at hres
    have hok : ¬ ∃ d ∈ diags, d.hasData = true ∧ d.readable = false := by
      rw [← diagLoop_none imports want, hd]; simp
    have href : (wants want refactorExtract || wants want refactorInline || wants want refactorRewrite) = true ↔
        ∃ k, (k = refactorExtract ∨ k = refactorInline ∨ k = refactorRewrite) ∧ Wanted explicit only k := by
      rw [Bool.or_eq_true, Bool.or_eq_true, hwi, hwi, hwi]
      constructor
      · rintro ((h | h) | h)
        exacts [⟨_, .inl rfl, h⟩, ⟨_, .inr (.inl rfl), h⟩, ⟨_, .inr (.inr rfl), h⟩]
      · rintro ⟨k, rfl | rfl | rfl, h⟩
        exacts [.inl (.inl h), .inl (.inr h), .inr h]
    have hra : ∀ a, a ∈ refactorActions refactors want ↔ ∃ k, (k = refactorExtract ∨ k = refactorInline ∨ k = refactorRewrite) ∧
        Wanted explicit only k ∧ a ∈ refactors k := by
      intro a
      unfold refactorActions
      rw [List.mem_flatMap]
      constructor
      · rintro ⟨k, hk, ha⟩
        have := List.mem_filter.1 hk
        refine ⟨k, ?_, (hwi k).1 this.2, ha⟩
        have := this.1
        simp only [analyzerKinds, List.mem_cons, List.not_mem_nil, or_false] at this
        rcases this with h | h | h
        exacts [.inr (.inr h), .inl h, .inr (.inl h)]
      · rintro ⟨k, hk, hw, ha⟩
        refine ⟨k, List.mem_filter.2 ⟨?_, (hwi k).2 hw⟩, ha⟩
        simp only [analyzerKinds, List.mem_cons, List.not_mem_nil, or_false]
        rcases hk with h | h | h
        exacts [.inr (.inl h), .inr (.inr h), .inl h]
    simp only
    by_cases hc : ((wants want refactorExtract || wants want refactorInline || wants want refactorRewrite) && linked) = true
    · rw [if_pos hc]
      rw [Bool.and_eq_true, href] at hc
      by_cases hm : mapperOk = true
      · rw [if_pos hm]
        refine .inr ⟨?_, _, rfl, fun a => ?_⟩
        · rintro (h | ⟨_, h, _⟩)
          · exact hok h
          · rw [hm] at h; cases h
        · rw [List.mem_append, hres, hra]
          have : FromRefactor refactors (Wanted explicit only) linked a ↔
              linked = true ∧ ∃ k, (k = refactorExtract ∨ k = refactorInline ∨ k = refactorRewrite) ∧ Wanted explicit only k ∧ a ∈ refactors k :=
            Iff.rfl
          rw [this]
          simp [hc.2]
      · rw [if_neg hm]
        exact .inl ⟨rfl, .inr ⟨hc.2, by simpa using hm, hc.1⟩⟩
    · rw [if_neg hc]
      rw [Bool.and_eq_true, href] at hc
      refine .inr ⟨?_, _, rfl, fun a => ?_⟩
      · rintro (h | ⟨h1, _, h2⟩)
        · exact hok h
        · exact hc ⟨h2, h1⟩
      · rw [hres]
        constructor
        · exact .inl
        · rintro (h | ⟨h1, k, hk, hw, _⟩)
          · exact h
          · exact absurd ⟨⟨k, hk, hw⟩, h1⟩ hc

/-- **C68** (part): a request fails exactly if a diagnostic has data that cannot be read, or a refactoring is wanted for
a linked document whose text mapper is not available. -/
theorem C68_error (order explicit : List Kind) (horder : order.Perm supported) (imports : Str → Kind → List Action)
    (refactors : Kind → List Action) (linked mapperOk : Bool) (only : List Kind) (diags : List Diag) :
    getCodeActions order explicit imports refactors linked mapperOk only diags = .err ↔
      (∃ d ∈ diags, d.hasData = true ∧ d.readable = false) ∨
      (linked = true ∧ mapperOk = false ∧ ∃ k, (k = refactorExtract ∨ k = refactorInline ∨ k = refactorRewrite) ∧ Wanted explicit only k) := by
  obtain ⟨want, _, h | ⟨hno, l, h, _⟩⟩ := getCodeActions_eq order explicit horder imports refactors linked mapperOk only diags
  · exact ⟨fun _ => h.2, fun _ => h.1⟩
  · refine ⟨fun he => ?_, fun hh => absurd hh hno⟩
    rw [h] at he
    unfold finish at he
    split at he
    · split at he <;> cases he
    · cases he

/-- **C68** (part): a request returns exactly the wanted actions of its diagnostics, the imports for undeclared names and the
wanted refactorings, as far as they are not merged into the organize-imports action. -/
theorem C68_actions (order explicit : List Kind) (horder : order.Perm supported) (imports : Str → Kind → List Action)
    (refactors : Kind → List Action) (linked mapperOk : Bool) (only : List Kind) (diags : List Diag) (actions : List Action)
    (h : getCodeActions order explicit imports refactors linked mapperOk only diags = .ok actions) (a : Action)
    (ha : a.kind ≠ organizeImports) :
    a ∈ actions ↔ (∃ d ∈ diags, FromDiag imports (Wanted explicit only) d a) ∨
        FromRefactor refactors (Wanted explicit only) linked a := by
  obtain ⟨want, _, h' | ⟨hno, l, h', hl⟩⟩ := getCodeActions_eq order explicit horder imports refactors linked mapperOk only diags
  · rw [h] at h'; cases h'.1
  · rw [← hl]
    rw [h] at h'
    unfold finish at h'
    split at h'
    · cases hag : aggregate l with
      | none => rw [hag] at h'; cases h'
      | some r =>
        rw [hag] at h'
        simp only at h'
        cases h'
        have hed : ∀ a ∈ l, a.kind = organizeImports → a.edit ≠ none := by
          intro b hb hk he
          have hnone : ∀ (as f : List Action) (s : Agg), b ∈ as → aggLoop as (f, s) = none := by
            intro as
            induction as with
            | nil => intro f s hb; cases hb
            | cons c as ih =>
              intro f s hb
              unfold aggLoop
              rcases List.mem_cons.1 hb with rfl | hb
              · rw [if_pos hk, he]
              · split
                · split
                  · rfl
                  · exact ih _ _ hb
                · exact ih _ _ hb
          cases l with
          | nil => cases hb
          | cons c l =>
            unfold aggregate at hag
            simp only at hag
            rw [hnone (c :: l) [] {} hb] at hag
            cases hag
        obtain ⟨tail, ht, _, hk⟩ := C29_others l hed
        rw [hag] at ht
        cases ht
        rw [List.mem_append]
        constructor
        · rintro (h | h)
          · exact (List.mem_filter.1 h).1
          · exact absurd (hk a h) ha
        · intro h
          exact .inl (List.mem_filter.2 ⟨h, by simpa using ha⟩)
    · cases h'; rfl

/-- **C68** (part): a request never crashes if all organize-imports actions carry edits. -/
theorem C68_no_crash (order explicit : List Kind) (horder : order.Perm supported) (imports : Str → Kind → List Action)
    (refactors : Kind → List Action) (linked mapperOk : Bool) (only : List Kind) (diags : List Diag)
    (hi : ∀ n k, ∀ a ∈ imports n k, a.edit ≠ none) (hr : ∀ k, ∀ a ∈ refactors k, a.kind ≠ organizeImports) :
    getCodeActions order explicit imports refactors linked mapperOk only diags ≠ .panic := by
  obtain ⟨want, _, h | ⟨hno, l, h, hl⟩⟩ := getCodeActions_eq order explicit horder imports refactors linked mapperOk only diags
  · rw [h.1]; simp
  · rw [h]
    unfold finish
    split
    · have hed : ∀ a ∈ l, a.kind = organizeImports → a.edit ≠ none := by
        intro a ha hk
        rcases (hl a).1 ha with ⟨d, _, _, ⟨r, _, u, _, _, rfl⟩ | ⟨n, k, _, _, _, hm, _⟩⟩ | ⟨_, k, _, _, hm⟩
        · simp
        · exact hi n k a hm
        · exact absurd hk (hr k a hm)
      obtain ⟨tail, ht, _⟩ := C29_others l hed
      rw [ht]
      simp
    · simp

/-- **C68** (part): the merged organize-imports action has an edit for each text of the wanted organize-imports actions and no
others: every insertion text once, every deletion, and nothing that was not requested. -/
theorem C68_organize (order explicit : List Kind) (horder : order.Perm supported) (imports : Str → Kind → List Action)
    (refactors : Kind → List Action) (linked mapperOk : Bool) (only : List Kind) (diags : List Diag) (actions : List Action)
    (h : getCodeActions order explicit imports refactors linked mapperOk only diags = .ok actions)
    (hw : Wanted explicit only organizeImports)
    (hi : ∀ n k, ∀ a ∈ imports n k, a.edit ≠ none) (hr : ∀ k, ∀ a ∈ refactors k, a.kind ≠ organizeImports) :
    (∀ x ∈ requested actions, ∃ d ∈ diags, ∃ a, FromDiag imports (Wanted explicit only) d a ∧ a.kind = organizeImports ∧
      x ∈ flat (a.edit.getD [])) ∧
    (∀ d ∈ diags, ∀ a, FromDiag imports (Wanted explicit only) d a → a.kind = organizeImports →
      ∀ x ∈ flat (a.edit.getD []), ∃ y ∈ requested actions, y.2.newText = x.2.newText ∧ (x.2.newText = [] → y = x)) := by
  obtain ⟨want, hwant, h' | ⟨hno, l, h', hl⟩⟩ := getCodeActions_eq order explicit horder imports refactors linked mapperOk only diags
  · rw [h] at h'; cases h'.1
  · rw [h] at h'
    unfold finish at h'
    rw [if_pos ((wants_iff order explicit only horder want hwant _).2 hw)] at h'
    cases hag : aggregate l with
    | none => rw [hag] at h'; cases h'
    | some r =>
      rw [hag] at h'
      simp only at h'
      cases h'
      have hed : ∀ a ∈ l, a.kind = organizeImports → a.edit ≠ none := by
        intro a ha hk
        rcases (hl a).1 ha with ⟨d, _, _, ⟨r, _, u, _, _, rfl⟩ | ⟨n, k, _, _, _, hm, _⟩⟩ | ⟨_, k, _, _, hm⟩
        · simp
        · exact hi n k a hm
        · exact absurd hk (hr k a hm)
      have hreq : ∀ x, x ∈ requested l ↔ ∃ a ∈ l, a.kind = organizeImports ∧ x ∈ flat (a.edit.getD []) := by
        intro x
        unfold requested
        rw [List.mem_flatMap]
        constructor
        · rintro ⟨a, ha, hx⟩
          have := List.mem_filter.1 ha
          exact ⟨a, this.1, by simpa using this.2, hx⟩
        · rintro ⟨a, ha, hk, hx⟩
          exact ⟨a, List.mem_filter.2 ⟨ha, by simpa using hk⟩, hx⟩
      constructor
      · intro x hx
        obtain ⟨l', hp, hs⟩ := C29_sound l actions hed hag
        obtain ⟨a, ha, hk, hxa⟩ := (hreq x).1 (hs.subset (hp.mem_iff.1 hx))
        rcases (hl a).1 ha with ⟨d, hd, hf⟩ | ⟨_, k, _, _, hm⟩
        · exact ⟨d, hd, a, hf, hk, hxa⟩
        · exact absurd hk (hr k a hm)
      · intro d hd a hf hk x hx
        have hxl : x ∈ requested l := (hreq x).2 ⟨a, (hl a).2 (.inl ⟨d, hd, hf⟩), hk, hx⟩
        obtain ⟨t1, t2⟩ := C29_texts l actions hed hag
        by_cases he : x.2.newText = []
        · exact ⟨x, t2 x hxl he, rfl, fun _ => rfl⟩
        · have := t1 x hxl he
          obtain ⟨y, hy⟩ := List.length_eq_one_iff.1 this
          have hm : y ∈ (requested actions).filter (fun y => decide (y.2.newText = x.2.newText)) := by rw [hy]; simp
          have hm := List.mem_filter.1 hm
          exact ⟨y, hm.1, by simpa using hm.2, fun h => absurd h he⟩

/-- Two diagnostics: one with a stored quick fix, one about an undeclared name. -/
def sampleDiags : List Diag :=
  [{ hasData := false }, { hasData := true, actions := [⟨"fix", quickFix, some "f", [⟨0, ['x']⟩]⟩] },
   { hasData := true, undeclared := some ['N'] }]

example : getCodeActions supported [] (fun _ k => [⟨"i", k, some [("f", [⟨1, ['y']⟩])]⟩]) (fun k => [⟨"r", k, none⟩]) true true
    [organizeImports, refactorInline] sampleDiags =
    .ok [⟨"r", refactorInline, none⟩, ⟨"Organize Imports", organizeImports, some [("f", [⟨1, ['y']⟩])]⟩] := by decide

example : getCodeActions supported [] (fun _ k => [⟨"i", k, some [("f", [⟨1, ['y']⟩])]⟩]) (fun k => [⟨"r", k, none⟩]) false true
    [] sampleDiags =
    .ok [⟨"fix", quickFix, some [("f", [⟨0, ['x']⟩])]⟩, ⟨"i", quickFix, some [("f", [⟨1, ['y']⟩])]⟩] := by decide

end Verif.CodeActions
