import Verif.Spec.AllDiags
import Mathlib.Tactic.ByContra
import Mathlib.Data.List.Forall2

/-!
# Lemmas on the report of all diagnostics
-/
namespace Verif.AllDiags

open Diagnostics (Path Severity reportedSeverity Suppresses suppressed_iff)
open Documents (Res)

/-! ## Conversion -/

theorem reported_idem (d : Diagnostics.Diag) (pragma : Option Str) :
    reportedSeverity { d with severity := reportedSeverity d pragma } pragma = reportedSeverity d pragma := by
  unfold reportedSeverity
  by_cases h : d.severity = .warning ∧ d.werrorCategory ≠ []
  · obtain ⟨h1, h2⟩ := h
    cases pragma with
    | none => simp [h1, h2]
    | some dbg =>
      by_cases hs : Diagnostics.suppressed d.werrorCategory dbg = true <;> simp [h1, h2, hs]
  · simp only [h, if_false]

theorem promote_idem (env : Env) (d : Stored) : promote env (promote env d) = promote env d := by
  unfold promote
  simp only [reported_idem]

@[simp] theorem promote_path (env : Env) (d : Stored) : (promote env d).path = d.path := rfl

/-- Two heaps are the same up to the conversion of some diagnostics. -/
def Upto (env : Env) (h h' : List Stored) : Prop :=
  h'.length = h.length ∧ ∀ (a : Nat) (d : Stored), h[a]? = some d → h'[a]? = some d ∨ h'[a]? = some (promote env d)

theorem Upto.refl (env : Env) (h : List Stored) : Upto env h h := ⟨rfl, fun _ _ e => .inl e⟩

/-- The diagnostics at the addresses. -/
def Points (h : List Stored) (as : List Nat) (ds : List Stored) : Prop := as.map (h[·]?) = ds.map some

theorem Points.nil (h : List Stored) : Points h [] [] := rfl

theorem Points.length {h : List Stored} {as : List Nat} {ds : List Stored} (hp : Points h as ds) : as.length = ds.length := by
  have := congrArg List.length hp
  simpa using this

theorem Points.cons_iff {h : List Stored} {a : Nat} {as : List Nat} {ds : List Stored} :
    Points h (a :: as) ds ↔ ∃ d ds', ds = d :: ds' ∧ h[a]? = some d ∧ Points h as ds' := by
  unfold Points
  cases ds with
  | nil => simp
  | cons d ds =>
    simp only [List.map_cons, List.cons.injEq]
    constructor
    · rintro ⟨h1, h2⟩
      exact ⟨d, ds, ⟨rfl, rfl⟩, h1, h2⟩
    · rintro ⟨_, _, ⟨rfl, rfl⟩, h1, h2⟩
      exact ⟨h1, h2⟩

theorem filterMap_congr' {α β : Type} {f g : α → Option β} {l : List α} (h : ∀ a ∈ l, f a = g a) : l.filterMap f = l.filterMap g := by
  induction l with
  | nil => rfl
  | cons a l ih => rw [List.filterMap_cons, List.filterMap_cons, h a (by simp), ih fun b hb => h b (by simp [hb])]

theorem toProtocol_spec (env : Env) (h0 : List Stored) : ∀ (as : List Nat) (ds : List Stored) (h : List Stored), Upto env h0 h →
    Points h0 as ds → ∃ h', toProtocol env h as = some (h', ds.map fun d => itemOf env (promote env d)) ∧ Upto env h0 h' ∧
      (∀ a, a ∉ as → h'[a]? = h[a]?) ∧ ∀ a ∈ as, h'[a]? = (h0[a]?).map (promote env) := by
  intro as
  induction as with
  | nil =>
    intro ds h hu hp
    cases ds with
    | nil => exact ⟨h, rfl, hu, fun _ _ => rfl, fun a ha => (by cases ha)⟩
    | cons d ds => exact absurd hp.length (by simp)
  | cons a as ih =>
    intro ds h hu hp
    obtain ⟨d, ds', rfl, hd, hp'⟩ := Points.cons_iff.1 hp
    obtain ⟨d1, hd1, hpr⟩ : ∃ d1, h[a]? = some d1 ∧ promote env d1 = promote env d := by
      rcases hu.2 a d hd with he | he
      · exact ⟨d, he, rfl⟩
      · exact ⟨_, he, promote_idem env d⟩
    have hlt : a < h.length := by
      by_contra hc
      rw [List.getElem?_eq_none (by omega)] at hd1
      cases hd1
    have hu1 : Upto env h0 (h.set a (promote env d1)) := by
      refine ⟨by rw [List.length_set]; exact hu.1, fun b e he => ?_⟩
      by_cases hb : a = b
      · subst hb
        rw [hd] at he
        cases he
        right
        rw [List.getElem?_set_self hlt, hpr]
      · rw [List.getElem?_set_ne hb]
        exact hu.2 b e he
    obtain ⟨h', e1, e2, e3, e4⟩ := ih ds' _ hu1 hp'
    refine ⟨h', ?_, e2, fun b hb => ?_, fun b hb => ?_⟩
    · rw [toProtocol, hd1]
      simp only [e1, List.map_cons]
      rw [hpr]
    · rw [List.mem_cons, not_or] at hb
      rw [e3 b hb.2, List.getElem?_set_ne (Ne.symm hb.1)]
    · by_cases hm : b ∈ as
      · exact e4 b hm
      · rcases List.mem_cons.1 hb with rfl | hb
        · rw [e3 b hm, List.getElem?_set_self hlt, hd, hpr]
          rfl
        · exact absurd hb hm

/-! ## Snapshots -/

theorem Points.append {h : List Stored} {as : List Nat} {ds : List Stored} (hp : Points h as ds) (more : List Stored) :
    Points (h ++ more) as ds := by
  induction as generalizing ds with
  | nil => cases ds with
    | nil => rfl
    | cons d ds => exact absurd hp.length (by simp)
  | cons a as ih =>
    obtain ⟨d, ds', rfl, hd, hp'⟩ := Points.cons_iff.1 hp
    refine Points.cons_iff.2 ⟨d, ds', rfl, ?_, ih hp'⟩
    have hlt : a < h.length := by
      by_contra hc
      rw [List.getElem?_eq_none (by omega)] at hd
      cases hd
    rw [List.getElem?_append_left hlt, hd]

theorem copy_spec : ∀ (as : List Nat) (ds h : List Stored), Points h as ds →
    ∃ bs, copy h as = some (h ++ ds, bs) ∧ Points (h ++ ds) bs ds ∧ ∀ b ∈ bs, h.length ≤ b := by
  intro as
  induction as with
  | nil =>
    intro ds h hp
    cases ds with
    | nil => exact ⟨[], by simp [copy], rfl, fun b hb => by cases hb⟩
    | cons d ds => exact absurd hp.length (by simp)
  | cons a as ih =>
    intro ds h hp
    obtain ⟨d, ds', rfl, hd, hp'⟩ := Points.cons_iff.1 hp
    obtain ⟨bs, e1, e2, e3⟩ := ih ds' (h ++ [d]) (hp'.append _)
    refine ⟨h.length :: bs, ?_, ?_, ?_⟩
    · rw [copy, hd]
      simp only [e1, List.append_assoc, List.cons_append, List.nil_append]
    · rw [List.append_assoc, List.cons_append, List.nil_append] at e2
      refine Points.cons_iff.2 ⟨d, ds', rfl, ?_, e2⟩
      simp
    · intro b hb
      rcases List.mem_cons.1 hb with rfl | hb
      · exact Nat.le_refl _
      · have := e3 b hb
        simp at this
        omega

theorem snapshot_spec (lists : Path → List Nat) (view : Path → List Stored) : ∀ (ps : List Path) (h : List Stored),
    (∀ p ∈ ps, Points h (lists p) (view p)) →
    ∃ more snap, snapshot lists h ps = some (h ++ more, snap) ∧ snap.map (·.1) = ps ∧
      ∀ x ∈ snap, Points (h ++ more) x.2 (view x.1) ∧ ∀ b ∈ x.2, h.length ≤ b := by
  intro ps
  induction ps with
  | nil => intro h _; exact ⟨[], [], by simp [snapshot], rfl, fun x hx => by cases hx⟩
  | cons p ps ih =>
    intro h hv
    obtain ⟨bs, e1, e2, e3⟩ := copy_spec (lists p) (view p) h (hv p (by simp))
    obtain ⟨more, snap, f1, f2, f3⟩ := ih (h ++ view p) fun q hq => (hv q (by simp [hq])).append _
    refine ⟨view p ++ more, (p, bs) :: snap, ?_, by simp [f2], ?_⟩
    · rw [snapshot, e1]
      simp only [f1, List.append_assoc]
    · intro x hx
      rw [← List.append_assoc]
      rcases List.mem_cons.1 hx with rfl | hx
      · exact ⟨e2.append _, e3⟩
      · refine ⟨(f3 x hx).1, fun b hb => ?_⟩
        have := (f3 x hx).2 b hb
        rw [List.length_append] at this
        omega

/-! ## The whole report -/

theorem collect_spec (env : Env) (h0 : List Stored) (n : Nat) (view : Path → List Stored) : ∀ (snap : List (Path × List Nat))
    (h : List Stored) (res : List (Uri × List Item)), Upto env h0 h →
    (∀ x ∈ snap, Points h0 x.2 (view x.1) ∧ ∀ b ∈ x.2, n ≤ b) →
    ∃ h' r, collect env h res snap = (h', r) ∧ (∀ a, a < n → h'[a]? = h[a]?) ∧ r ≠ .panic ∧
      (r = .err ↔ ∃ x ∈ snap, env.uriOf x.1 = none) ∧
      ∀ m, r = .ok m →
        (∀ u items, (u, items) ∈ m → (u, items) ∈ res ∨ ∃ x ∈ snap, env.uriOf x.1 = some u ∧
          items = (view x.1).map fun d => itemOf env (promote env d)) ∧
        (∀ x ∈ snap, ∀ u, env.uriOf x.1 = some u → ∃ items, Assoc.get m u = some items) ∧
        (∀ u items, Assoc.get res u = some items → ∃ items, Assoc.get m u = some items) := by
  intro snap
  induction snap with
  | nil =>
    intro h res hu _
    refine ⟨h, .ok res, rfl, fun _ _ => rfl, by simp, by simp, ?_⟩
    intro m hm
    cases hm
    exact ⟨fun u items hi => .inl hi, fun x hx => (by cases hx), fun u items hi => ⟨items, hi⟩⟩
  | cons x snap ih =>
    intro h res hu hp
    obtain ⟨p, as⟩ := x
    rw [collect]
    cases hq : env.uriOf p with
    | none =>
      refine ⟨h, .err, rfl, fun _ _ => rfl, by simp, ⟨fun _ => ⟨(p, as), by simp, hq⟩, fun _ => rfl⟩, ?_⟩
      intro m hm
      cases hm
    | some u =>
      obtain ⟨hpt, hge⟩ := hp (p, as) (by simp)
      obtain ⟨h1, e1, e2, e3, -⟩ := toProtocol_spec env h0 as (view p) h hu hpt
      obtain ⟨h', r, f1, f2, f3, f4, f5⟩ := ih h1 (Assoc.set res u ((view p).map fun d => itemOf env (promote env d))) e2
        fun y hy => hp y (by simp [hy])
      have hself : ∀ (m : List (Uri × List Item)) v, Assoc.get (Assoc.set m u v) u = some v := by
        intro m v
        simp [Assoc.get, Assoc.set]
      simp only [e1]
      refine ⟨h', r, f1, fun a ha => ?_, f3, ?_, ?_⟩
      · rw [f2 a ha, e3 a]
        intro hm
        have := hge a hm
        omega
      · rw [f4]
        constructor
        · rintro ⟨y, hy, hn⟩
          exact ⟨y, by simp [hy], hn⟩
        · rintro ⟨y, hy, hn⟩
          rcases List.mem_cons.1 hy with rfl | hy
          · rw [hq] at hn
            cases hn
          · exact ⟨y, hy, hn⟩
      · intro m hm
        obtain ⟨g1, g2, g3⟩ := f5 m hm
        refine ⟨fun v items hi => ?_, fun y hy v hv => ?_, fun v items hi => ?_⟩
        · rcases g1 v items hi with hr | ⟨y, hy, hv, he⟩
          · rcases Assoc.mem_set.1 hr with he | ⟨he, -⟩
            · cases he
              exact .inr ⟨(p, as), by simp, hq, rfl⟩
            · exact .inl he
          · exact .inr ⟨y, by simp [hy], hv, he⟩
        · rcases List.mem_cons.1 hy with rfl | hy
          · rw [hq] at hv
            cases hv
            exact g3 u _ (hself _ _)
          · exact g2 y hy v hv
        · by_cases hvu : v = u
          · subst hvu
            exact g3 v _ (hself _ _)
          · refine g3 v items ?_
            rw [← hi]
            have hne : u ≠ v := fun e => hvu e.symm
            simp only [Assoc.get, Assoc.set, List.find?_cons, hne, decide_false]
            congr 1
            unfold Assoc.del
            rw [List.find?_filter]
            congr 1
            funext e
            by_cases hev : e.1 = v
            · simp [hev, hvu]
            · simp [hev]

/-! ## States -/

/-- The lists have valid addresses of diagnostics of their own file, and are those of distinct keys. -/
structure Wf (s : State) : Prop where
  nodup : s.keys.Nodup
  own : ∀ p, ∀ a ∈ s.lists p, ∃ d, s.heap[a]? = some d ∧ d.path = p
  none : ∀ p, p ∉ s.keys → s.lists p = []

theorem Wf.points {s : State} (h : Wf s) (p : Path) : Points s.heap (s.lists p) (s.view p) := by
  have : ∀ as : List Nat, (∀ a ∈ as, ∃ d, s.heap[a]? = some d ∧ d.path = p) → Points s.heap as (as.filterMap (s.heap[·]?)) := by
    intro as
    induction as with
    | nil => intro _; rfl
    | cons a as ih =>
      intro ha
      obtain ⟨d, hd, _⟩ := ha a (by simp)
      rw [List.filterMap_cons, hd]
      exact Points.cons_iff.2 ⟨d, _, rfl, hd, ih fun b hb => ha b (by simp [hb])⟩
  exact this _ (h.own p)

theorem Wf.empty : Wf {} := ⟨List.nodup_nil, fun _ a ha => (by cases ha), fun _ _ => rfl⟩

theorem lookup_append {h : List Stored} {a : Nat} {d : Stored} (hd : h[a]? = some d) (more : List Stored) : (h ++ more)[a]? = some d := by
  have hlt : a < h.length := by
    by_contra hc
    rw [List.getElem?_eq_none (by omega)] at hd
    cases hd
  rw [List.getElem?_append_left hlt, hd]

theorem Wf.add {s : State} (h : Wf s) (d : Stored) : Wf (s.add d) where
  nodup := by
    unfold State.add
    simp only
    split
    · exact h.nodup
    · rename_i hn
      exact List.nodup_append.2 ⟨h.nodup, by simp, fun x hx y hy => by
        rw [List.mem_singleton] at hy
        rintro rfl
        exact hn (hy ▸ hx)⟩
  own p a ha := by
    simp only [State.add] at ha ⊢
    split at ha
    · rename_i hp
      rcases List.mem_append.1 ha with ha | ha
      · obtain ⟨e, he, hep⟩ := h.own p a ha
        exact ⟨e, lookup_append he _, hep⟩
      · rw [List.mem_singleton] at ha
        subst ha
        exact ⟨d, by simp, hp.symm⟩
    · obtain ⟨e, he, hep⟩ := h.own p a ha
      exact ⟨e, lookup_append he _, hep⟩
  none p hp := by
    simp only [State.add] at hp ⊢
    have : p ≠ d.path := by
      rintro rfl
      split at hp
      · exact hp ‹_›
      · simp at hp
    rw [if_neg this]
    refine h.none p fun hk => hp ?_
    split
    · exact hk
    · simp [hk]

theorem Wf.sub {s t : State} (h : Wf s) (hk : t.keys = s.keys) (hh : t.heap = s.heap) (hl : ∀ p, (t.lists p).Sublist (s.lists p)) : Wf t where
  nodup := hk ▸ h.nodup
  own p a ha := by
    rw [hh]
    exact h.own p a ((hl p).subset ha)
  none p hp := by
    have := h.none p (hk ▸ hp)
    have hs := hl p
    rw [this] at hs
    exact List.sublist_nil.1 hs

theorem deleteRelated_sub (s : State) (r : Diagnostics.Related) :
    (s.deleteRelated r).keys = s.keys ∧ (s.deleteRelated r).heap = s.heap ∧ ∀ p, ((s.deleteRelated r).lists p).Sublist (s.lists p) := by
  unfold State.deleteRelated
  split
  · refine ⟨rfl, rfl, fun p => ?_⟩
    simp only
    split
    · exact List.eraseP_sublist
    · exact List.Sublist.refl _
  · exact ⟨rfl, rfl, fun _ => List.Sublist.refl _⟩

theorem deleteAll_sub (rs : List Diagnostics.Related) (s : State) :
    (rs.foldl State.deleteRelated s).keys = s.keys ∧ (rs.foldl State.deleteRelated s).heap = s.heap ∧
      ∀ p, ((rs.foldl State.deleteRelated s).lists p).Sublist (s.lists p) := by
  induction rs generalizing s with
  | nil => exact ⟨rfl, rfl, fun _ => List.Sublist.refl _⟩
  | cons r rs ih =>
    obtain ⟨a, b, c⟩ := ih (s.deleteRelated r)
    obtain ⟨a', b', c'⟩ := deleteRelated_sub s r
    exact ⟨a.trans a', b.trans b', fun p => (c p).trans (c' p)⟩

theorem Wf.clear {s : State} (h : Wf s) (p : Path) : Wf (s.clear p) := by
  unfold State.clear
  split
  · obtain ⟨a, b, c⟩ := deleteAll_sub (((s.lists p).filterMap (s.heap[·]?)).flatMap (·.diag.related))
      { s with lists := fun q => if q = p then [] else s.lists q }
    refine h.sub a b fun q => (c q).trans ?_
    simp only
    split
    · exact List.nil_sublist _
    · exact List.Sublist.refl _
  · exact h

/-- The publication of a file: what is reported, and what is held after that. -/
theorem stream_spec {s : State} (h : Wf s) (env : Env) (p : Path) :
    ∃ t, s.stream env p = some (t, (env.uriOf p).map fun u => (u, (s.view p).map fun d => itemOf env (promote env d))) ∧ Wf t ∧
      t.keys = s.keys ∧ t.lists = s.lists ∧
      ∀ q, t.view q = if q = p ∧ (env.uriOf p).isSome then (s.view q).map (promote env) else s.view q := by
  unfold State.stream
  cases hq : env.uriOf p with
  | none => exact ⟨s, rfl, h, rfl, rfl, fun q => by simp⟩
  | some u =>
    obtain ⟨h', e1, e2, e3, e4⟩ := toProtocol_spec env s.heap (s.lists p) (s.view p) s.heap (Upto.refl _ _) (h.points p)
    simp only [e1]
    refine ⟨_, rfl, ⟨h.nodup, fun q a ha => ?_, h.none⟩, rfl, rfl, fun q => ?_⟩
    · obtain ⟨d, hd, hp⟩ := h.own q a ha
      rcases e2.2 a d hd with he | he
      · exact ⟨d, he, hp⟩
      · exact ⟨_, he, hp⟩
    · unfold State.view
      simp only
      by_cases hqp : q = p
      · subst hqp
        simp only [Option.isSome_some, and_self, if_true]
        rw [List.map_filterMap]
        exact filterMap_congr' fun a ha => e4 a ha
      · rw [if_neg fun hc => hqp hc.1]
        refine filterMap_congr' fun a ha => e3 a fun hm => hqp ?_
        obtain ⟨d, hd, h1⟩ := h.own q a ha
        obtain ⟨d', hd', h2⟩ := h.own p a hm
        rw [hd] at hd'
        cases hd'
        rw [← h1, h2]

/-- The report of all diagnostics. -/
theorem getAll_spec {s : State} (h : Wf s) (env : Env) (order : List (Path × List Nat) → List (Path × List Nat))
    (hperm : ∀ l, (order l).Perm l) :
    ∃ t r, getAll s env order = (t, r) ∧ Wf t ∧ t.keys = s.keys ∧ (∀ p, t.view p = s.view p) ∧ r ≠ .panic ∧
      (r = .err ↔ ∃ p ∈ s.keys, env.uriOf p = none) ∧
      ∀ m, r = .ok m →
        (∀ u items, (u, items) ∈ m → ∃ p ∈ s.keys, env.uriOf p = some u ∧ items = (s.view p).map fun d => itemOf env (promote env d)) ∧
        ∀ p ∈ s.keys, ∀ u, env.uriOf p = some u → ∃ items, Assoc.get m u = some items := by
  obtain ⟨more, snap, e1, e2, e3⟩ := snapshot_spec s.lists s.view s.keys s.heap fun p _ => h.points p
  have hmem : ∀ x, x ∈ order snap ↔ x ∈ snap := fun x => (hperm snap).mem_iff
  obtain ⟨h', r, f1, f2, f3, f4, f5⟩ := collect_spec env (s.heap ++ more) s.heap.length s.view (order snap) (s.heap ++ more) []
    (Upto.refl _ _) fun x hx => e3 x ((hmem x).1 hx)
  have hkeys : ∀ p, p ∈ s.keys ↔ ∃ x ∈ snap, x.1 = p := by
    intro p
    rw [← e2, List.mem_map]
  have hlow : ∀ (a : Nat) (d : Stored), s.heap[a]? = some d → h'[a]? = some d := by
    intro a d hd
    have hlt : a < s.heap.length := by
      by_contra hc
      rw [List.getElem?_eq_none (by omega)] at hd
      cases hd
    rw [f2 a hlt]
    exact lookup_append hd _
  unfold getAll
  simp only [e1, f1]
  refine ⟨_, r, rfl, ⟨h.nodup, fun p a ha => ?_, h.none⟩, rfl, fun p => ?_, f3, ?_, ?_⟩
  · obtain ⟨d, hd, hp⟩ := h.own p a ha
    exact ⟨d, hlow a d hd, hp⟩
  · refine filterMap_congr' fun a ha => ?_
    obtain ⟨d, hd, _⟩ := h.own p a ha
    rw [hd]
    exact hlow a d hd
  · rw [f4]
    constructor
    · rintro ⟨x, hx, hn⟩
      exact ⟨x.1, (hkeys _).2 ⟨x, (hmem x).1 hx, rfl⟩, hn⟩
    · rintro ⟨p, hp, hn⟩
      obtain ⟨x, hx, rfl⟩ := (hkeys p).1 hp
      exact ⟨x, (hmem x).2 hx, hn⟩
  · intro m hm
    obtain ⟨g1, g2, -⟩ := f5 m hm
    refine ⟨fun u items hi => ?_, fun p hp u hu => ?_⟩
    · rcases g1 u items hi with hc | ⟨x, hx, hu, he⟩
      · cases hc
      · exact ⟨x.1, (hkeys _).2 ⟨x, (hmem x).1 hx, rfl⟩, hu, he⟩
    · obtain ⟨x, hx, rfl⟩ := (hkeys p).1 hp
      exact g2 x ((hmem x).2 hx) u hu

theorem step_wf {s t : State} {op : Op} (h : Wf s) (he : step s op = some t) : Wf t := by
  cases op with
  | error e => cases he; exact h.add _
  | warning e => cases he; exact h.add _
  | clear p => cases he; exact h.clear p
  | stream env p =>
    obtain ⟨t', e1, e2, -⟩ := stream_spec h env p
    simp only [step, e1, Option.map_some, Option.some.injEq] at he
    exact he ▸ e2
  | all env order perm =>
    obtain ⟨t', r, e1, e2, -, -, e3, -⟩ := getAll_spec h env order perm
    simp only [step, e1] at he
    cases r with
    | ok m => simp only [Option.some.injEq] at he; exact he ▸ e2
    | err => simp only [Option.some.injEq] at he; exact he ▸ e2
    | panic => exact absurd rfl e3

theorem step_some {s : State} (h : Wf s) (op : Op) : ∃ t, step s op = some t := by
  cases op with
  | error e => exact ⟨_, rfl⟩
  | warning e => exact ⟨_, rfl⟩
  | clear p => exact ⟨_, rfl⟩
  | stream env p =>
    obtain ⟨t', e1, -⟩ := stream_spec h env p
    exact ⟨t', by simp [step, e1]⟩
  | all env order perm =>
    obtain ⟨t', r, e1, -, -, -, e3, -⟩ := getAll_spec h env order perm
    cases r with
    | ok m => exact ⟨t', by simp [step, e1]⟩
    | err => exact ⟨t', by simp [step, e1]⟩
    | panic => exact absurd rfl e3

theorem run_wf (hist : List Op) {s : State} (h : Wf s) : ∃ t, run s hist = some t ∧ Wf t := by
  induction hist generalizing s with
  | nil => exact ⟨s, rfl, h⟩
  | cons op ops ih =>
    obtain ⟨t, ht⟩ := step_some h op
    obtain ⟨t', e1, e2⟩ := ih (step_wf h ht)
    exact ⟨t', by rw [run, ht]; exact e1, e2⟩

/-! ## Histories -/

/-- The reason why a stored diagnostic is an error. -/
def Why (x : Entry) : Prop := x.warning = false ∨ x.err.category ≠ [] ∧ ∃ pragma ∈ x.published, ¬ Tolerates pragma x.err.category

/-- The stored diagnostic of a report. -/
structure Rel (x : Entry) (d : Stored) : Prop where
  path : d.path = x.err.file
  range : d.diag.range = x.err.range
  ident : d.diag.ident = x.err.ident
  related : d.diag.related = x.err.other.toList
  category : d.diag.werrorCategory = if x.warning = true then x.err.category else []
  asError : Why x → d.diag.severity = .error
  asWarning : ¬ Why x → d.diag.severity = .warning

theorem Rel.promote {x : Entry} {d : Stored} (h : Rel x d) (env : Env) :
    Rel { x with published := env.pragma x.err.file :: x.published } (promote env d) := by
  have hsev : (Why { x with published := env.pragma x.err.file :: x.published } →
      reportedSeverity d.diag (env.pragma d.path) = .error) ∧
      (¬ Why { x with published := env.pragma x.err.file :: x.published } → reportedSeverity d.diag (env.pragma d.path) = .warning) := by
    rw [h.path]
    by_cases hw : Why x
    · have he := h.asError hw
      have hr : reportedSeverity d.diag (env.pragma x.err.file) = .error := by
        rw [Diagnostics.C09_others_unchanged _ _ (.inl (by rw [he]; decide)), he]
      refine ⟨fun _ => hr, fun hn => absurd ?_ hn⟩
      rcases hw with hw | ⟨h1, pr, h2, h3⟩
      · exact .inl hw
      · exact .inr ⟨h1, pr, List.mem_cons_of_mem _ h2, h3⟩
    · have he := h.asWarning hw
      have hwt : x.warning = true := by
        cases hx : x.warning with
        | true => rfl
        | false => exact absurd (.inl hx) hw
      have hcat : d.diag.werrorCategory = x.err.category := by rw [h.category, if_pos hwt]
      by_cases hc : x.err.category = []
      · have hr : reportedSeverity d.diag (env.pragma x.err.file) = .warning := by
          rw [Diagnostics.C09_others_unchanged _ _ (.inr (by rw [hcat, hc])), he]
        refine ⟨fun hy => ?_, fun _ => hr⟩
        rcases hy with hy | ⟨hy, -⟩
        · rw [hwt] at hy
          cases hy
        · exact absurd hc hy
      · obtain ⟨h1, h2⟩ := Diagnostics.C09_warning_promoted d.diag (env.pragma x.err.file) he (by rw [hcat]; exact hc)
        rw [hcat] at h1 h2
        have hiff : Why { x with published := env.pragma x.err.file :: x.published } ↔ ¬ Tolerates (env.pragma x.err.file) x.err.category := by
          constructor
          · rintro (hy | ⟨-, pr, hm, hy⟩)
            · rw [hwt] at hy
              cases hy
            · rcases List.mem_cons.1 hm with rfl | hm
              · exact hy
              · exact absurd (.inr ⟨hc, pr, hm, hy⟩) hw
          · intro hy
            exact .inr ⟨hc, _, List.mem_cons_self, hy⟩
        rw [hiff]
        exact ⟨fun hy => h1.2 hy, fun hy => h2.2 (by by_contra hz; exact hy hz)⟩
  exact ⟨h.path, h.range, h.ident, h.related, h.category, hsev.1, hsev.2⟩

theorem Rel.shows {x : Entry} {d : Stored} (h : Rel x d) (env : Env) : Shows env x (itemOf env (AllDiags.promote env d)) where
  range := h.range
  ident := h.ident
  code := by
    show (if d.diag.werrorCategory = [] then none else some d.diag.werrorCategory) = _
    rw [h.category]
    cases x.warning <;> by_cases hc : x.err.category = [] <;> simp [hc]
  related := by
    show relatedOf env d.diag.related = _
    rw [h.related]
    unfold relatedOf
    cases x.err.other with
    | none => rfl
    | some r => cases hu : env.uriOf r.file <;> simp [hu]
  asError hs := (h.promote env).asError hs
  asWarning hs := (h.promote env).asWarning hs

theorem forall_shows {xs : List Entry} {ds : List Stored} (h : List.Forall₂ Rel xs ds) (env : Env) :
    List.Forall₂ (Shows env) xs (ds.map fun d => itemOf env (promote env d)) := by
  rw [List.forall₂_map_right_iff]
  exact h.imp fun _ _ hr => hr.shows env

/-- The handler holds the reports. -/
structure Inv (s : State) (acc : Path → List Entry) (known : Path → Prop) : Prop where
  wf : Wf s
  rel : ∀ p, List.Forall₂ Rel (acc p) (s.view p)
  keys : ∀ p, p ∈ s.keys ↔ known p

theorem view_add {s : State} (h : Wf s) (d : Stored) (p : Path) :
    (s.add d).view p = if p = d.path then s.view p ++ [d] else s.view p := by
  have hold : ∀ q, (s.lists q).filterMap ((s.heap ++ [d])[·]?) = s.view q := by
    intro q
    refine filterMap_congr' fun a ha => ?_
    obtain ⟨e, he, _⟩ := h.own q a ha
    rw [he]
    exact lookup_append he _
  show List.filterMap ((s.heap ++ [d])[·]?) (if p = d.path then s.lists p ++ [s.heap.length] else s.lists p) = _
  by_cases hp : p = d.path
  · rw [if_pos hp, if_pos hp, List.filterMap_append, hold]
    simp
  · rw [if_neg hp, if_neg hp, hold]

theorem Inv.report {s : State} {acc : Path → List Entry} {known : Path → Prop} (h : Inv s acc known) (d : Stored) (x : Entry)
    (hr : Rel x d) :
    Inv (s.add d) (fun p => if x.err.file = p then acc p ++ [x] else acc p) (fun p => known p ∨ x.err.file = p) where
  wf := h.wf.add d
  rel p := by
    rw [view_add h.wf]
    by_cases hp : x.err.file = p
    · rw [if_pos hp, if_pos (by rw [hr.path, hp])]
      exact List.rel_append (h.rel p) (.cons hr .nil)
    · rw [if_neg hp, if_neg (by rw [hr.path]; exact fun e => hp e.symm)]
      exact h.rel p
  keys p := by
    unfold State.add
    simp only
    rw [hr.path]
    split
    · rename_i hk
      rw [h.keys]
      refine ⟨.inl, ?_⟩
      rintro (hp | rfl)
      · exact hp
      · exact (h.keys _).1 hk
    · rw [List.mem_append, List.mem_singleton, h.keys]
      exact ⟨fun e => e.imp_right Eq.symm, fun e => e.imp_right Eq.symm⟩

/-- The known files after an operation. -/
def knownAfter (known : Path → Prop) (op : Op) (p : Path) : Prop :=
  known p ∨ ∃ e, (op = .error e ∨ op = .warning e) ∧ e.file = p

theorem knownAfter_other {known : Path → Prop} {op : Op} (h1 : ∀ e, op ≠ .error e) (h2 : ∀ e, op ≠ .warning e) :
    knownAfter known op = known := by
  funext p
  refine propext ⟨?_, .inl⟩
  rintro (h | ⟨e, h | h, _⟩)
  · exact h
  · exact absurd h (h1 e)
  · exact absurd h (h2 e)

theorem Inv.step {s t : State} {acc : Path → List Entry} {known : Path → Prop} {op : Op} (h : Inv s acc known)
    (hc : (∀ p, ∀ x ∈ acc p, x.err.other = none) ∨ ∀ p, op ≠ .clear p) (he : step s op = some t) :
    Inv t (fun p => note p (acc p) op) (knownAfter known op) := by
  cases op with
  | error e =>
    cases he
    have hi := h.report ⟨e.file, e.version, ⟨e.ident, e.range, .error, e.other.toList, []⟩⟩ ⟨e, false, []⟩
      ⟨rfl, rfl, rfl, rfl, rfl, fun _ => rfl, fun hn => absurd (.inl rfl) hn⟩
    refine ⟨hi.wf, hi.rel, fun p => (hi.keys p).trans ?_⟩
    unfold knownAfter
    refine or_congr_right ⟨fun hp => ⟨e, .inl rfl, hp⟩, ?_⟩
    rintro ⟨_, hp | hp, hq⟩ <;> cases hp
    exact hq
  | warning e =>
    cases he
    have hi := h.report ⟨e.file, e.version, ⟨e.ident, e.range, .warning, e.other.toList, e.category⟩⟩ ⟨e, true, []⟩
      ⟨rfl, rfl, rfl, rfl, rfl, fun hw => (by
        rcases hw with hw | ⟨_, pr, hm, _⟩
        · cases hw
        · cases hm), fun _ => rfl⟩
    refine ⟨hi.wf, hi.rel, fun p => (hi.keys p).trans ?_⟩
    unfold knownAfter
    refine or_congr_right ⟨fun hp => ⟨e, .inr rfl, hp⟩, ?_⟩
    rintro ⟨_, hp | hp, hq⟩ <;> cases hp
    exact hq
  | clear p =>
    cases he
    have hno : ∀ q, ∀ x ∈ acc q, x.err.other = none := by
      rcases hc with hc | hc
      · exact hc
      · exact absurd rfl (hc p)
    have hrel : ∀ q, ∀ d ∈ s.view q, d.diag.related = [] := by
      intro q d hd
      have := h.rel q
      obtain ⟨n, hn, he⟩ := List.getElem_of_mem hd
      have hlen := this.length_eq
      have hr := List.forall₂_iff_get.1 this |>.2 n (by omega) hn
      rw [List.get_eq_getElem, List.get_eq_getElem, he] at hr
      rw [hr.related, hno q _ (List.getElem_mem _)]
      rfl
    rw [knownAfter_other (by simp) (by simp)]
    have hcl : s.clear p = { s with lists := fun q => if q = p then [] else s.lists q } := by
      unfold State.clear
      split
      · have : ((s.lists p).filterMap (s.heap[·]?)).flatMap (·.diag.related) = [] := by
          rw [List.flatMap_eq_nil_iff]
          exact hrel p
        rw [this]
        rfl
      · rename_i hk
        have : s.lists = fun q => if q = p then [] else s.lists q := by
          funext q
          split
          · rename_i hq
            rw [hq, h.wf.none p hk]
          · rfl
        rw [← this]
    refine ⟨h.wf.clear p, fun q => ?_, fun q => ?_⟩
    · rw [hcl]
      unfold State.view
      simp only [note]
      by_cases hq : p = q
      · rw [if_pos hq, if_pos hq.symm]
        exact .nil
      · rw [if_neg hq, if_neg fun e => hq e.symm]
        exact h.rel q
    · rw [hcl]
      exact h.keys q
  | stream env p =>
    obtain ⟨t', e1, e2, e3, e4, e5⟩ := stream_spec h.wf env p
    simp only [AllDiags.step, e1, Option.map_some, Option.some.injEq] at he
    subst he
    rw [knownAfter_other (by simp) (by simp)]
    refine ⟨e2, fun q => ?_, fun q => by rw [e3]; exact h.keys q⟩
    rw [e5]
    simp only [note]
    by_cases hq : q = p ∧ (env.uriOf p).isSome
    · obtain ⟨rfl, hu⟩ := hq
      rw [if_pos ⟨rfl, hu⟩, if_pos ⟨rfl, hu⟩, List.forall₂_map_left_iff, List.forall₂_map_right_iff]
      have hpath : ∀ d ∈ s.view q, d.path = q := by
        intro d hd
        obtain ⟨a, ha, hd⟩ := List.mem_filterMap.1 hd
        obtain ⟨d', hd', hp⟩ := h.wf.own q a ha
        rw [hd] at hd'
        cases hd'
        exact hp
      have hr := h.rel q
      generalize acc q = xs at hr
      generalize s.view q = ds at hr hpath
      induction hr with
      | nil => exact .nil
      | @cons x d xs ds hr _ ih =>
        refine .cons ?_ (ih fun d' hd' => hpath d' (by simp [hd']))
        have := hr.promote env
        rw [← hr.path, hpath d (by simp)] at this
        exact this
    · rw [if_neg hq, if_neg fun hn => hq ⟨hn.1.symm, hn.2 |> fun z => by rw [hn.1]; exact z⟩]
      exact h.rel q
  | all env order perm =>
    obtain ⟨t', r, e1, e2, e3, e4, e5, -⟩ := getAll_spec h.wf env order perm
    rw [knownAfter_other (by simp) (by simp)]
    have : t' = t := by
      simp only [AllDiags.step, e1] at he
      cases r with
      | ok m => simpa using he
      | err => simpa using he
      | panic => exact absurd rfl e5
    subst this
    exact ⟨e2, fun q => by rw [e4]; exact h.rel q, fun q => by rw [e3]; exact h.keys q⟩

theorem note_other {p : Path} {acc : List Entry} {op : Op} (h : ∀ x ∈ acc, x.err.other = none)
    (ho : ∀ e, op = .error e ∨ op = .warning e → e.other = none) : ∀ x ∈ note p acc op, x.err.other = none := by
  intro x hx
  cases op with
  | error e =>
    simp only [note] at hx
    split at hx
    · rcases List.mem_append.1 hx with hx | hx
      · exact h x hx
      · rw [List.mem_singleton] at hx
        rw [hx]
        exact ho e (.inl rfl)
    · exact h x hx
  | warning e =>
    simp only [note] at hx
    split at hx
    · rcases List.mem_append.1 hx with hx | hx
      · exact h x hx
      · rw [List.mem_singleton] at hx
        rw [hx]
        exact ho e (.inr rfl)
    · exact h x hx
  | clear q =>
    simp only [note] at hx
    split at hx
    · cases hx
    · exact h x hx
  | stream env q =>
    simp only [note] at hx
    split at hx
    · obtain ⟨y, hy, rfl⟩ := List.mem_map.1 hx
      exact h y hy
    · exact h x hx
  | all _ _ _ => exact h x hx

theorem Inv.run (hist : List Op) {s t : State} {acc : Path → List Entry} {known : Path → Prop} (h : Inv s acc known)
    (hc : ((∀ p, ∀ x ∈ acc p, x.err.other = none) ∧ Unrelated hist) ∨ ∀ p, Op.clear p ∉ hist) (he : run s hist = some t) :
    Inv t (fun p => hist.foldl (note p) (acc p)) (fun p => known p ∨ Reported hist p) := by
  induction hist generalizing s acc known with
  | nil =>
    cases he
    refine ⟨h.wf, h.rel, fun p => (h.keys p).trans ⟨.inl, ?_⟩⟩
    rintro (hk | ⟨e, hm, _⟩)
    · exact hk
    · simp at hm
  | cons op ops ih =>
    rw [AllDiags.run] at he
    cases hs : AllDiags.step s op with
    | none => rw [hs] at he; cases he
    | some s1 =>
      rw [hs] at he
      have h1 := h.step (op := op) (hc.imp (·.1) fun hn p hp => hn p (by simp [hp])) hs
      have h2 := ih h1 (by
        rcases hc with ⟨h3, h4⟩ | hc
        · left
          refine ⟨fun p => note_other (h3 p) fun e hop => h4 e ?_, fun e hop => h4 e (by simp only [List.mem_cons]; exact hop.imp .inr .inr)⟩
          simp only [List.mem_cons]
          exact hop.imp (fun z => .inl z.symm) (fun z => .inl z.symm)
        · exact .inr fun p hp => hc p (by simp [hp])) he
      refine ⟨h2.wf, h2.rel, fun p => (h2.keys p).trans ?_⟩
      unfold knownAfter Reported
      constructor
      · rintro ((hk | ⟨e, hop, hf⟩) | ⟨e, hop, hf⟩)
        · exact .inl hk
        · exact .inr ⟨e, by simp only [List.mem_cons]; exact hop.imp (fun z => .inl z.symm) (fun z => .inl z.symm), hf⟩
        · exact .inr ⟨e, by simp only [List.mem_cons]; exact hop.imp .inr .inr, hf⟩
      · rintro (hk | ⟨e, hop, hf⟩)
        · exact .inl (.inl hk)
        · simp only [List.mem_cons] at hop
          rcases hop with (hop | hop) | (hop | hop)
          · exact .inl (.inr ⟨e, .inl hop.symm, hf⟩)
          · exact .inr ⟨e, .inl hop, hf⟩
          · exact .inl (.inr ⟨e, .inr hop.symm, hf⟩)
          · exact .inr ⟨e, .inr hop, hf⟩

theorem Inv.empty : Inv {} (fun _ => []) (fun _ => False) := ⟨Wf.empty, fun _ => .nil, fun p => by simp⟩

theorem step_keys {s t : State} {op : Op} {known : Path → Prop} (h : Wf s) (hk : ∀ p, p ∈ s.keys ↔ known p) (he : step s op = some t) (p : Path) :
    p ∈ t.keys ↔ knownAfter known op p := by
  have hadd : ∀ d : Stored, p ∈ (s.add d).keys ↔ known p ∨ d.path = p := by
    intro d
    unfold State.add
    simp only
    split
    · rename_i hm
      rw [hk]
      refine ⟨.inl, ?_⟩
      rintro (hp | rfl)
      · exact hp
      · exact (hk _).1 hm
    · rw [List.mem_append, List.mem_singleton, hk]
      exact ⟨fun e => e.imp_right Eq.symm, fun e => e.imp_right Eq.symm⟩
  cases op with
  | error e =>
    cases he
    refine (hadd _).trans (or_congr_right ⟨fun hp => ⟨e, .inl rfl, hp⟩, ?_⟩)
    rintro ⟨_, hp | hp, hq⟩ <;> cases hp
    exact hq
  | warning e =>
    cases he
    refine (hadd _).trans (or_congr_right ⟨fun hp => ⟨e, .inr rfl, hp⟩, ?_⟩)
    rintro ⟨_, hp | hp, hq⟩ <;> cases hp
    exact hq
  | clear q =>
    cases he
    rw [knownAfter_other (by simp) (by simp), ← hk]
    unfold State.clear
    split
    · rw [(deleteAll_sub _ _).1]
    · rfl
  | stream env q =>
    obtain ⟨t', e1, -, e3, -⟩ := stream_spec h env q
    simp only [step, e1, Option.map_some, Option.some.injEq] at he
    rw [knownAfter_other (by simp) (by simp), ← he, e3, hk]
  | all env order perm =>
    obtain ⟨t', r, e1, -, e3, -, e5, -⟩ := getAll_spec h env order perm
    rw [knownAfter_other (by simp) (by simp)]
    simp only [step, e1] at he
    cases r with
    | ok m => cases he; rw [e3, hk]
    | err => cases he; rw [e3, hk]
    | panic => exact absurd rfl e5

theorem run_keys (hist : List Op) {s t : State} {known : Path → Prop} (h : Wf s) (hk : ∀ p, p ∈ s.keys ↔ known p) (he : run s hist = some t)
    (p : Path) : p ∈ t.keys ↔ known p ∨ Reported hist p := by
  induction hist generalizing s known with
  | nil =>
    cases he
    refine (hk p).trans ⟨.inl, ?_⟩
    rintro (hk | ⟨e, hm, _⟩)
    · exact hk
    · simp at hm
  | cons op ops ih =>
    rw [run] at he
    cases hs : step s op with
    | none => rw [hs] at he; cases he
    | some s1 =>
      rw [hs] at he
      refine (ih (step_wf h hs) (step_keys h hk hs) he).trans ?_
      unfold knownAfter Reported
      constructor
      · rintro ((hk | ⟨e, hop, hf⟩) | ⟨e, hop, hf⟩)
        · exact .inl hk
        · exact .inr ⟨e, by simp only [List.mem_cons]; exact hop.imp (fun z => .inl z.symm) (fun z => .inl z.symm), hf⟩
        · exact .inr ⟨e, by simp only [List.mem_cons]; exact hop.imp .inr .inr, hf⟩
      · rintro (hk | ⟨e, hop, hf⟩)
        · exact .inl (.inl hk)
        · simp only [List.mem_cons] at hop
          rcases hop with (hop | hop) | (hop | hop)
          · exact .inl (.inr ⟨e, .inl hop.symm, hf⟩)
          · exact .inr ⟨e, .inl hop, hf⟩
          · exact .inl (.inr ⟨e, .inr hop.symm, hf⟩)
          · exact .inr ⟨e, .inr hop, hf⟩

end Verif.AllDiags
