import Verif.Lemmas.AllDiags

/-!
# C107: the report of all diagnostics
-/
namespace Verif.AllDiags

open Diagnostics (Path)
open Documents (Res)

/-- **C107**: the report of all diagnostics has an entry for each file that the compiler has reported something for, and no other; the entry
shows the reports since the file was last invalidated, in order, each with its place, its category and its severity. That is, whatever
happened before. Full statement: this for every history. Missing: files without a document, see `C107_removed_violated`; several files with
one document, see `C107_alias_violated`; histories in which a file is invalidated that has, or had, a report with an other declaration. -/
theorem C107_all_partial (hist : List Op) (hd : Unrelated hist ∨ ∀ p, Op.clear p ∉ hist) (env : Env)
    (order : List (Path × List Nat) → List (Path × List Nat)) (hperm : ∀ l, (order l).Perm l)
    (huri : ∀ p, Reported hist p → ∃ u, env.uriOf p = some u)
    (hinj : ∀ p q, Reported hist p → Reported hist q → env.uriOf p = env.uriOf q → p = q) :
    ∃ s t m, run {} hist = some s ∧ getAll s env order = (t, .ok m) ∧
      (∀ u items, (u, items) ∈ m → ∃ p, Reported hist p ∧ env.uriOf p = some u ∧ List.Forall₂ (Shows env) (entries p hist) items) ∧
      ∀ p u, Reported hist p → env.uriOf p = some u →
        ∃ items, Assoc.get m u = some items ∧ List.Forall₂ (Shows env) (entries p hist) items := by
  obtain ⟨s, hs, hw⟩ := run_wf hist Wf.empty
  have hi := Inv.empty.run hist (hd.imp_left fun h => ⟨fun p x hx => (by cases hx), h⟩) hs
  have hk : ∀ p, p ∈ s.keys ↔ Reported hist p := fun p => (hi.keys p).trans (by simp)
  obtain ⟨t, r, e1, -, -, -, e2, e3, e4⟩ := getAll_spec hw env order hperm
  cases r with
  | panic => exact absurd rfl e2
  | err =>
    obtain ⟨p, hp, hn⟩ := e3.1 rfl
    obtain ⟨u, hu⟩ := huri p ((hk p).1 hp)
    rw [hu] at hn
    cases hn
  | ok m =>
    obtain ⟨g1, g2⟩ := e4 m rfl
    refine ⟨s, t, m, hs, e1, fun u items hm => ?_, fun p u hp hu => ?_⟩
    · obtain ⟨p, hp, hu, hit⟩ := g1 u items hm
      exact ⟨p, (hk p).1 hp, hu, by rw [hit]; exact forall_shows (hi.rel p) env⟩
    · obtain ⟨items, hg⟩ := g2 p ((hk p).2 hp) u hu
      refine ⟨items, hg, ?_⟩
      unfold Assoc.get at hg
      cases hf : m.find? fun e => decide (e.1 = u) with
      | none => rw [hf] at hg; cases hg
      | some e =>
        rw [hf] at hg
        simp only [Option.map_some, Option.some.injEq] at hg
        have hm := List.mem_of_find?_eq_some hf
        have he := List.find?_some hf
        simp only [decide_eq_true_eq] at he
        obtain ⟨q, hq, hqu, hit⟩ := g1 e.1 e.2 hm
        have : q = p := hinj q p ((hk q).1 hq) hp (by rw [hqu, hu, he])
        subst this
        rw [← hg, hit]
        exact forall_shows (hi.rel q) env

/-- **C107** for the publication of a file: the client gets the reports since the file was last invalidated, in the same way. -/
theorem C107_published_partial (hist : List Op) (hd : Unrelated hist ∨ ∀ p, Op.clear p ∉ hist) (env : Env) (p : Path) (u : Uri)
    (hu : env.uriOf p = some u) :
    ∃ s t items, run {} hist = some s ∧ s.stream env p = some (t, some (u, items)) ∧ List.Forall₂ (Shows env) (entries p hist) items := by
  obtain ⟨s, hs, hw⟩ := run_wf hist Wf.empty
  have hi := Inv.empty.run hist (hd.imp_left fun h => ⟨fun p x hx => (by cases hx), h⟩) hs
  obtain ⟨t, e1, -⟩ := stream_spec hw env p
  rw [hu] at e1
  exact ⟨s, t, _, hs, e1, forall_shows (hi.rel p) env⟩

/-- **C107**: nothing panics, whatever is reported, invalidated, published and asked for. -/
theorem C107_no_panic (hist : List Op) (env : Env) (order : List (Path × List Nat) → List (Path × List Nat))
    (hperm : ∀ l, (order l).Perm l) : ∃ s, run {} hist = some s ∧ (getAll s env order).2 ≠ .panic ∧ ∀ p, s.stream env p ≠ none := by
  obtain ⟨s, hs, hw⟩ := run_wf hist Wf.empty
  obtain ⟨t, r, e1, -, -, -, e2, -⟩ := getAll_spec hw env order hperm
  refine ⟨s, hs, by rw [e1]; exact e2, fun p hn => ?_⟩
  obtain ⟨t', e3, -⟩ := stream_spec hw env p
  rw [e3] at hn
  cases hn

/-- **C107**: asking for all diagnostics changes nothing: what is published and reported after that is what would have been without it. -/
theorem C107_pure (hist : List Op) (env env' : Env) (order order' : List (Path × List Nat) → List (Path × List Nat))
    (hperm : ∀ l, (order l).Perm l) (hperm' : ∀ l, (order' l).Perm l) (s : State) (hs : run {} hist = some s) :
    (∀ p, ((getAll s env order).1.stream env' p).map (·.2) = (s.stream env' p).map (·.2)) ∧
    ((getAll (getAll s env order).1 env' order').2 = .err ↔ (getAll s env' order').2 = .err) ∧
    ∀ m m', (getAll (getAll s env order).1 env' order').2 = .ok m → (getAll s env' order').2 = .ok m' →
      ∀ u items items', (∀ p q, Reported hist p → Reported hist q → env'.uriOf p = some u → env'.uriOf q = some u → p = q) →
        (u, items) ∈ m → (u, items') ∈ m' → items = items' := by
  obtain ⟨s', hs', hw⟩ := run_wf hist Wf.empty
  rw [hs] at hs'
  cases hs'
  obtain ⟨t, r, e1, w1, k1, v1, -, -, -⟩ := getAll_spec hw env order hperm
  rw [e1]
  simp only
  obtain ⟨t2, r2, f1, -, -, -, -, f3, f4⟩ := getAll_spec w1 env' order' hperm'
  obtain ⟨t3, r3, g1, -, -, -, -, g3, g4⟩ := getAll_spec hw env' order' hperm'
  rw [f1, g1]
  refine ⟨fun p => ?_, ?_, ?_⟩
  · obtain ⟨a, h1, -⟩ := stream_spec w1 env' p
    obtain ⟨b, h2, -⟩ := stream_spec hw env' p
    rw [h1, h2, v1]
    rfl
  · simp only
    rw [f3, g3, k1]
  · intro m m' hm hm' u items items' huniq hi hi'
    obtain ⟨p1, hp1, hu1, he1⟩ := (f4 m hm).1 u items hi
    obtain ⟨p2, hp2, hu2, he2⟩ := (g4 m' hm').1 u items' hi'
    rw [k1] at hp1
    have hk := run_keys hist (known := fun _ => False) Wf.empty (by simp) hs
    have hr : ∀ p, p ∈ s.keys → Reported hist p := fun p hp => by simpa using (hk p).1 hp
    rw [he1, he2, huniq p1 p2 (hr p1 hp1) (hr p2 hp2) hu1 hu2, v1]

/-- **C107**: the report fails exactly if there was ever a report for a file without a document. -/
theorem C107_fails_iff (hist : List Op) (env : Env) (order : List (Path × List Nat) → List (Path × List Nat))
    (hperm : ∀ l, (order l).Perm l) (s : State) (hs : run {} hist = some s) :
    (getAll s env order).2 = .err ↔ ∃ p, Reported hist p ∧ env.uriOf p = none := by
  obtain ⟨s', hs', hw⟩ := run_wf hist Wf.empty
  rw [hs] at hs'
  cases hs'
  obtain ⟨t, r, e1, -, -, -, -, e3, -⟩ := getAll_spec hw env order hperm
  have hk := run_keys hist (known := fun _ => False) Wf.empty (by simp) hs
  rw [e1]
  simp only
  rw [e3]
  constructor
  · rintro ⟨p, hp, hn⟩
    exact ⟨p, by simpa using (hk p).1 hp, hn⟩
  · rintro ⟨p, hp, hn⟩
    exact ⟨p, (hk p).2 (.inr hp), hn⟩

/-! ## Examples and violations -/

namespace Demo

def env : Env := ⟨fun p => if p = "a" then some 1 else if p = "b" then some 2 else none, fun _ => none⟩

/-- An error, a warning with a category, and a report for another file. -/
def hist : List Op :=
  [.error ⟨"a", 1, 10, 1, none, []⟩, .clear "a", .warning ⟨"b", 1, 20, 2, none, []⟩,
   .warning ⟨"a", 2, 11, 3, none, "comma".toList⟩, .stream env "a", .error ⟨"a", 2, 12, 4, none, []⟩]

theorem unrelated : Unrelated hist := by
  intro e h
  simp only [hist, List.mem_cons, Op.error.injEq, Op.warning.injEq, reduceCtorEq, List.not_mem_nil, or_false, false_or] at h
  rcases h with (rfl | rfl) | (rfl | rfl) <;> rfl

theorem reported {p : Path} (h : Reported hist p) : p = "a" ∨ p = "b" := by
  obtain ⟨e, h, rfl⟩ := h
  simp only [hist, List.mem_cons, Op.error.injEq, Op.warning.injEq, reduceCtorEq, List.not_mem_nil, or_false, false_or] at h
  rcases h with (rfl | rfl) | (rfl | rfl) <;> simp

example : ∃ s t m, run {} hist = some s ∧ getAll s env id = (t, .ok m) ∧
    (∀ u items, (u, items) ∈ m → ∃ p, Reported hist p ∧ env.uriOf p = some u ∧ List.Forall₂ (Shows env) (entries p hist) items) ∧
    ∀ p u, Reported hist p → env.uriOf p = some u →
      ∃ items, Assoc.get m u = some items ∧ List.Forall₂ (Shows env) (entries p hist) items :=
  C107_all_partial hist (.inl unrelated) env id (fun _ => .refl _)
    (fun p hp => by rcases reported hp with rfl | rfl <;> exact ⟨_, rfl⟩)
    (fun p q hp hq => by rcases reported hp with rfl | rfl <;> rcases reported hq with rfl | rfl <;> simp [env])

/-- The result. -/
example : ((run {} hist).map fun s => (getAll s env id).2) =
    some (.ok [(2, [⟨20, .warning, 2, [], none⟩]), (1, [⟨11, .error, 3, [], some "comma".toList⟩, ⟨12, .error, 4, [], none⟩])]) := by
  decide +kernel

/-- The publication of `a`, with a report in an other declaration before it. -/
example : ∃ s t items, run {} (.error ⟨"b", 1, 5, 9, some ⟨"a", 7⟩, []⟩ :: [.error ⟨"a", 1, 10, 1, none, []⟩]) = some s ∧
    s.stream env "a" = some (t, some (1, items)) ∧
    List.Forall₂ (Shows env) (entries "a" (.error ⟨"b", 1, 5, 9, some ⟨"a", 7⟩, []⟩ :: [.error ⟨"a", 1, 10, 1, none, []⟩])) items :=
  C107_published_partial _ (.inr fun p h => by simp at h) env "a" 1 rfl

/-- A file that has no document. -/
example (s : State) (hs : run {} [.error ⟨"c", 1, 10, 1, none, []⟩] = some s) : (getAll s env List.reverse).2 = .err :=
  (C107_fails_iff _ env List.reverse (fun l => l.reverse_perm) s hs).2 ⟨"c", ⟨_, .inl (List.mem_singleton.2 rfl), rfl⟩, rfl⟩

end Demo

/-- **C107** fails after a file has been removed: once the compiler has reported something for it, the report of all diagnostics fails for
ever, also if the file has been invalidated since and nothing is held for it. -/
theorem C107_removed_violated : ∃ (hist : List Op) (s : State) (env : Env), run {} hist = some s ∧ entries "a" hist = [] ∧
    (entries "b" hist).length = 1 ∧ (env.uriOf "b").isSome = true ∧ (getAll s env id).2 = .err :=
  ⟨[.error ⟨"a", 1, 10, 1, none, []⟩, .error ⟨"b", 1, 20, 2, none, []⟩, .clear "a"], _,
    ⟨fun p => if p = "b" then some 2 else none, fun _ => none⟩, rfl, rfl, rfl, rfl, by decide +kernel⟩

/-- **C107** fails if two paths stand for one document: one of the lists is lost, and which one depends on the order of a map. -/
theorem C107_alias_violated : ∃ (hist : List Op) (s : State) (env : Env), run {} hist = some s ∧
    env.uriOf "a" = some 1 ∧ env.uriOf "b" = some 1 ∧ (entries "a" hist).length = 1 ∧ (entries "b" hist).length = 1 ∧
    (getAll s env id).2 = .ok [(1, [⟨20, .error, 2, [], none⟩])] ∧
    (getAll s env List.reverse).2 = .ok [(1, [⟨10, .error, 1, [], none⟩])] :=
  ⟨[.error ⟨"a", 1, 10, 1, none, []⟩, .error ⟨"b", 1, 20, 2, none, []⟩], _, ⟨fun _ => some 1, fun _ => none⟩, rfl, rfl, rfl, rfl, rfl,
    by decide +kernel, by decide +kernel⟩

end Verif.AllDiags
