import Verif.Model.Transform
/-!
# Properties of the order and the names of compiled files: C50, C51
-/
namespace Verif.Transform

/-! ### C50 -/

/-- Specification: a file imports another one. -/
def Imports (rs : List Res) (p q : Nat) : Prop := ∃ r ∈ rs, r.path = p ∧ q ∈ r.imports

/-- Specification: a file imports another one, directly or not. -/
inductive Reaches (rs : List Res) : Nat → Nat → Prop where
  | step {p q : Nat} : Imports rs p q → Reaches rs p q
  | trans {p q r : Nat} : Imports rs p q → Reaches rs q r → Reaches rs p r

/-- Specification: no file imports itself, directly or not. -/
def Acyclic (rs : List Res) : Prop := ∀ p, ¬ Reaches rs p p

/-- Specification: all imported files are there. -/
def Closed (rs : List Res) : Prop := ∀ r ∈ rs, ∀ q ∈ r.imports, ∃ r' ∈ rs, r'.path = q

/-- Specification: no two files have the same path. -/
def Distinct (rs : List Res) : Prop := (rs.map Res.path).Nodup

/-- Specification: every file comes after all files that it imports. -/
def Ordered (out : List Res) : Prop := ∀ a r b, out = a ++ r :: b → ∀ q ∈ r.imports, ∃ r' ∈ a, r'.path = q

theorem index_some {rs : List Res} {p : Nat} {r : Res} (h : index rs p = some r) : r ∈ rs ∧ r.path = p := by
  unfold index at h
  have h1 := List.mem_of_find?_eq_some h
  have h2 := List.find?_some h
  exact ⟨List.mem_reverse.1 h1, by simpa using h2⟩

theorem path_inj {rs : List Res} (hd : Distinct rs) : ∀ a ∈ rs, ∀ b ∈ rs, a.path = b.path → a = b := by
  unfold Distinct at hd
  induction rs with
  | nil => intro a ha; cases ha
  | cons x rs ih =>
    rw [List.map_cons, List.nodup_cons] at hd
    intro a ha b hb h
    rcases List.mem_cons.1 ha with ha | ha <;> rcases List.mem_cons.1 hb with hb | hb
    · rw [ha, hb]
    · exact absurd (List.mem_map.2 ⟨b, hb, by rw [← h, ha]⟩) hd.1
    · exact absurd (List.mem_map.2 ⟨a, ha, by rw [h, hb]⟩) hd.1
    · exact ih hd.2 a ha b hb h

theorem index_mem {rs : List Res} (hd : Distinct rs) {r : Res} (h : r ∈ rs) : index rs r.path = some r := by
  cases hi : index rs r.path with
  | none =>
    unfold index at hi
    rw [List.find?_eq_none] at hi
    exact absurd (by simp) (hi r (List.mem_reverse.2 h))
  | some r' =>
    obtain ⟨h1, h2⟩ := index_some hi
    rw [path_inj hd r' h1 r h h2]

theorem lookups_ok {idx : Nat → Option Res} : ∀ {ps : List Nat} {ds : List Res}, lookups idx ps = .ok ds →
    (∀ p ∈ ps, ∃ d ∈ ds, idx p = some d) ∧ (∀ d ∈ ds, ∃ p ∈ ps, idx p = some d) := by
  intro ps
  induction ps with
  | nil =>
    intro ds h
    cases h
    exact ⟨(by intro p hp; cases hp), (by intro d hd; cases hd)⟩
  | cons p ps ih =>
    intro ds h
    unfold lookups at h
    split at h
    · cases h
    · rename_i r hr
      split at h
      · rename_i rs hrs
        cases h
        obtain ⟨h1, h2⟩ := ih hrs
        constructor
        · intro q hq
          rcases List.mem_cons.1 hq with rfl | hq
          · exact ⟨r, by simp, hr⟩
          · obtain ⟨d, hd, hd'⟩ := h1 q hq
            exact ⟨d, List.mem_cons_of_mem _ hd, hd'⟩
        · intro d hd
          rcases List.mem_cons.1 hd with rfl | hd
          · exact ⟨p, by simp, hr⟩
          · obtain ⟨q, hq, hq'⟩ := h2 d hd
            exact ⟨q, List.mem_cons_of_mem _ hq, hq'⟩
      · cases h

theorem lookups_err {idx : Nat → Option Res} {ps : List Nat} {e : Err} (h : lookups idx ps = .error e) :
    e = .panic ∧ ∃ p ∈ ps, idx p = none := by
  induction ps with
  | nil => cases h
  | cons p ps ih =>
    unfold lookups at h
    split at h
    · rename_i hn
      cases h
      exact ⟨rfl, p, by simp, hn⟩
    · split at h
      · cases h
      · rename_i e' he
        cases h
        obtain ⟨h1, q, hq, h2⟩ := ih he
        exact ⟨h1, q, List.mem_cons_of_mem _ hq, h2⟩

/-- The invariant of the sort; `stack` are the files whose imports are being visited. -/
structure Inv (rs : List Res) (stack : List Nat) (s : State) : Prop where
  seen : ∀ p, p ∈ s.seen ↔ p ∈ s.sorted.map Res.path ∨ p ∈ stack
  nodup : (s.sorted.map Res.path).Nodup
  fresh : ∀ p ∈ stack, p ∉ s.sorted.map Res.path
  sub : ∀ r ∈ s.sorted, r ∈ rs
  closed : ∀ r ∈ s.sorted, ∀ q ∈ r.imports, q ∈ rs.map Res.path

theorem topo_spec (rs : List Res) : ∀ (n : Nat) (todo : List Res) (stack : List Nat) (s s' : State),
    (∀ r ∈ todo, r ∈ rs) → Inv rs stack s → topo (index rs) n todo s = .ok s' →
    Inv rs stack s' ∧ (∃ new, s'.sorted = s.sorted ++ new) ∧ (∀ r ∈ todo, r.path ∈ s'.seen) ∧
    (Acyclic rs → (∀ p ∈ stack, ∀ r ∈ todo, Reaches rs p r.path) → Ordered s.sorted → Ordered s'.sorted) := by
  intro n
  induction n with
  | zero => intro todo stack s s' _ _ h; simp [topo] at h
  | succ n ihn =>
    intro todo
    induction todo with
    | nil =>
      intro stack s s' _ hi h
      simp only [topo] at h
      cases h
      exact ⟨hi, ⟨[], by simp⟩, (by intro r hr; cases hr), fun _ _ h => h⟩
    | cons r todo ih =>
      intro stack s s' hsub hi h
      have hr : r ∈ rs := hsub r (by simp)
      have hsub' : ∀ x ∈ todo, x ∈ rs := fun x hx => hsub x (List.mem_cons_of_mem _ hx)
      rw [topo] at h
      by_cases hs : r.path ∈ s.seen
      · rw [if_pos hs] at h
        obtain ⟨h1, ⟨new, h2⟩, h3, h4⟩ := ih stack s s' hsub' hi h
        refine ⟨h1, ⟨new, h2⟩, ?_, fun ha hp ho => h4 ha (fun p hp' x hx => hp p hp' x (List.mem_cons_of_mem _ hx)) ho⟩
        intro x hx
        rcases List.mem_cons.1 hx with rfl | hx
        · rw [h1.seen, h2, List.map_append, List.mem_append]
          rcases (hi.seen _).1 hs with hh | hh
          · exact .inl (.inl hh)
          · exact .inr hh
        · exact h3 x hx
      · rw [if_neg hs] at h
        cases hl : lookups (index rs) r.imports with
        | error e => rw [hl] at h; cases h
        | ok deps =>
          rw [hl] at h
          simp only at h
          obtain ⟨l1, l2⟩ := lookups_ok hl
          have hdeps : ∀ d ∈ deps, d ∈ rs ∧ d.path ∈ r.imports := by
            intro d hd'
            obtain ⟨p, hp, hp'⟩ := l2 d hd'
            obtain ⟨k1, k2⟩ := index_some hp'
            exact ⟨k1, by rw [k2]; exact hp⟩
          cases ht : topo (index rs) n deps { s with seen := r.path :: s.seen } with
          | error e => rw [ht] at h; cases h
          | ok s1 =>
            rw [ht] at h
            simp only at h
            have hnotin : r.path ∉ s.sorted.map Res.path := fun hh => hs ((hi.seen _).2 (.inl hh))
            have hns : r.path ∉ stack := fun hh => hs ((hi.seen _).2 (.inr hh))
            have hi0 : Inv rs (r.path :: stack) { s with seen := r.path :: s.seen } := by
              refine ⟨?_, hi.nodup, ?_, hi.sub, hi.closed⟩
              · intro p
                simp only [List.mem_cons, hi.seen]
                constructor
                · rintro (h | h | h)
                  · exact .inr (.inl h)
                  · exact .inl h
                  · exact .inr (.inr h)
                · rintro (h | h | h)
                  · exact .inr (.inl h)
                  · exact .inl h
                  · exact .inr (.inr h)
              · intro p hp
                rcases List.mem_cons.1 hp with rfl | hp
                · exact hnotin
                · exact hi.fresh p hp
            obtain ⟨j1, ⟨new1, j2⟩, j3, j4⟩ := ihn deps (r.path :: stack) _ s1 (fun d hd' => (hdeps d hd').1) hi0 ht
            have hi1 : Inv rs stack { s1 with sorted := s1.sorted ++ [r] } := by
              refine ⟨?_, ?_, ?_, ?_, ?_⟩
              · intro p
                simp only [j1.seen, List.map_append, List.mem_append, List.map_cons, List.map_nil, List.mem_cons]
                constructor
                · rintro (h | h | h)
                  · exact .inl (.inl h)
                  · exact .inl (.inr (.inl h))
                  · exact .inr h
                · rintro ((h | h | h) | h)
                  · exact .inl h
                  · exact .inr (.inl h)
                  · cases h
                  · exact .inr (.inr h)
              · simp only [List.map_append, List.map_cons, List.map_nil]
                rw [List.nodup_append]
                refine ⟨j1.nodup, by simp, ?_⟩
                intro a ha b hb hab
                rw [List.mem_singleton.1 hb] at hab
                exact j1.fresh r.path (by simp) (hab ▸ ha)
              · intro p hp
                simp only [List.map_append, List.mem_append, List.map_cons, List.map_nil, List.mem_singleton]
                rintro (h | h)
                · exact j1.fresh p (List.mem_cons_of_mem _ hp) h
                · exact hns (h ▸ hp)
              · intro x hx
                rcases List.mem_append.1 hx with hx | hx
                · exact j1.sub x hx
                · rw [List.mem_singleton.1 hx]; exact hr
              · intro x hx q hq
                rcases List.mem_append.1 hx with hx | hx
                · exact j1.closed x hx q hq
                · rw [List.mem_singleton.1 hx] at hq
                  obtain ⟨d, hd', hd''⟩ := l1 q hq
                  obtain ⟨k1, k2⟩ := index_some hd''
                  exact List.mem_map.2 ⟨d, k1, k2⟩
            obtain ⟨q1, ⟨new2, q2⟩, q3, q4⟩ := ih stack _ s' hsub' hi1 h
            refine ⟨q1, ⟨new1 ++ r :: new2, ?_⟩, ?_, ?_⟩
            · rw [q2]
              show s1.sorted ++ [r] ++ new2 = _
              rw [j2]
              simp
            · intro x hx
              rcases List.mem_cons.1 hx with rfl | hx
              · rw [q1.seen, q2]
                exact .inl (by simp)
              · exact q3 x hx
            · intro ha hp ho
              refine q4 ha (fun p hp' x hx => hp p hp' x (List.mem_cons_of_mem _ hx)) ?_
              have himp : ∀ d ∈ deps, Imports rs r.path d.path := fun d hd' => ⟨r, hr, rfl, (hdeps d hd').2⟩
              have hreach : ∀ p ∈ r.path :: stack, ∀ d ∈ deps, Reaches rs p d.path := by
                intro p hp' d hd'
                rcases List.mem_cons.1 hp' with rfl | hp'
                · exact .step (himp d hd')
                · have h1 := hp p hp' r (by simp)
                  have tr : ∀ {a b : Nat}, Reaches rs a b → ∀ {c}, Imports rs b c → Reaches rs a c := by
                    intro a b hab
                    induction hab with
                    | step h => intro c hc; exact .trans h (.step hc)
                    | trans h _ ih => intro c hc; exact .trans h (ih hc)
                  exact tr h1 (himp d hd')
              have ho1 := j4 ha hreach ho
              -- the new element
              intro a x b hab q hq
              rcases List.append_eq_append_iff.1 hab with ⟨c, hc1, hc2⟩ | ⟨c, hc1, hc2⟩
              · -- the new element is in the second part
                cases c with
                | nil =>
                  simp only [List.nil_append] at hc2
                  obtain ⟨rfl, rfl⟩ := List.cons.inj hc2
                  rw [List.append_nil] at hc1
                  rw [hc1]
                  obtain ⟨d, hd', hd''⟩ := l1 q hq
                  obtain ⟨k1, k2⟩ := index_some hd''
                  have hseen := j3 d hd'
                  rw [j1.seen] at hseen
                  rcases hseen with hh | hh
                  · obtain ⟨y, hy, hy'⟩ := List.mem_map.1 hh
                    exact ⟨y, hy, hy'.trans k2⟩
                  · exact absurd (hreach d.path hh d hd') (ha d.path)
                | cons y c =>
                  exfalso
                  have := congrArg List.length hc2
                  simp at this
              · cases c with
                | nil =>
                  simp only [List.nil_append] at hc2
                  obtain ⟨rfl, rfl⟩ := List.cons.inj hc2.symm
                  rw [List.append_nil] at hc1
                  rw [← hc1]
                  obtain ⟨d, hd', hd''⟩ := l1 q hq
                  obtain ⟨k1, k2⟩ := index_some hd''
                  have hseen := j3 d hd'
                  rw [j1.seen] at hseen
                  rcases hseen with hh | hh
                  · obtain ⟨y, hy, hy'⟩ := List.mem_map.1 hh
                    exact ⟨y, hy, hy'.trans k2⟩
                  · exact absurd (hreach d.path hh d hd') (ha d.path)
                | cons y c =>
                  obtain ⟨rfl, hc3⟩ := List.cons.inj hc2
                  exact ho1 a x c hc1 q hq

/-- The number of files that have not been seen. -/
def unseen (rs : List Res) (seen : List Nat) : Nat := (rs.filter fun r => decide (r.path ∉ seen)).length

theorem unseen_lt {rs : List Res} {r : Res} (hr : r ∈ rs) {seen : List Nat} (hs : r.path ∉ seen) :
    unseen rs (r.path :: seen) < unseen rs seen := by
  unfold unseen
  induction rs with
  | nil => cases hr
  | cons x rs ih =>
    have mono : ∀ l : List Res, (l.filter fun y => decide (y.path ∉ r.path :: seen)).length ≤
        (l.filter fun y => decide (y.path ∉ seen)).length := by
      intro l
      induction l with
      | nil => exact Nat.le_refl _
      | cons y l ih =>
        simp only [List.filter_cons]
        by_cases h1 : y.path ∉ r.path :: seen
        · have h2 : y.path ∉ seen := fun h => h1 (List.mem_cons_of_mem _ h)
          rw [if_pos (by simpa using h1), if_pos (by simpa using h2)]
          simpa using ih
        · rw [if_neg (by simpa using h1)]
          split
          · simp only [List.length_cons]; omega
          · exact ih
    rcases List.mem_cons.1 hr with rfl | hr
    · simp only [List.filter_cons]
      rw [if_neg (by simp), if_pos (by simpa using hs)]
      have := mono rs
      simp only [List.length_cons]
      omega
    · simp only [List.filter_cons]
      by_cases h1 : x.path ∉ r.path :: seen
      · have h2 : x.path ∉ seen := fun h => h1 (List.mem_cons_of_mem _ h)
        rw [if_pos (by simpa using h1), if_pos (by simpa using h2)]
        simpa using ih hr
      · rw [if_neg (by simpa using h1)]
        have := ih hr
        split
        · simp only [List.length_cons]; omega
        · exact this

theorem unseen_mono {rs : List Res} {a b : List Nat} (h : ∀ p ∈ a, p ∈ b) : unseen rs b ≤ unseen rs a := by
  unfold unseen
  induction rs with
  | nil => exact Nat.le_refl _
  | cons x rs ih =>
    simp only [List.filter_cons]
    by_cases h1 : x.path ∉ b
    · have h2 : x.path ∉ a := fun hh => h1 (h _ hh)
      rw [if_pos (by simpa using h1), if_pos (by simpa using h2)]
      simpa using ih
    · rw [if_neg (by simpa using h1)]
      split
      · simp only [List.length_cons]; omega
      · exact ih

theorem topo_mono (idx : Nat → Option Res) : ∀ (n : Nat) (todo : List Res) (s s' : State), topo idx n todo s = .ok s' →
    ∀ p ∈ s.seen, p ∈ s'.seen := by
  intro n
  induction n with
  | zero => intro todo s s' h; simp [topo] at h
  | succ n ihn =>
    intro todo
    induction todo with
    | nil => intro s s' h; simp only [topo] at h; cases h; exact fun p hp => hp
    | cons r todo ih =>
      intro s s' h p hp
      rw [topo] at h
      split at h
      · exact ih s s' h p hp
      · split at h
        · cases h
        · split at h
          · cases h
          · rename_i s1 hs1
            exact ih _ s' h p (ihn _ _ _ hs1 p (List.mem_cons_of_mem _ hp))

/-- With enough fuel, the only failure is a missing import of one of the files. -/
theorem topo_fuel (rs : List Res) : ∀ (n : Nat) (todo : List Res) (s : State) (e : Err), (∀ r ∈ todo, r ∈ rs) →
    unseen rs s.seen < n → topo (index rs) n todo s = .error e → e = .panic ∧ ¬ Closed rs := by
  intro n
  induction n with
  | zero => intro todo s e _ h; omega
  | succ n ihn =>
    intro todo
    induction todo with
    | nil => intro s e _ _ h; simp [topo] at h
    | cons r todo ih =>
      intro s e hsub hf h
      have hr : r ∈ rs := hsub r (by simp)
      have hsub' : ∀ x ∈ todo, x ∈ rs := fun x hx => hsub x (List.mem_cons_of_mem _ hx)
      rw [topo] at h
      by_cases hs : r.path ∈ s.seen
      · rw [if_pos hs] at h
        exact ih s e hsub' hf h
      · rw [if_neg hs] at h
        have hlt := unseen_lt hr hs
        cases hl : lookups (index rs) r.imports with
        | error e' =>
          rw [hl] at h
          cases h
          obtain ⟨h1, q, hq, h2⟩ := lookups_err hl
          refine ⟨h1, ?_⟩
          intro hc
          obtain ⟨r', hr', hp⟩ := hc r hr q hq
          unfold index at h2
          rw [List.find?_eq_none] at h2
          exact h2 r' (List.mem_reverse.2 hr') (by simpa using hp)
        | ok deps =>
          rw [hl] at h
          simp only at h
          have hdeps : ∀ d ∈ deps, d ∈ rs := by
            intro d hd
            obtain ⟨p, _, hp⟩ := (lookups_ok hl).2 d hd
            exact (index_some hp).1
          cases ht : topo (index rs) n deps { s with seen := r.path :: s.seen } with
          | error e' =>
            rw [ht] at h
            cases h
            exact ihn deps _ e hdeps (by show unseen rs (r.path :: s.seen) < n; omega) ht
          | ok s1 =>
            rw [ht] at h
            simp only at h
            refine ih _ e hsub' ?_ h
            have hm := topo_mono _ _ _ _ _ ht
            have : unseen rs s1.seen ≤ unseen rs (r.path :: s.seen) := unseen_mono hm
            show unseen rs s1.seen < n + 1
            omega

theorem inv_empty (rs : List Res) : Inv rs [] {} := by
  refine ⟨?_, by simp, ?_, ?_, ?_⟩
  · intro p; simp
  · intro p hp; cases hp
  · intro r hr; cases hr
  · intro r hr; cases hr

/-- **C50** (part): the sort always ends; it succeeds exactly if all imported files are there. -/
theorem C50_total (rs : List Res) (hd : Distinct rs) :
    (Closed rs → ∃ out, topologicalSort rs = .ok out) ∧ (¬ Closed rs → topologicalSort rs = .error .panic) := by
  have hfuel : unseen rs ({} : State).seen < rs.length + 1 := by
    unfold unseen
    have := List.length_filter_le (fun r : Res => decide (r.path ∉ ({} : State).seen)) rs
    omega
  unfold topologicalSort
  cases h : topo (index rs) (rs.length + 1) rs {} with
  | ok s =>
    refine ⟨fun _ => ⟨s.sorted, rfl⟩, fun hc => absurd ?_ hc⟩
    obtain ⟨h1, _, h3, _⟩ := topo_spec rs _ rs [] {} s (fun r hr => hr) (inv_empty rs) h
    intro r hr q hq
    have := h3 r hr
    rw [h1.seen] at this
    rcases this with hh | hh
    · obtain ⟨y, hy, hy'⟩ := List.mem_map.1 hh
      have hyr : y = r := path_inj hd y (h1.sub y hy) r hr hy'
      subst hyr
      obtain ⟨z, hz, hz'⟩ := List.mem_map.1 (h1.closed y hy q hq)
      exact ⟨z, hz, hz'⟩
    · cases hh
  | error e =>
    obtain ⟨h1, h2⟩ := topo_fuel rs _ rs {} e (fun r hr => hr) hfuel h
    exact ⟨fun hc => absurd hc h2, fun _ => by rw [h1]⟩

/-- **C50** (part): every file is delivered exactly once (also if there are import cycles). -/
theorem C50_once (rs : List Res) (hd : Distinct rs) (out : List Res) (h : topologicalSort rs = .ok out) :
    out.Nodup ∧ ∀ r, r ∈ out ↔ r ∈ rs := by
  unfold topologicalSort at h
  cases ht : topo (index rs) (rs.length + 1) rs {} with
  | error e => rw [ht] at h; cases h
  | ok s =>
    rw [ht] at h
    cases h
    obtain ⟨h1, _, h3, _⟩ := topo_spec rs _ rs [] {} s (fun r hr => hr) (inv_empty rs) ht
    constructor
    · have hmap : ∀ l : List Res, (l.map Res.path).Nodup → l.Nodup := by
        intro l
        induction l with
        | nil => intro _; exact List.nodup_nil
        | cons x l ih =>
          intro hh
          rw [List.map_cons, List.nodup_cons] at hh
          rw [List.nodup_cons]
          exact ⟨fun hx => hh.1 (List.mem_map.2 ⟨x, hx, rfl⟩), ih hh.2⟩
      exact hmap _ h1.nodup
    · intro r
      constructor
      · exact h1.sub r
      · intro hr
        have := h3 r hr
        rw [h1.seen] at this
        rcases this with hh | hh
        · obtain ⟨y, hy, hy'⟩ := List.mem_map.1 hh
          rw [path_inj hd y (h1.sub y hy) r hr hy'] at hy
          exact hy
        · cases hh

/-- **C50** (part): without import cycles, every file comes after all files that it imports. -/
theorem C50_order (rs : List Res) (ha : Acyclic rs) (out : List Res)
    (h : topologicalSort rs = .ok out) : Ordered out := by
  unfold topologicalSort at h
  cases ht : topo (index rs) (rs.length + 1) rs {} with
  | error e => rw [ht] at h; cases h
  | ok s =>
    rw [ht] at h
    cases h
    obtain ⟨_, _, _, h4⟩ := topo_spec rs _ rs [] {} s (fun r hr => hr) (inv_empty rs) ht
    refine h4 ha (by intro p hp; cases hp) ?_
    intro a r b hab
    exact absurd hab (by simp)

/-- **C50** (part): the files local to the workspace are delivered in the same order: each of them after the
local files that it imports. -/
theorem C50_local (rs : List Res) (hd : Distinct rs) (ha : Acyclic rs) (out : List Res)
    (h : topologicalSort rs = .ok out) (isLocal : Nat → Bool) :
    (∀ r, r ∈ localFiles isLocal out ↔ r ∈ rs ∧ isLocal r.path = true) ∧
    ∀ a r b, localFiles isLocal out = a ++ r :: b → ∀ q ∈ r.imports, isLocal q = true → ∃ r' ∈ a, r'.path = q := by
  constructor
  · intro r
    unfold localFiles
    rw [List.mem_filter, (C50_once rs hd out h).2 r]
  · have ho := C50_order rs ha out h
    unfold localFiles
    have key : ∀ (out a : List Res) (r : Res) (b : List Res), (out.filter fun r => isLocal r.path) = a ++ r :: b →
        ∃ a' b', out = a' ++ r :: b' ∧ a = a'.filter fun r => isLocal r.path := by
      intro out
      induction out with
      | nil => intro a r b h; exact absurd h (by simp)
      | cons x out ih =>
        intro a r b h
        rw [List.filter_cons] at h
        by_cases hx : isLocal x.path = true
        · rw [if_pos hx] at h
          cases a with
          | nil =>
            obtain ⟨rfl, _⟩ := List.cons.inj h
            exact ⟨[], out, rfl, rfl⟩
          | cons y a =>
            obtain ⟨rfl, h'⟩ := List.cons.inj h
            obtain ⟨a', b', h1, h2⟩ := ih a r b h'
            exact ⟨x :: a', b', by rw [h1]; rfl, by rw [List.filter_cons, if_pos hx, h2]⟩
        · rw [if_neg hx] at h
          obtain ⟨a', b', h1, h2⟩ := ih a r b h
          exact ⟨x :: a', b', by rw [h1]; rfl, by rw [List.filter_cons, if_neg hx, h2]⟩
    intro a r b hab q hq hloc
    obtain ⟨a', b', h1, h2⟩ := key out a r b hab
    obtain ⟨r', hr', hp⟩ := ho a' r b' h1 q hq
    exact ⟨r', by rw [h2, List.mem_filter]; exact ⟨hr', by rw [hp]; exact hloc⟩, hp⟩

/-- A diamond: 0 imports 1 and 2, which import 3. -/
def diamond : List Res := [⟨0, [1, 2]⟩, ⟨1, [3]⟩, ⟨2, [3]⟩, ⟨3, []⟩]

example : Distinct diamond := by unfold Distinct; decide
example : Closed diamond := by unfold Closed; decide
example : Acyclic diamond := by
  have hlt : ∀ p q, Imports diamond p q → p < q := by
    rintro p q ⟨r, hr, rfl, hq⟩
    revert hq q
    revert hr r
    decide
  have hlt' : ∀ p q, Reaches diamond p q → p < q := by
    intro p q h
    induction h with
    | step h => exact hlt _ _ h
    | trans h _ ih => exact Nat.lt_trans (hlt _ _ h) ih
  intro p hp
  exact Nat.lt_irrefl _ (hlt' _ _ hp)
example : topologicalSort diamond = .ok [⟨3, []⟩, ⟨1, [3]⟩, ⟨2, [3]⟩, ⟨0, [1, 2]⟩] := by
  simp [topologicalSort, diamond, topo, lookups, index]
example : topologicalSort [⟨0, [1]⟩] = .error .panic := by simp [topologicalSort, topo, lookups, index]
example : topologicalSort [⟨0, [1]⟩, ⟨1, [0]⟩] = .ok [⟨1, [0]⟩, ⟨0, [1]⟩] := by
  simp [topologicalSort, topo, lookups, index]

/-! ### C51 -/

/-- Specification: the original name of a file. -/
def originalName (m : Mapping) (n : Nat) : Nat := ((m.uri n).bind m.original).getD n

/-- Specification: a file with the original names everywhere. -/
def Restored (m : Mapping) (f f' : File) : Prop := f'.name = originalName m f.name ∧ f'.deps = f.deps.map (originalName m)

/-- Specification: the file was synthesized under another name, or it was not synthesized but has a URI. -/
def Renamed (m : Mapping) (f : File) : Prop := ∃ u, m.uri f.name = some u ∧ m.original u ≠ some f.name

theorem restoreDep_eq (m : Mapping) (n : Nat) : restoreDep m n = originalName m n := by
  unfold restoreDep originalName
  cases m.uri n with
  | none => rfl
  | some u =>
    simp only [Option.bind_some]
    cases m.original u with
    | none => rfl
    | some o =>
      simp only [Option.getD_some]
      split
      · rename_i h; exact h.symm
      · rfl

theorem restoreFile_renamed (m : Mapping) (f : File) (h : Renamed m f) : Restored m f (restoreFile m f) := by
  obtain ⟨u, h1, h2⟩ := h
  unfold restoreFile Restored
  have hmap : f.deps.map (restoreDep m) = f.deps.map (originalName m) := List.map_congr_left fun d _ => restoreDep_eq m d
  rw [h1]
  simp only
  cases ho : m.original u with
  | none =>
    simp only
    exact ⟨by simp [originalName, h1, ho], hmap⟩
  | some o =>
    simp only
    rw [if_neg (by intro he; rw [he] at ho; exact h2 ho)]
    exact ⟨by simp [originalName, h1, ho], hmap⟩

theorem restoreFile_other (m : Mapping) (f : File) (h : ¬ Renamed m f) : restoreFile m f = f := by
  unfold restoreFile
  cases hu : m.uri f.name with
  | none => rfl
  | some u =>
    simp only
    cases ho : m.original u with
    | none => exact absurd ⟨u, hu, by rw [ho]; simp⟩ h
    | some o =>
      simp only
      by_cases he : o = f.name
      · rw [if_pos he]
      · exact absurd ⟨u, hu, by rw [ho]; simpa using he⟩ h

theorem restore_get (m : Mapping) (ps : List Nat) : ∀ (heap : Nat → File) (q : Nat),
    (q ∉ ps → restore m heap ps q = heap q) := by
  induction ps with
  | nil => intro heap q _; rfl
  | cons p ps ih =>
    intro heap q hq
    unfold restore
    rw [ih _ q (fun h => hq (List.mem_cons_of_mem _ h))]
    rw [if_neg (fun h => hq (by rw [h]; simp))]

theorem restore_mem (m : Mapping) (ps : List Nat) (hn : ps.Nodup) : ∀ (heap : Nat → File) (q : Nat), q ∈ ps →
    restore m heap ps q = restoreFile m (heap q) := by
  induction ps with
  | nil => intro heap q hq; cases hq
  | cons p ps ih =>
    intro heap q hq
    rw [List.nodup_cons] at hn
    unfold restore
    rcases List.mem_cons.1 hq with rfl | hq
    · rw [restore_get m ps _ q hn.1, if_pos rfl]
    · rw [ih hn.2 _ q hq]
      have : q ≠ p := fun h => hn.1 (h ▸ hq)
      rw [if_neg this]

/-- **C51** (part): restoring the names of a list of different files gives every file with a URI, except
those synthesized under their original name, the original names everywhere, and changes no other file.
(Missing: files without a URI and files synthesized under their original name: their dependencies are not
restored, see `C51_violated`.) -/
theorem C51_partial (m : Mapping) (heap : Nat → File) (ps : List Nat) (hn : ps.Nodup) :
    (∀ p ∈ ps, Renamed m (heap p) → Restored m (heap p) (restore m heap ps p)) ∧
    (∀ p, p ∉ ps → restore m heap ps p = heap p) ∧
    (∀ p ∈ ps, ¬ Renamed m (heap p) → restore m heap ps p = heap p) := by
  refine ⟨?_, ?_, ?_⟩
  · intro p hp h
    rw [restore_mem m ps hn heap p hp]
    exact restoreFile_renamed m _ h
  · intro p hp
    exact restore_get m ps heap p hp
  · intro p hp h
    rw [restore_mem m ps hn heap p hp]
    exact restoreFile_other m _ h

/-- Specification: the original names are not themselves names of synthesized files. -/
def Final (m : Mapping) : Prop := ∀ n, originalName m (originalName m n) = originalName m n

theorem restoreFile_idem (m : Mapping) (h : Final m) (f : File) : restoreFile m (restoreFile m f) = restoreFile m f := by
  by_cases h1 : Renamed m f
  · have hr := restoreFile_renamed m f h1
    by_cases h2 : Renamed m (restoreFile m f)
    · obtain ⟨k1, k2⟩ := restoreFile_renamed m (restoreFile m f) h2
      rw [hr.1, h] at k1
      rw [hr.2, List.map_map] at k2
      have hm : f.deps.map (originalName m ∘ originalName m) = f.deps.map (originalName m) :=
        List.map_congr_left fun d _ => h d
      rw [hm] at k2
      have e1 := k1.trans hr.1.symm
      have e2 := k2.trans hr.2.symm
      cases hx : restoreFile m (restoreFile m f) with
      | mk n d =>
        cases hy : restoreFile m f with
        | mk n' d' =>
          rw [hx, hy] at e1 e2
          simp only at e1 e2
          rw [e1, e2]
    · exact restoreFile_other m _ h2
  · rw [restoreFile_other m f h1, restoreFile_other m f h1]

/-- **C51** (part): restoring the names of some of the files again, as `Compile` does with the files local to
the workspace, changes nothing, if no original name is the name of a synthesized file. -/
theorem C51_idempotent (m : Mapping) (h : Final m) (heap : Nat → File) (all locals : List Nat) (hn : all.Nodup)
    (hl : locals.Nodup) (hsub : ∀ p ∈ locals, p ∈ all) (p : Nat) :
    restoreBoth m heap all locals p = restore m heap all p := by
  unfold restoreBoth
  by_cases hp : p ∈ locals
  · rw [restore_mem m locals hl _ p hp, restore_mem m all hn _ p (hsub p hp), restoreFile_idem m h]
  · exact restore_get m locals _ p hp

/-- **C51** (violated): the dependencies of a file that is not in the mapping, and those of a file synthesized
under its original name, keep the names of synthesized files. -/
theorem C51_violated : ∃ (m : Mapping), Final m ∧
    (∃ f : File, m.uri f.name = none ∧ ¬ Restored m f (restore m (fun _ => f) [0] 0)) ∧
    (∃ f : File, (∃ u, m.uri f.name = some u ∧ m.original u = some f.name) ∧ ¬ Restored m f (restore m (fun _ => f) [0] 0)) := by
  refine ⟨⟨fun n => if n = 1 then some 1 else if n = 2 then some 2 else none,
      fun u => if u = 1 then some 10 else if u = 2 then some 2 else none⟩, ?_, ⟨⟨5, [1]⟩, rfl, ?_⟩, ⟨⟨2, [1]⟩, ⟨2, rfl, rfl⟩, ?_⟩⟩
  · intro n
    unfold originalName
    by_cases h1 : n = 1
    · subst h1; decide
    · by_cases h2 : n = 2
      · subst h2; decide
      · simp [h1, h2]
  · intro h
    have := h.2
    revert this
    decide
  · intro h
    have := h.2
    revert this
    decide

/-- **C51** (violated): without the condition on original names, the second call in `Compile` renames files
again. -/
theorem C51_idempotent_violated : ∃ (m : Mapping) (heap : Nat → File), restoreBoth m heap [0] [0] 0 ≠ restore m heap [0] 0 := by
  refine ⟨⟨fun n => some n, fun u => if u = 1 then some 2 else if u = 2 then some 3 else none⟩, fun _ => ⟨1, []⟩, ?_⟩
  decide

example : restore ⟨fun n => some n, fun u => if u = 1 then some 10 else none⟩ (fun p => ⟨p, [1, 2]⟩) [1, 2] 1 = ⟨10, [10, 2]⟩ := by decide
example : Renamed ⟨fun n => some n, fun u => if u = 1 then some 10 else none⟩ ⟨1, [1, 2]⟩ := ⟨1, rfl, by decide⟩
example : Final ⟨fun n => some n, fun u => if u = 1 then some 10 else none⟩ := by
  intro n
  unfold originalName
  by_cases h1 : n = 1
  · subst h1; decide
  · simp [h1]

end Verif.Transform
