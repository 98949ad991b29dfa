import Verif.Spec.FindTypes

namespace Verif.FindTypes

variable {c : Cache} {q : Query} {limit : Nat}
  {search : Bool → File → Str → List Decl → Bool → Prop}

theorem lib_ok (keep : Decl → Bool) : LibOk keep (lib keep) where
  total b f pre := ⟨_, b, rfl, rfl⟩
  sound b f pre ds failed h := by
    obtain ⟨_, rfl⟩ := h
    cases b with
    | true => simp
    | false => simp
  complete f pre ds failed h := by
    obtain ⟨h1, h2⟩ := h
    exact ⟨h1, by simpa using h2⟩

/-- What is known about the entries of one file. -/
def Entry (c : Cache) (q : Query) (search : Bool → File → Str → List Decl → Bool → Prop)
    (next : Nat) (cancelled : Bool) (i : Nat) (f : File) (t : Task) (ds : List Decl) (p : Str) :
    Prop :=
  if next ≤ i then t = .idle ∧ ds = [] ∧ p = []
  else
    match c.effective f with
    | none => t = .idle ∧ ds = [] ∧ p = []
    | some g =>
      p = g.path ∧
      match q.target g with
      | none => t = .idle ∧ ds = []
      | some pre =>
        (t = .running ∧ ds = []) ∨
          (t = .ended ∧ ∃ b failed, search b g pre ds failed ∧
            (cancelled = false → b = false))

theorem Entry.mono {next : Nat} {cancelled b : Bool} {i : Nat} {f : File} {t : Task}
    {ds : List Decl} {p : Str} (h : Entry c q search next cancelled i f t ds p)
    (hb : b = false → cancelled = false) : Entry c q search next b i f t ds p := by
  unfold Entry at *
  split at h
  · rename_i hn; rw [if_pos hn]; exact h
  · rename_i hn
    rw [if_neg hn]
    split at h
    · exact h
    · rename_i g he
      refine ⟨h.1, ?_⟩
      have h2 := h.2
      revert h2
      cases q.target g with
      | none => exact id
      | some pre =>
        rintro (h | ⟨h1, b', failed, h2, h3⟩)
        · exact .inl h
        · exact .inr ⟨h1, b', failed, h2, fun e => h3 (hb e)⟩

/-- The invariant of the search. -/
structure Inv (c : Cache) (q : Query) (limit : Nat)
    (search : Bool → File → Str → List Decl → Bool → Prop) (s : State) : Prop where
  lt : s.tasks.length = c.results.length
  ls : s.slots.length = c.results.length
  lp : s.paths.length = c.results.length
  ln : s.next ≤ c.results.length
  lim : s.running ≤ limit
  fin : s.returned = true → s.next = c.results.length ∧ s.running = 0
  ent : ∀ i f t ds p, c.results[i]? = some f → s.tasks[i]? = some t → s.slots[i]? = some ds →
    s.paths[i]? = some p → Entry c q search s.next s.cancelled i f t ds p

theorem count_replicate_idle (n : Nat) : (List.replicate n Task.idle).count .running = 0 := by
  rw [List.count_eq_zero]
  intro h
  have := List.eq_of_mem_replicate h
  cases this

theorem map_const {α β : Type} (l : List α) (b : β) : l.map (fun _ => b) = List.replicate l.length b := by
  induction l with
  | nil => rfl
  | cons a t ih => simp [List.replicate_succ, ih]

theorem Inv.init : Inv c q limit search (State.init c) := by
  refine ⟨by simp [State.init], by simp [State.init], by simp [State.init], by simp [State.init], ?_, ?_, ?_⟩
  · simp only [State.init, State.running, map_const]
    rw [count_replicate_idle]; omega
  · intro h; simp [State.init] at h
  · intro i f t ds p hf ht hs hp
    unfold Entry
    have hi : (State.init c).next ≤ i := Nat.zero_le _
    rw [if_pos hi]
    simp only [State.init, List.getElem?_map, hf, Option.map_some, Option.some.injEq] at ht hs hp
    exact ⟨ht.symm, hs.symm, hp.symm⟩

theorem count_set (l : List Task) (i : Nat) (a b : Task) (h : l[i]? = some a) :
    (l.set i b).count .running + (if a = .running then 1 else 0) =
      l.count .running + (if b = .running then 1 else 0) := by
  induction l generalizing i with
  | nil => simp at h
  | cons x t ih =>
    cases i with
    | zero =>
      simp only [List.getElem?_cons_zero, Option.some.injEq] at h
      subst h
      simp only [List.set_cons_zero, List.count_cons, beq_iff_eq]
      omega
    | succ i =>
      simp only [List.getElem?_cons_succ] at h
      have := ih i h
      simp only [List.set_cons_succ, List.count_cons]
      omega

theorem getElem?_lt {α : Type} {l : List α} {i : Nat} {a : α} (h : l[i]? = some a) :
    i < l.length := by
  rw [List.getElem?_eq_some_iff] at h
  exact h.1

theorem get_set_ne {α : Type} {l : List α} {i j : Nat} {a : α} (h : i ≠ j) :
    (l.set i a)[j]? = l[j]? := by
  rw [List.getElem?_set_ne h]

theorem get_set_eq {α : Type} {l : List α} {i : Nat} {a b : α} (h : (l.set i a)[i]? = some b) :
    b = a := by
  rw [List.getElem?_set] at h
  simp at h
  exact h.2.symm

/-- Entries of files other than the next one do not notice that the loop advances. -/
theorem Entry.advance {n : Nat} {cancelled : Bool} {i : Nat} {f : File} {t : Task}
    {ds : List Decl} {p : Str} (h : Entry c q search n cancelled i f t ds p) (hi : i ≠ n) :
    Entry c q search (n + 1) cancelled i f t ds p := by
  unfold Entry at *
  by_cases hn : n ≤ i
  · rw [if_pos hn] at h
    rw [if_pos (by omega)]; exact h
  · rw [if_neg hn] at h
    rw [if_neg (by omega)]; exact h

theorem task_at (hi : Inv c q limit search s) (i : Nat) (h : i < c.results.length) :
    ∃ t ds p, s.tasks[i]? = some t ∧ s.slots[i]? = some ds ∧ s.paths[i]? = some p := by
  refine ⟨s.tasks[i]'(by rw [hi.lt]; exact h), s.slots[i]'(by rw [hi.ls]; exact h),
    s.paths[i]'(by rw [hi.lp]; exact h), ?_, ?_, ?_⟩ <;> simp

theorem not_returned {s : State} (hi : Inv c q limit search s) {f : File}
    (hf : c.results[s.next]? = some f) : s.returned = false := by
  cases hr : s.returned with
  | false => rfl
  | true =>
    have := (hi.fin hr).1
    rw [this] at hf
    simp at hf

theorem Inv.step {s t : State} (hi : Inv c q limit search s)
    (h : Step c q limit search s t) : Inv c q limit search t := by
  cases h with
  | skip f hf he =>
    have hlt := getElem?_lt hf
    refine ⟨hi.lt, hi.ls, hi.lp, ?_, hi.lim, ?_, ?_⟩
    · show s.next + 1 ≤ _; omega
    · intro hr
      have : s.returned = true := hr
      rw [not_returned hi hf] at this; cases this
    · intro i f' t ds p hf' ht hs hp
      have h0 := hi.ent i f' t ds p hf' ht hs hp
      by_cases e : i = s.next
      · subst e
        rw [hf] at hf'; cases hf'
        unfold Entry at h0
        rw [if_pos (Nat.le_refl _)] at h0
        show Entry c q search (s.next + 1) s.cancelled s.next f t ds p
        unfold Entry
        rw [if_neg (by omega), he]
        exact h0
      · exact h0.advance e
  | skipFile f g hf he ht' =>
    have hlt := getElem?_lt hf
    refine ⟨hi.lt, hi.ls, by simp [hi.lp], ?_, hi.lim, ?_, ?_⟩
    · show s.next + 1 ≤ _; omega
    · intro hr
      have : s.returned = true := hr
      rw [not_returned hi hf] at this; cases this
    · intro i f' t ds p hf' ht hs hp
      by_cases e : i = s.next
      · subst e
        rw [hf] at hf'; cases hf'
        obtain ⟨t0, ds0, p0, h1, h2, h3⟩ := task_at hi s.next hlt
        have h0 := hi.ent s.next f t0 ds0 p0 hf h1 h2 h3
        have ht : s.tasks[s.next]? = some t := ht
        have hs : s.slots[s.next]? = some ds := hs
        rw [h1] at ht; rw [h2] at hs
        cases ht; cases hs
        unfold Entry at h0
        rw [if_pos (Nat.le_refl _)] at h0
        show Entry c q search (s.next + 1) s.cancelled s.next f t ds p
        have hp := get_set_eq hp
        unfold Entry
        rw [if_neg (by omega), he]
        simp only [ht']
        exact ⟨hp, h0.1, h0.2.1⟩
      · have hp : (s.paths.set s.next g.path)[i]? = some p := hp
        rw [get_set_ne (Ne.symm e)] at hp
        exact (hi.ent i f' t ds p hf' ht hs hp).advance e
  | start f g pre hf he ht' hl =>
    have hlt := getElem?_lt hf
    obtain ⟨t0, ds0, p0, h1, h2, h3⟩ := task_at hi s.next hlt
    have h0 := hi.ent s.next f t0 ds0 p0 hf h1 h2 h3
    unfold Entry at h0
    rw [if_pos (Nat.le_refl _)] at h0
    have hc := count_set s.tasks s.next t0 .running h1
    refine ⟨by simp [hi.lt], hi.ls, by simp [hi.lp], ?_, ?_, ?_, ?_⟩
    · show s.next + 1 ≤ _; omega
    · show (s.tasks.set s.next Task.running).count .running ≤ limit
      have hl : s.tasks.count .running < limit := hl
      rw [h0.1] at hc
      simp at hc
      omega
    · intro hr
      have : s.returned = true := hr
      rw [not_returned hi hf] at this; cases this
    · intro i f' t ds p hf' ht hs hp
      by_cases e : i = s.next
      · subst e
        rw [hf] at hf'; cases hf'
        have hs : s.slots[s.next]? = some ds := hs
        have hds : ds = ds0 := by rw [h2] at hs; exact (Option.some.inj hs).symm
        subst hds
        show Entry c q search (s.next + 1) s.cancelled s.next f t ds p
        have hp := get_set_eq hp
        have ht := get_set_eq ht
        unfold Entry
        rw [if_neg (by omega), he]
        simp only [ht']
        exact ⟨hp, .inl ⟨ht, h0.2.1⟩⟩
      · have hp : (s.paths.set s.next g.path)[i]? = some p := hp
        have ht : (s.tasks.set s.next Task.running)[i]? = some t := ht
        rw [get_set_ne (Ne.symm e)] at hp ht
        exact (hi.ent i f' t ds p hf' ht hs hp).advance e
  | finish i f g pre ds failed hti hf he ht' hsr =>
    have hlt := getElem?_lt hf
    have hc := count_set s.tasks i .running .ended hti
    simp at hc
    have hcanc : ∀ b : Bool, (b || failed) = false → b = false := by intro b; cases b <;> simp
    refine ⟨by simp [hi.lt], by simp [hi.ls], hi.lp, hi.ln, ?_, ?_, ?_⟩
    · show (s.tasks.set i Task.ended).count .running ≤ limit
      have := hi.lim
      have : s.tasks.count .running ≤ limit := this
      omega
    · intro hr
      have h1 := (hi.fin hr).2
      have : s.tasks.count .running = 0 := h1
      omega
    · intro j f' t ds' p hf' ht hs hp
      show Entry c q search s.next (s.cancelled || failed) j f' t ds' p
      by_cases e : j = i
      · subst e
        rw [hf] at hf'; cases hf'
        obtain ⟨t0, ds0, p0, h1, h2, h3⟩ := task_at hi j hlt
        rw [hti] at h1; cases h1
        have hp : s.paths[j]? = some p := hp
        rw [hp] at h3; cases h3
        have h0 := hi.ent j f .running ds0 p hf hti h2 hp
        have htt : t = .ended := get_set_eq ht
        have hs : ds' = ds := get_set_eq hs
        subst hs
        unfold Entry at *
        split at h0
        · cases h0.1
        · rename_i hn
          rw [if_neg hn]
          rw [he] at h0 ⊢
          simp only [ht'] at h0 ⊢
          exact ⟨h0.1, .inr ⟨htt, s.cancelled, failed, hsr, hcanc _⟩⟩
      · have ht : (s.tasks.set i Task.ended)[j]? = some t := ht
        have hs : (s.slots.set i ds)[j]? = some ds' := hs
        rw [get_set_ne (Ne.symm e)] at ht hs
        exact (hi.ent j f' t ds' p hf' ht hs hp).mono (hcanc _)
  | cancel h =>
    refine ⟨hi.lt, hi.ls, hi.lp, hi.ln, hi.lim, hi.fin, ?_⟩
    intro j f' t ds' p hf' ht hs hp
    exact (hi.ent j f' t ds' p hf' ht hs hp).mono (by intro h; cases h)
  | wait hn hr hw =>
    refine ⟨hi.lt, hi.ls, hi.lp, hi.ln, hi.lim, ?_, hi.ent⟩
    intro _
    refine ⟨?_, hr⟩
    have := List.getElem?_eq_none_iff.mp hn
    have := hi.ln
    show s.next = _
    omega

theorem Inv.steps {n : Nat} {s t : State} (h : Steps c q limit search n s t)
    (hi : Inv c q limit search s) : Inv c q limit search t := by
  induction h with
  | refl => exact hi
  | step _ h ih => exact (ih hi).step h

/-- Decreases with every step. -/
def State.measure (c : Cache) (s : State) : Nat :=
  2 * (c.results.length - s.next) + s.running + (if s.cancelled then 0 else 1) +
    (if s.returned then 0 else 1)

theorem measure_step {s t : State} (hi : Inv c q limit search s)
    (h : Step c q limit search s t) : t.measure c + 1 ≤ s.measure c := by
  cases h with
  | skip f hf he =>
    have := getElem?_lt hf
    simp only [State.measure, State.running]; omega
  | skipFile f g hf he ht' =>
    have := getElem?_lt hf
    simp only [State.measure, State.running]; omega
  | start f g pre hf he ht' hl =>
    have hlt := getElem?_lt hf
    obtain ⟨t0, ds0, p0, h1, h2, h3⟩ := task_at hi s.next hlt
    have hc := count_set s.tasks s.next t0 .running h1
    simp only [State.measure, State.running]
    simp at hc
    split at hc <;> omega
  | finish i f g pre ds failed hti hf he ht' hsr =>
    have hc := count_set s.tasks i .running .ended hti
    simp at hc
    simp only [State.measure, State.running]
    cases s.cancelled <;> cases failed <;> simp <;> omega
  | cancel h => simp [State.measure, State.running, h]; omega
  | wait hn hr hw => simp [State.measure, State.running, hw]

/-- The state at the end of the search, one entry per file. -/
theorem final_entry {s : State} (hi : Inv c q limit search s) (hr : s.returned = true)
    (i : Nat) (f : File) (hf : c.results[i]? = some f) :
    ∃ ds p, s.slots[i]? = some ds ∧ s.paths[i]? = some p ∧
      match c.effective f with
      | none => ds = [] ∧ p = []
      | some g =>
        p = g.path ∧
        match q.target g with
        | none => ds = []
        | some pre => ∃ b failed, search b g pre ds failed ∧ (s.cancelled = false → b = false) := by
  have hlt := getElem?_lt hf
  obtain ⟨t, ds, p, h1, h2, h3⟩ := task_at hi i hlt
  refine ⟨ds, p, h2, h3, ?_⟩
  have h0 := hi.ent i f t ds p hf h1 h2 h3
  obtain ⟨hn, hrun⟩ := hi.fin hr
  have hnr : t ≠ .running := by
    intro e
    subst e
    have : s.tasks.count .running = 0 := hrun
    rw [List.count_eq_zero] at this
    exact this (List.mem_of_getElem? h1)
  unfold Entry at h0
  rw [if_neg (by omega)] at h0
  revert h0
  cases c.effective f with
  | none => exact fun h => h.2
  | some g =>
    simp only
    cases q.target g with
    | none => exact fun h => ⟨h.1, h.2.2⟩
    | some pre =>
      rintro ⟨h1, h2 | h2⟩
      · exact absurd h2.1 hnr
      · exact ⟨h1, h2.2⟩

theorem foldl_append {α : Type} (l : List (List α)) (acc : List α) :
    l.foldl (fun acc item => acc ++ item) acc = acc ++ l.flatten := by
  induction l generalizing acc with
  | nil => simp
  | cons x t ih => rw [List.foldl_cons, ih]; simp

theorem foldl_length {α : Type} (l : List (List α)) (n : Nat) :
    l.foldl (fun n item => n + item.length) n = n + l.flatten.length := by
  induction l generalizing n with
  | nil => simp
  | cons x t ih => rw [List.foldl_cons, ih]; simp; omega

theorem all_eq (s : State) : s.found.all = s.slots.flatten := by
  unfold Found.all State.found
  rw [foldl_append]; simp

/-- What the search in one file returns if nothing is cancelled. -/
def want (c : Cache) (q : Query) (keep : Decl → Bool) (f : File) : List Decl :=
  match c.effective f with
  | none => []
  | some g =>
    match q.target g with
    | none => []
    | some pre => g.withPrefix keep pre

theorem slots_eq {keep : Decl → Bool} (hl : LibOk keep search) {s : State}
    (hi : Inv c q limit search s) (hr : s.returned = true) (hc : s.cancelled = false) :
    s.slots = c.results.map (want c q keep) := by
  apply List.ext_getElem?
  intro i
  rw [List.getElem?_map]
  cases hf : c.results[i]? with
  | none =>
    have := List.getElem?_eq_none_iff.mp hf
    rw [← hi.ls] at this
    simpa using this
  | some f =>
    obtain ⟨ds, p, h1, _, h⟩ := final_entry hi hr i f hf
    rw [h1]
    simp only [Option.map_some, Option.some.injEq, want]
    revert h
    cases c.effective f with
    | none => exact fun h => h.1
    | some g =>
      simp only
      cases q.target g with
      | none => exact fun h => h.2
      | some pre =>
        rintro ⟨_, b, failed, hs, hb⟩
        rw [hb hc] at hs
        exact (hl.complete _ _ _ _ hs).2

theorem all_flatMap {keep : Decl → Bool} (hl : LibOk keep search) {s : State}
    (hi : Inv c q limit search s) (hr : s.returned = true) (hc : s.cancelled = false) :
    s.found.all = c.files.flatMap (fun g =>
      match q.target g with
      | none => []
      | some pre => g.withPrefix keep pre) := by
  rw [all_eq, slots_eq hl hi hr hc]
  unfold Cache.files
  generalize c.results = l
  induction l with
  | nil => rfl
  | cons f t ih =>
    rw [List.map_cons, List.flatten_cons, ih, List.filterMap_cons]
    unfold want Cache.effective
    cases hp : f.placeholder with
    | false => simp
    | true =>
      simp only [if_true]
      cases c.partials f.path with
      | none => simp
      | some g => simp

theorem range_aux (ps : List Str) (ss : List (List Decl)) (k : Nat)
    (h : ps.length + k = ss.length) :
    (ps.zipIdx k).mapM (fun x => (ss[x.2]?).map (fun ds => (x.1, ds))) =
      some (ps.zip (ss.drop k)) := by
  induction ps generalizing k with
  | nil => rfl
  | cons p t ih =>
    have hk : k < ss.length := by simp at h; omega
    rw [List.zipIdx_cons, List.mapM_cons, ih (k + 1) (by simp at h; omega)]
    rw [List.getElem?_eq_getElem hk, List.drop_eq_getElem_cons hk]
    rfl

theorem range_zip (s : State) (h : s.paths.length = s.slots.length) :
    s.found.range = some (s.paths.zip s.slots) := by
  unfold Found.range State.found
  simpa using range_aux s.paths s.slots 0 (by omega)

theorem target_none (q : Query) (f : File) (h : f.pkg = []) : q.target f = none := by
  unfold Query.target; rw [if_pos h]

theorem target_unqualified (f : File) (pre : Str) (h : f.pkg ≠ []) :
    (Query.unqualified pre).target f = some (f.pkg ++ '.' :: pre) := by
  unfold Query.target Completion.append; rw [if_neg h]; simp only []; rw [if_neg h]

theorem target_qualified (f : File) (pre : Str) (h : f.pkg ≠ []) (hd : pre.head? ≠ some '.') :
    (Query.qualified pre).target f = some pre := by
  unfold Query.target
  rw [if_neg h]
  simp only []
  split
  · simp at hd
  · rfl

theorem target_dot (f : File) (pre : Str) (h : f.pkg ≠ []) :
    (Query.qualified ('.' :: pre)).target f = if pre <+: f.pkg then some pre else none := by
  unfold Query.target
  rw [if_neg h]
  simp only []
  by_cases hq : pre.isPrefixOf f.pkg = true
  · rw [if_pos hq, if_pos (List.isPrefixOf_iff_prefix.mp hq)]
  · rw [if_neg hq, if_neg (fun e => hq (List.isPrefixOf_iff_prefix.mpr e))]

theorem isType_iff (d : Decl) :
    isType d = true ↔ (d.kind = .enum ∨ ∃ e, d.kind = .message false e) := by
  unfold isType
  cases d.kind with
  | message m e => cases m <;> simp
  | enum => simp
  | field => simp
  | other => simp

theorem isExtendable_iff (d : Decl) : isExtendable d = true ↔ d.kind = .message false true := by
  unfold isExtendable
  cases d.kind with
  | message m e => cases m <;> cases e <;> simp
  | enum => simp
  | field => simp
  | other => simp

end Verif.FindTypes
