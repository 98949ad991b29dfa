import Verif.Model.Workspaces
/-!
# Invariants of the workspace bookkeeping
-/
namespace Verif.Workspaces

/-- The bookkeeping invariant. -/
structure Inv (s : Server) : Prop where
  cachesNodup : (Assoc.keys s.caches).Nodup
  cancelsNodup : (Assoc.keys s.cancels).Nodup
  same : ∀ p, p ∈ Assoc.keys s.caches ↔ p ∈ Assoc.keys s.cancels
  own : ∀ p c, (p, c) ∈ s.caches → c.folder.path = p
  live : ∀ p t, (p, t) ∈ s.cancels → (t, p) ∈ s.started ∧ t ∉ s.cancelled
  ids : s.started.map (·.1) = List.range s.started.length
  once : s.cancelled.Nodup
  known : ∀ t ∈ s.cancelled, t < s.started.length
  noPanic : s.panicked = false

theorem Inv.init : Inv {} :=
  ⟨List.nodup_nil, List.nodup_nil, fun _ => Iff.rfl, by simp, by simp, rfl, List.nodup_nil, by simp, rfl⟩

theorem Inv.id_lt {s : Server} (h : Inv s) {t : Nat} {p : Str} (ht : (t, p) ∈ s.started) :
    t < s.started.length := by
  have : t ∈ s.started.map (·.1) := List.mem_map.2 ⟨_, ht, rfl⟩
  rwa [h.ids, List.mem_range] at this

theorem Inv.cacheInit {s : Server} (h : Inv s) (c : Cache) (p : Str) (hc : c.folder.path = p) :
    Inv (cacheInit s c p) where
  cachesNodup := Assoc.nodup_set h.cachesNodup _ _
  cancelsNodup := Assoc.nodup_set h.cancelsNodup _ _
  same q := by
    simp only [Workspaces.cacheInit]
    rw [Assoc.mem_keys_set, Assoc.mem_keys_set, h.same]
  own q d hq := by
    rcases Assoc.mem_set.1 hq with hq | ⟨hq, _⟩
    · cases hq; exact hc
    · exact h.own q d hq
  live q t hq := by
    simp only [Workspaces.cacheInit] at hq ⊢
    rcases Assoc.mem_set.1 hq with hq | ⟨hq, _⟩
    · cases hq
      refine ⟨by simp, fun hm => ?_⟩
      exact Nat.lt_irrefl _ (h.known _ hm)
    · exact ⟨List.mem_append_left _ (h.live q t hq).1, (h.live q t hq).2⟩
  ids := by
    simp only [Workspaces.cacheInit, List.map_append, List.length_append, List.map_cons, List.map_nil,
      List.length_cons, List.length_nil, Nat.zero_add, List.range_succ, h.ids]
  once := h.once
  known t ht := by
    simp only [Workspaces.cacheInit, List.length_append, List.length_cons, List.length_nil]
    exact Nat.lt_succ_of_lt (h.known t ht)
  noPanic := h.noPanic

/-- What removing a present folder does. -/
theorem cacheDestroy_present {s : Server} (h : Inv s) {p : Str} {t : Nat} (hp : (p, t) ∈ s.cancels) :
    cacheDestroy s p = { s with caches := Assoc.del s.caches p, cancels := Assoc.del s.cancels p,
                                cancelled := s.cancelled ++ [t] } := by
  unfold cacheDestroy
  cases hg : Assoc.get s.caches p with
  | none => exact absurd ((h.same p).2 (Assoc.mem_keys_of_mem hp)) (Assoc.get_none.1 hg)
  | some c => rw [Assoc.get_of_mem h.cancelsNodup hp]; rfl

theorem cacheDestroy_absent {s : Server} {p : Str} (hp : p ∉ Assoc.keys s.caches) :
    cacheDestroy s p = s := by
  unfold cacheDestroy
  rw [Assoc.get_none.2 hp]

theorem exists_cancel {s : Server} (h : Inv s) {p : Str} (hp : p ∈ Assoc.keys s.caches) :
    ∃ t, (p, t) ∈ s.cancels := by
  obtain ⟨⟨q, t⟩, ht, rfl⟩ := List.mem_map.1 ((h.same p).1 hp)
  exact ⟨t, ht⟩

theorem Inv.cacheDestroy {s : Server} (h : Inv s) (p : Str) : Inv (cacheDestroy s p) := by
  by_cases hp : p ∈ Assoc.keys s.caches
  · obtain ⟨t, ht⟩ := exists_cancel h hp
    rw [cacheDestroy_present h ht]
    exact {
      cachesNodup := Assoc.nodup_del h.cachesNodup _
      cancelsNodup := Assoc.nodup_del h.cancelsNodup _
      same := fun q => by simp only [Assoc.mem_keys_del, h.same]
      own := fun q d hq => h.own q d (Assoc.mem_del.1 hq).1
      live := fun q u hq => by
        obtain ⟨hq', hne⟩ := Assoc.mem_del.1 hq
        clear hq
        refine ⟨(h.live q u hq').1, fun hm => ?_⟩
        rcases List.mem_append.1 hm with hm | hm
        · exact (h.live q u hq').2 hm
        · rw [List.mem_singleton] at hm
          subst hm
          -- the two tasks have the same identity, hence the same folder
          have h1 := (h.live q u hq').1
          have h2 := (h.live p u ht).1
          have hn : (Assoc.keys s.started).Nodup := by
            have : Assoc.keys s.started = List.range s.started.length := h.ids
            rw [this]
            exact List.nodup_range
          exact hne (Assoc.unique hn h1 h2)
      ids := h.ids
      once := by
        simp only
        rw [List.nodup_append]
        refine ⟨h.once, by simp, fun a ha b hb => ?_⟩
        rw [List.mem_singleton] at hb
        subst hb
        exact fun hab => (h.live p b ht).2 (hab ▸ ha)
      known := fun u hu => by
        rcases List.mem_append.1 hu with hu | hu
        · exact h.known u hu
        · rw [List.mem_singleton] at hu
          subst hu
          exact h.id_lt (h.live p u ht).1
      noPanic := h.noPanic }
  · rw [cacheDestroy_absent hp]; exact h

theorem keys_cacheDestroy {s : Server} (h : Inv s) (p q : Str) :
    q ∈ Assoc.keys (cacheDestroy s p).caches ↔ q ∈ Assoc.keys s.caches ∧ q ≠ p := by
  by_cases hp : p ∈ Assoc.keys s.caches
  · obtain ⟨t, ht⟩ := exists_cancel h hp
    rw [cacheDestroy_present h ht]
    exact Assoc.mem_keys_del
  · rw [cacheDestroy_absent hp]
    exact ⟨fun hq => ⟨hq, fun e => hp (e ▸ hq)⟩, fun hq => hq.1⟩

theorem Inv.destroyList {s : Server} (h : Inv s) (ps : List Str) : Inv (ps.foldl Workspaces.cacheDestroy s) := by
  induction ps generalizing s with
  | nil => exact h
  | cons p ps ih => exact ih (h.cacheDestroy p)

theorem keys_destroyList {s : Server} (h : Inv s) (ps : List Str) (q : Str) :
    q ∈ Assoc.keys (ps.foldl Workspaces.cacheDestroy s).caches ↔ q ∈ Assoc.keys s.caches ∧ q ∉ ps := by
  induction ps generalizing s with
  | nil => simp
  | cons p ps ih =>
    rw [List.foldl_cons, ih (h.cacheDestroy p), keys_cacheDestroy h, List.mem_cons, not_or, and_assoc]

theorem caches_destroyAll {s : Server} (h : Inv s) : (destroyAll s).caches = [] := by
  have : Assoc.keys (destroyAll s).caches = [] := by
    apply List.eq_nil_iff_forall_not_mem.2
    intro q hq
    unfold destroyAll at hq
    rw [keys_destroyList h] at hq
    exact hq.2 hq.1
  exact List.map_eq_nil_iff.1 this

theorem clear_destroyAll {s : Server} (h : Inv s) : clearCaches (destroyAll s) = destroyAll s := by
  unfold clearCaches
  rw [← caches_destroyAll h]

theorem Inv.shutdown {s : Server} (h : Inv s) : Inv (shutdown s) := by
  unfold Workspaces.shutdown
  rw [clear_destroyAll h]
  exact h.destroyList _

theorem Inv.addFolder {env : Env} {s : Server} (h : Inv s) (f : Folder) : Inv (addFolder env s f) :=
  h.cacheInit _ _ rfl

theorem Inv.addFolders {env : Env} {s : Server} (h : Inv s) (fs : List Folder) :
    Inv (fs.foldl (Workspaces.addFolder env) s) := by
  induction fs generalizing s with
  | nil => exact h
  | cons f fs ih => exact ih (h.addFolder f)

theorem keys_addFolders (env : Env) (s : Server) (fs : List Folder) (q : Str) :
    q ∈ Assoc.keys (fs.foldl (addFolder env) s).caches ↔
      q ∈ Assoc.keys s.caches ∨ q ∈ fs.map (·.path) := by
  induction fs generalizing s with
  | nil => simp
  | cons f fs ih =>
    rw [List.foldl_cons, ih]
    have : (addFolder env s f).caches = Assoc.set s.caches f.path ⟨f, (env f).1, (env f).2⟩ := rfl
    rw [this, Assoc.mem_keys_set, List.map_cons, List.mem_cons]
    constructor
    · rintro ((h | h) | h)
      · exact .inr (.inl h)
      · exact .inl h
      · exact .inr (.inr h)
    · rintro (h | h | h)
      · exact .inl (.inr h)
      · exact .inl (.inl h)
      · exact .inr h

theorem Inv.apply {env : Env} {s : Server} (h : Inv s) (o : Op) : Inv (apply env s o) := by
  cases o with
  | change a r => exact (h.addFolders a).destroyList _
  | reindex =>
    have h1 : Inv (clearCaches (destroyAll s)) := h.shutdown
    exact h1.addFolders _
  | shutdown => exact h.shutdown

theorem Inv.run (env : Env) (ops : List Op) : Inv (run env ops) := by
  have : ∀ s, Inv s → Inv (ops.foldl (Workspaces.apply env) s) := by
    induction ops with
    | nil => exact fun s h => h
    | cons o ops ih => exact fun s h => ih _ (h.apply o)
  exact this _ Inv.init

/-- The folders stored in the caches have the keys as paths. -/
theorem folder_paths {s : Server} (h : Inv s) :
    (s.caches.map (fun e => e.2.folder)).map (·.path) = Assoc.keys s.caches := by
  unfold Assoc.keys
  rw [List.map_map]
  apply List.map_congr_left
  rintro ⟨p, c⟩ hm
  exact h.own p c hm

/-- Every running task is registered. -/
def Registered (s : Server) : Prop :=
  ∀ t p, (t, p) ∈ s.started → t ∉ s.cancelled → (p, t) ∈ s.cancels

theorem Registered.addFolder {env : Env} {s : Server} (h : Inv s) (hr : Registered s) (f : Folder)
    (hf : f.path ∉ Assoc.keys s.caches) : Registered (addFolder env s f) := by
  intro t p ht hc
  simp only [Workspaces.addFolder, cacheInit] at ht hc ⊢
  rw [Assoc.mem_set]
  rcases List.mem_append.1 ht with ht | ht
  · refine .inr ⟨hr t p ht hc, fun e => ?_⟩
    simp only at e
    rw [h.same, ← e] at hf
    exact hf (Assoc.mem_keys_of_mem (hr t p ht hc))
  · rw [List.mem_singleton] at ht
    cases ht
    exact .inl rfl

theorem Registered.addFolders {env : Env} {s : Server} (h : Inv s) (hr : Registered s)
    (fs : List Folder) (hd : (fs.map (·.path)).Nodup) (hf : ∀ p ∈ fs.map (·.path), p ∉ Assoc.keys s.caches) :
    Registered (fs.foldl (Workspaces.addFolder env) s) := by
  induction fs generalizing s with
  | nil => exact hr
  | cons f fs ih =>
    rw [List.map_cons, List.nodup_cons] at hd
    refine ih (h.addFolder f) (hr.addFolder h f (hf _ (by simp))) hd.2 ?_
    intro p hp hm
    have : (Workspaces.addFolder env s f).caches = Assoc.set s.caches f.path ⟨f, (env f).1, (env f).2⟩ := rfl
    rw [this, Assoc.mem_keys_set] at hm
    rcases hm with rfl | hm
    · exact hd.1 hp
    · exact hf p (by simp only [List.map_cons, List.mem_cons]; exact .inr hp) hm

theorem Registered.cacheDestroy {s : Server} (h : Inv s) (hr : Registered s) (p : Str) :
    Registered (cacheDestroy s p) := by
  by_cases hp : p ∈ Assoc.keys s.caches
  · obtain ⟨u, hu⟩ := exists_cancel h hp
    rw [cacheDestroy_present h hu]
    intro t q ht hc
    simp only [List.mem_append, List.mem_singleton, not_or] at hc
    rw [Assoc.mem_del]
    refine ⟨hr t q ht hc.1, fun e => hc.2 ?_⟩
    simp only at e
    subst e
    exact Assoc.unique h.cancelsNodup (hr t q ht hc.1) hu
  · rw [cacheDestroy_absent hp]; exact hr

theorem Registered.destroyList {s : Server} (h : Inv s) (hr : Registered s) (ps : List Str) :
    Registered (ps.foldl Workspaces.cacheDestroy s) := by
  induction ps generalizing s with
  | nil => exact hr
  | cons p ps ih => exact ih (h.cacheDestroy p) (hr.cacheDestroy h p)

/-- Running tasks that are not registered stay so for ever. -/
def Orphan (s : Server) (t : Nat) : Prop :=
  t < s.started.length ∧ t ∉ s.cancelled ∧ ∀ p, (p, t) ∉ s.cancels

theorem Orphan.addFolder {env : Env} {s : Server} {t : Nat} (ho : Orphan s t) (f : Folder) :
    Orphan (addFolder env s f) t := by
  refine ⟨?_, ho.2.1, fun p hp => ?_⟩
  · simp only [Workspaces.addFolder, cacheInit, List.length_append, List.length_cons, List.length_nil]
    exact Nat.lt_succ_of_lt ho.1
  · rcases Assoc.mem_set.1 hp with hp | ⟨hp, _⟩
    · cases hp
      exact Nat.lt_irrefl _ ho.1
    · exact ho.2.2 p hp

theorem Orphan.cacheDestroy {s : Server} {t : Nat} (h : Inv s) (ho : Orphan s t) (p : Str) :
    Orphan (cacheDestroy s p) t := by
  by_cases hp : p ∈ Assoc.keys s.caches
  · obtain ⟨u, hu⟩ := exists_cancel h hp
    rw [cacheDestroy_present h hu]
    refine ⟨ho.1, ?_, fun q hq => ho.2.2 q (Assoc.mem_del.1 hq).1⟩
    simp only [List.mem_append, List.mem_singleton, not_or]
    refine ⟨ho.2.1, ?_⟩
    rintro rfl
    exact ho.2.2 p hu
  · rw [cacheDestroy_absent hp]; exact ho

theorem Orphan.addFolders {env : Env} {s : Server} {t : Nat} (ho : Orphan s t) (fs : List Folder) :
    Orphan (fs.foldl (Workspaces.addFolder env) s) t := by
  induction fs generalizing s with
  | nil => exact ho
  | cons f fs ih => exact ih (ho.addFolder f)

theorem Orphan.destroyList {s : Server} {t : Nat} (h : Inv s) (ho : Orphan s t) (ps : List Str) :
    Orphan (ps.foldl Workspaces.cacheDestroy s) t := by
  induction ps generalizing s with
  | nil => exact ho
  | cons p ps ih => exact ih (h.cacheDestroy p) (ho.cacheDestroy h p)

theorem Orphan.apply {env : Env} {s : Server} {t : Nat} (h : Inv s) (ho : Orphan s t) (o : Op) :
    Orphan (apply env s o) t := by
  have hsd : Orphan (Workspaces.shutdown s) t := by
    unfold Workspaces.shutdown
    rw [clear_destroyAll h]
    exact ho.destroyList h _
  cases o with
  | change a r => exact Orphan.destroyList (h.addFolders a) (ho.addFolders a) _
  | reindex => exact Orphan.addFolders hsd _
  | shutdown => exact hsd

/-- The lock flag and the lock-independent operations. -/
theorem locked_addFolders (env : Env) (s : Server) (fs : List Folder) :
    (fs.foldl (addFolder env) s).locked = s.locked := by
  induction fs generalizing s with
  | nil => rfl
  | cons f fs ih => rw [List.foldl_cons, ih]; rfl

end Verif.Workspaces
