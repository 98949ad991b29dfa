import Verif.Lemmas.Workspaces
/-!
# Properties of the workspace folders: C27, C55, C56
-/
namespace Verif.Workspaces

/-! ## C56: background tasks -/

/-- Specification: the folders present after a sequence of changes, as a list of paths. In one event
the added folders are taken in first and the removed ones out afterwards. -/
def present : List Str → List Op → List Str
  | ps, [] => ps
  | ps, .change a r :: ops =>
    present ((ps ++ a.map (·.path)).filter (fun p => decide (p ∉ r.map (·.path)))) ops
  | ps, .reindex :: ops => present ps ops
  | _, .shutdown :: ops => present [] ops

/-- Specification: no folder is added while it is present. -/
def NoReadd : List Str → List Op → Prop
  | _, [] => True
  | ps, .change a r :: ops =>
    (a.map (·.path)).Nodup ∧ (∀ p ∈ a.map (·.path), p ∉ ps) ∧
    NoReadd ((ps ++ a.map (·.path)).filter (fun p => decide (p ∉ r.map (·.path)))) ops
  | ps, .reindex :: ops => NoReadd ps ops
  | _, .shutdown :: ops => NoReadd [] ops

/-- The running tasks of a folder: started and not cancelled. -/
def running (s : Server) (p : Str) : List Nat :=
  (s.started.filter (fun e => decide (e.2 = p ∧ e.1 ∉ s.cancelled))).map (·.1)

theorem keys_apply {env : Env} {s : Server} (h : Inv s) (ps : List Str)
    (hp : ∀ q, q ∈ Assoc.keys s.caches ↔ q ∈ ps) (o : Op) (q : Str) :
    q ∈ Assoc.keys (apply env s o).caches ↔ q ∈ present ps [o] := by
  cases o with
  | change a r =>
    simp only [apply, changeFolders, present]
    rw [keys_destroyList (h.addFolders a), keys_addFolders, hp, List.mem_filter, List.mem_append,
      decide_eq_true_eq]
  | reindex =>
    simp only [apply, reindex, present]
    rw [keys_addFolders, folder_paths h, clear_destroyAll h, caches_destroyAll h, hp]
    simp [Assoc.keys]
  | shutdown =>
    simp only [apply, shutdown, present]
    rw [clear_destroyAll h, caches_destroyAll h]
    simp [Assoc.keys]

theorem present_cons (ps : List Str) (o : Op) (ops : List Op) :
    present ps (o :: ops) = present (present ps [o]) ops := by
  cases o <;> rfl

theorem NoReadd_cons {ps : List Str} {o : Op} {ops : List Op} (h : NoReadd ps (o :: ops)) :
    NoReadd (present ps [o]) ops := by
  cases o with
  | change a r => exact h.2.2
  | reindex => exact h
  | shutdown => exact h

theorem keys_foldl (env : Env) (ops : List Op) (s : Server) (h : Inv s) (ps : List Str)
    (hp : ∀ q, q ∈ Assoc.keys s.caches ↔ q ∈ ps) (q : Str) :
    q ∈ Assoc.keys (ops.foldl (apply env) s).caches ↔ q ∈ present ps ops := by
  induction ops generalizing s ps with
  | nil => exact hp q
  | cons o ops ih =>
    rw [List.foldl_cons, present_cons]
    exact ih _ (h.apply o) _ (fun q => keys_apply h ps hp o q)

theorem registered_foldl (env : Env) (ops : List Op) (s : Server) (h : Inv s) (hr : Registered s)
    (ps : List Str) (hp : ∀ q, q ∈ Assoc.keys s.caches ↔ q ∈ ps) (hn : NoReadd ps ops) :
    Registered (ops.foldl (apply env) s) := by
  induction ops generalizing s ps with
  | nil => exact hr
  | cons o ops ih =>
    rw [List.foldl_cons]
    refine ih _ (h.apply o) ?_ _ (fun q => keys_apply h ps hp o q) (NoReadd_cons hn)
    have hsd : Registered (shutdown s) := by
      unfold shutdown
      rw [clear_destroyAll h]
      exact hr.destroyList h _
    cases o with
    | change a r =>
      refine Registered.destroyList (h.addFolders a) (hr.addFolders h a hn.1 ?_) _
      intro p hpa
      rw [hp]
      exact hn.2.1 p hpa
    | reindex =>
      refine Registered.addFolders h.shutdown hsd _ ?_ ?_
      · rw [folder_paths h]; exact h.cachesNodup
      · intro p _ hk
        unfold shutdown at hk
        rw [clear_destroyAll h, caches_destroyAll h] at hk
        cases hk
    | shutdown => exact hsd

/-- **C56** (part): the server keeps a cache for exactly the folders that are present, after every
sequence of changes. -/
theorem C56_present (env : Env) (ops : List Op) (p : Str) :
    p ∈ Assoc.keys (run env ops).caches ↔ p ∈ present [] ops :=
  keys_foldl env ops {} Inv.init [] (fun _ => Iff.rfl) p

/-- **C56** (part): after every sequence of changes each task was cancelled at most once, only
started tasks were cancelled, and no nil cancel function was called. -/
theorem C56_cancel_once (env : Env) (ops : List Op) :
    (run env ops).cancelled.Nodup ∧
    (∀ t ∈ (run env ops).cancelled, ∃ p, (t, p) ∈ (run env ops).started) ∧
    (run env ops).panicked = false := by
  have h := Inv.run env ops
  refine ⟨h.once, fun t ht => ?_, h.noPanic⟩
  have hlt := h.known t ht
  have : t ∈ (run env ops).started.map (·.1) := by rw [h.ids]; exact List.mem_range.2 hlt
  obtain ⟨⟨u, p⟩, hm, rfl⟩ := List.mem_map.1 this
  exact ⟨p, hm⟩

theorem running_mem {s : Server} {p : Str} {t : Nat} :
    t ∈ running s p ↔ (t, p) ∈ s.started ∧ t ∉ s.cancelled := by
  unfold running
  rw [List.mem_map]
  constructor
  · rintro ⟨⟨u, q⟩, hm, rfl⟩
    rw [List.mem_filter, decide_eq_true_eq] at hm
    obtain ⟨h1, h2, h3⟩ := hm
    simp only at h2
    subst h2
    exact ⟨h1, h3⟩
  · rintro ⟨h1, h2⟩
    exact ⟨(t, p), List.mem_filter.2 ⟨h1, by simpa using h2⟩, rfl⟩

theorem running_nodup {s : Server} (h : Inv s) (p : Str) : (running s p).Nodup := by
  have h1 : (s.started.map (·.1)).Nodup := by rw [h.ids]; exact List.nodup_range
  exact h1.sublist (List.Sublist.map _ List.filter_sublist)

/-- **C56** (part): after every sequence of changes every present folder has a running task. -/
theorem C56_at_least_one (env : Env) (ops : List Op) (p : Str) (hp : p ∈ present [] ops) :
    running (run env ops) p ≠ [] := by
  have h := Inv.run env ops
  obtain ⟨t, ht⟩ := exists_cancel h ((C56_present env ops p).2 hp)
  exact List.ne_nil_of_mem (running_mem.2 (h.live p t ht))

/-- **C56** (partial): if no folder is added while it is present, then every present folder has
exactly one running task and every other folder has none. Missing: folders added twice, for which
the property fails (`C56_readd_violated`). -/
theorem C56_exactly_one_partial (env : Env) (ops : List Op) (hn : NoReadd [] ops) (p : Str) :
    (running (run env ops) p).length = if p ∈ present [] ops then 1 else 0 := by
  have h := Inv.run env ops
  have hr : Registered (run env ops) :=
    registered_foldl env ops {} Inv.init (by intro t p ht; cases ht) [] (fun _ => Iff.rfl) hn
  by_cases hp : p ∈ present [] ops
  · rw [if_pos hp]
    obtain ⟨t, ht⟩ := exists_cancel h ((C56_present env ops p).2 hp)
    have hnd := running_nodup h p
    have hall : ∀ u ∈ running (run env ops) p, u = t := by
      intro u hu
      rw [running_mem] at hu
      exact Assoc.unique h.cancelsNodup (hr u p hu.1 hu.2) ht
    have hne := C56_at_least_one env ops p hp
    revert hall hnd hne
    generalize running (run env ops) p = l
    intro hnd hall hne
    match l, hnd, hall, hne with
    | [], _, _, hne => exact absurd rfl hne
    | [_], _, _, _ => rfl
    | a :: b :: l, hnd, hall, _ =>
      have ha := hall a (by simp)
      have hb := hall b (by simp)
      rw [ha, hb] at hnd
      simp at hnd
  · rw [if_neg hp, List.length_eq_zero_iff]
    apply List.eq_nil_iff_forall_not_mem.2
    intro u hu
    rw [running_mem] at hu
    exact hp ((C56_present env ops p).1 ((h.same p).2 (Assoc.mem_keys_of_mem (hr u p hu.1 hu.2))))

/-- **C56** (part): a task that lost its cancel function keeps running whatever happens later,
including shutdown. -/
theorem C56_orphan_forever (env : Env) (ops later : List Op) (t : Nat) (p : Str)
    (hrun : t ∈ running (run env ops) p) (hlost : ∀ q, (q, t) ∉ (run env ops).cancels) :
    t ∈ running (run env (ops ++ later)) p := by
  have h := Inv.run env ops
  rw [running_mem] at hrun ⊢
  have ho : Orphan (run env ops) t := ⟨h.id_lt hrun.1, hrun.2, hlost⟩
  have gen : ∀ s, Inv s → Orphan s t → (t, p) ∈ s.started →
      Orphan (later.foldl (apply env) s) t ∧ (t, p) ∈ (later.foldl (apply env) s).started := by
    have hadd : ∀ (fs : List Folder) (s : Server), (t, p) ∈ s.started →
        (t, p) ∈ (fs.foldl (addFolder env) s).started := by
      intro fs
      induction fs with
      | nil => exact fun s hs => hs
      | cons f fs ih => exact fun s hs => ih _ (List.mem_append_left _ hs)
    have hdel : ∀ (ps : List Str) (s : Server), (t, p) ∈ s.started →
        (t, p) ∈ (ps.foldl cacheDestroy s).started := by
      intro ps
      induction ps with
      | nil => exact fun s hs => hs
      | cons q ps ih =>
        intro s hs
        refine ih _ ?_
        unfold cacheDestroy
        cases Assoc.get s.caches q with
        | none => exact hs
        | some c => cases Assoc.get s.cancels q <;> exact hs
    induction later with
    | nil => exact fun s _ hos hs => ⟨hos, hs⟩
    | cons o later ih =>
      intro s hi hos hs
      rw [List.foldl_cons]
      refine ih _ (hi.apply o) (hos.apply hi o) ?_
      cases o with
      | change a r => exact hdel _ _ (hadd _ _ hs)
      | reindex => exact hadd _ _ (hdel _ _ hs)
      | shutdown => exact hdel _ _ hs
  have := gen _ h ho hrun.1
  rw [run, List.foldl_append]
  exact ⟨this.2, this.1.2.1⟩

/-- A folder for the examples. -/
def folderA : Folder := ⟨['/', 'a'], ['a']⟩
/-- Another folder. -/
def folderB : Folder := ⟨['/', 'b'], ['b']⟩
/-- The first folder under another name. -/
def folderA' : Folder := ⟨['/', 'a'], ['x']⟩
/-- An environment in which the Go driver is available. -/
def envYes : Env := fun _ => (true, [])
/-- An environment in which the Go driver is not available. -/
def envNo : Env := fun _ => (false, [])

example : NoReadd [] [.change [folderA, folderB] [], .reindex, .change [] [folderA], .change [folderA'] []] := by
  simp [NoReadd, folderA, folderB, folderA']

example : present [] [.change [folderA, folderB] [], .change [] [folderA]] = [folderB.path] := by decide

/-- The code violates C56: adding a folder twice leaves two running tasks for it, and one of them
survives even the shutdown. -/
theorem C56_readd_violated :
    (running (run envYes [.change [folderA] [], .change [folderA] []]) folderA.path).length = 2 ∧
    (running (run envYes [.change [folderA] [], .change [folderA] [], .shutdown]) folderA.path).length = 1 := by
  decide

/-- The code violates C56 in another way: a folder that is replaced in one event (removed and added
under a new name, as an editor does when it renames a folder) ends up without cache, while the task
started for its old name (number 0) keeps running. -/
theorem C56_replaced_violated :
    folderA'.path ∉ Assoc.keys (run envYes [.change [folderA] [], .change [folderA'] [folderA]]).caches ∧
    running (run envYes [.change [folderA] [], .change [folderA'] [folderA]]) folderA'.path = [0] := by
  decide

/-! ## C27: the lock is released -/

theorem locked_destroyList (ps : List Str) (s : Server) :
    (ps.foldl cacheDestroy s).locked = s.locked := by
  induction ps generalizing s with
  | nil => rfl
  | cons p ps ih =>
    rw [List.foldl_cons, ih]
    unfold cacheDestroy
    cases Assoc.get s.caches p with
    | none => rfl
    | some c => cases Assoc.get s.cancels p <;> rfl

/-- **C27** (part): exactly which requests keep the lock: `protols/refreshModules` when some
workspace has no Go driver. -/
theorem C27_leak_iff (env : Env) (s : Server) (hl : s.locked = false) (r : Req) :
    (∃ e s', exec env s r = .done e s' ∧ s'.locked = true) ↔
      r = .cmd .refreshModules ∧ ∃ e ∈ s.caches, e.2.hasDriver = false := by
  constructor
  · rintro ⟨e, s', he, hs'⟩
    have key : ∀ b : Bool, ¬ (Outcome.done b s = Outcome.done e s') := by
      intro b hb
      injection hb with _ hb
      rw [← hb, hl] at hs'
      cases hs'
    have kunlock : ∀ (b : Bool) t, ¬ (Outcome.done b (unlock t) = Outcome.done e s') := by
      intro b t hb
      injection hb with _ hb
      rw [← hb] at hs'
      cases hs'
    have hdoc : ∀ a f, ¬ docCmd s a f = .done e s' := by
      intro a f
      cases a with
      | missing => exact fun h => by cases h
      | malformed => exact key _
      | uri u =>
        simp only [docCmd, withCache, acquire, hl, Bool.false_eq_true, if_false]
        exact key _
    cases r with
    | cmd c =>
      cases c with
      | syntheticFileContents a f => exact absurd he (hdoc a f)
      | ast a f => exact absurd he (hdoc a f)
      | reindexWorkspaces =>
        simp only [exec, execCmd, lock, acquire, hl, Bool.false_eq_true, if_false] at he
        exact absurd he (kunlock _ _)
      | refreshModules =>
        simp only [exec, execCmd, lock, acquire, hl, Bool.false_eq_true, if_false] at he
        refine ⟨rfl, ?_⟩
        by_cases hf : refreshFails s.caches = true
        · unfold refreshFails at hf
          rw [List.any_eq_true] at hf
          obtain ⟨x, hx, hd⟩ := hf
          exact ⟨x, hx, by simpa using hd⟩
        · rw [if_neg hf] at he
          exact absurd he (kunlock _ _)
      | goToGeneratedDefinition a f => exact absurd he (hdoc a f)
      | other a f =>
        cases a with
        | missing => cases he
        | malformed => exact absurd he (key _)
        | badType => cases he
        | uri u =>
          simp only [exec, execCmd, withCache, acquire, hl, Bool.false_eq_true, if_false] at he
          exact absurd he (key _)
        | workspace p =>
          simp only [exec, execCmd, acquire, hl, Bool.false_eq_true, if_false] at he
          exact absurd he (key _)
        | none => exact absurd he (key _)
    | doc u f =>
      simp only [exec, withCache, acquire, hl, Bool.false_eq_true, if_false] at he
      exact absurd he (key _)
    | folders a d =>
      simp only [exec, lock, acquire, hl, Bool.false_eq_true, if_false] at he
      exact absurd he (kunlock _ _)
    | config f =>
      simp only [exec, acquire, hl, Bool.false_eq_true, if_false] at he
      exact absurd he (key _)
  · rintro ⟨rfl, x, hx, hd⟩
    refine ⟨true, { s with locked := true }, ?_, rfl⟩
    simp only [exec, execCmd, lock, acquire, hl, Bool.false_eq_true, if_false]
    rw [if_pos]
    unfold refreshFails
    rw [List.any_eq_true]
    exact ⟨x, hx, by simp [hd]⟩

/-- No request waits for ever on a lock that is free. -/
theorem not_blocked (env : Env) (s : Server) (hl : s.locked = false) (r : Req) :
    exec env s r ≠ .blocked := by
  have hdoc : ∀ a f, docCmd s a f ≠ .blocked := by
    intro a f
    cases a <;> simp [docCmd, withCache, acquire, hl]
  cases r with
  | cmd c =>
    cases c with
    | syntheticFileContents a f => exact hdoc a f
    | ast a f => exact hdoc a f
    | reindexWorkspaces => simp [exec, execCmd, lock, acquire, hl]
    | refreshModules =>
      simp only [exec, execCmd, lock, acquire, hl, Bool.false_eq_true, if_false]
      split <;> simp
    | goToGeneratedDefinition a f => exact hdoc a f
    | other a f => cases a <;> simp [exec, execCmd, withCache, acquire, hl]
  | doc u f => simp [exec, withCache, acquire, hl]
  | folders a d => simp [exec, lock, acquire, hl]
  | config f => simp [exec, acquire, hl]

/-- **C27** (partial): in every sequence of requests without `protols/refreshModules`, no request
waits for ever on the workspace lock. Missing: that command, see the next two theorems. -/
theorem C27_no_refresh_partial (env : Env) (rs : List Req) (s : Server) (hl : s.locked = false)
    (hr : Req.cmd .refreshModules ∉ rs) : execAll env s rs ≠ .blocked := by
  induction rs generalizing s with
  | nil => simp [execAll]
  | cons r rs ih =>
    unfold execAll
    have hb := not_blocked env s hl r
    have hleak := C27_leak_iff env s hl r
    cases he : exec env s r with
    | blocked => exact absurd he hb
    | panicked => simp
    | done e s' =>
      refine ih s' ?_ (fun h => hr (List.mem_cons_of_mem _ h))
      cases hs' : s'.locked with
      | false => rfl
      | true =>
        obtain ⟨h1, _⟩ := hleak.1 ⟨e, s', he, hs'⟩
        exact absurd (h1 ▸ List.mem_cons_self) hr

/-- All caches have a Go driver. -/
def AllDrivers (s : Server) : Prop := ∀ e ∈ s.caches, e.2.hasDriver = true

theorem allDrivers_addFolders {env : Env} (henv : ∀ f, (env f).1 = true) (fs : List Folder) (s : Server)
    (h : AllDrivers s) : AllDrivers (fs.foldl (addFolder env) s) := by
  induction fs generalizing s with
  | nil => exact h
  | cons f fs ih =>
    refine ih _ ?_
    intro e he
    rcases Assoc.mem_set.1 he with rfl | ⟨he, _⟩
    · exact henv f
    · exact h e he

theorem allDrivers_destroy (ps : List Str) (s : Server) (h : AllDrivers s) :
    AllDrivers (ps.foldl cacheDestroy s) := by
  induction ps generalizing s with
  | nil => exact h
  | cons p ps ih =>
    refine ih _ ?_
    unfold cacheDestroy
    cases Assoc.get s.caches p with
    | none => exact h
    | some c =>
      have : AllDrivers { s with caches := Assoc.del s.caches p, cancels := Assoc.del s.cancels p } :=
        fun e he => h e (Assoc.mem_del.1 he).1
      cases Assoc.get s.cancels p <;> exact this

theorem allDrivers_exec {env : Env} (henv : ∀ f, (env f).1 = true) (s : Server) (h : AllDrivers s)
    (r : Req) (e : Bool) (s' : Server) (he : exec env s r = .done e s') : AllDrivers s' := by
  have same : ∀ b : Bool, Outcome.done b s = Outcome.done e s' → AllDrivers s' := by
    intro b hb
    injection hb with _ hb
    exact hb ▸ h
  have acq : ∀ (b : Bool), acquire s (fun s => .done b s) = .done e s' → AllDrivers s' := by
    intro b hb
    unfold acquire at hb
    split at hb
    · cases hb
    · exact same _ hb
  have hlk : AllDrivers { s with locked := true } := h
  have hdoc : ∀ a f, docCmd s a f = .done e s' → AllDrivers s' := by
    intro a f hd
    cases a with
    | missing => cases hd
    | malformed => exact same _ hd
    | uri u =>
      unfold docCmd withCache acquire at hd
      simp only at hd
      split at hd
      · cases hd
      · exact same _ hd
  cases r with
  | cmd c =>
    cases c with
    | syntheticFileContents a f => exact hdoc a f he
    | ast a f => exact hdoc a f he
    | reindexWorkspaces =>
      simp only [exec, execCmd, lock, acquire] at he
      split at he
      · cases he
      · injection he with _ he
        subst he
        have h0 : AllDrivers (clearCaches (destroyAll { s with locked := true })) := by
          intro x hx; cases hx
        exact allDrivers_addFolders henv _ _ h0
    | refreshModules =>
      simp only [exec, execCmd, lock, acquire] at he
      split at he
      · cases he
      · split at he <;> injection he with _ he <;> subst he <;> exact h
    | goToGeneratedDefinition a f => exact hdoc a f he
    | other a f =>
      cases a with
      | missing => cases he
      | malformed => exact same _ he
      | badType => cases he
      | uri u => exact hdoc (.uri u) f he
      | workspace p =>
        simp only [exec, execCmd, acquire] at he
        split at he
        · cases he
        · exact same _ he
      | none => exact same _ he
  | doc u f => exact hdoc (.uri u) f he
  | folders a d =>
    simp only [exec, lock, acquire] at he
    split at he
    · cases he
    · injection he with _ he
      subst he
      exact allDrivers_destroy _ _ (allDrivers_addFolders henv _ _ hlk)
  | config f => exact acq _ he

/-- **C27** (partial): if the Go driver is available for every folder, no request of any sequence
waits for ever on the workspace lock, starting from a new server. Missing: folders without a Go
driver, for which the property fails (`C27_refresh_violated`). -/
theorem C27_drivers_partial (env : Env) (henv : ∀ f, (env f).1 = true) (rs : List Req) :
    execAll env {} rs ≠ .blocked := by
  have gen : ∀ s : Server, s.locked = false → AllDrivers s → execAll env s rs ≠ .blocked := by
    induction rs with
    | nil => intro s _ _; simp [execAll]
    | cons r rs ih =>
      intro s hl hd
      unfold execAll
      have hb := not_blocked env s hl r
      have hleak := C27_leak_iff env s hl r
      cases he : exec env s r with
      | blocked => exact absurd he hb
      | panicked => simp
      | done e s' =>
        refine ih s' ?_ (allDrivers_exec henv s hd r e s' he)
        cases hs' : s'.locked with
        | false => rfl
        | true =>
          obtain ⟨_, x, hx, hf⟩ := hleak.1 ⟨e, s', he, hs'⟩
          rw [hd x hx] at hf
          cases hf
  exact gen {} rfl (by intro e he; cases he)

/-- The code violates C27: in a workspace without Go driver, `protols/refreshModules` returns an
error and keeps the lock, so that the next request (for any document) waits for ever. -/
theorem C27_refresh_violated (u : Uri) (f : Bool) :
    (∃ s, execAll envNo {} [.folders [folderA] [], .cmd .refreshModules] = .done false s ∧
      exec envNo s (.doc u f) = .blocked) ∧
    execAll envNo {} [.folders [folderA] [], .cmd .refreshModules, .doc u f] = .blocked := by
  refine ⟨⟨{ (addFolder envNo {} folderA) with locked := true }, by decide, rfl⟩, rfl⟩

example : execAll envYes {} [.folders [folderA] [], .cmd .refreshModules, .cmd .reindexWorkspaces,
    .doc ⟨true, "/a/x.proto".toList, []⟩ false] ≠ .blocked := by decide

/-! ## C55: routing of documents -/

/-- Specification: the folder `p` contains the document path `d` (they are equal or the folder
followed by a slash is a prefix). -/
def Contains (p d : Str) : Prop := p = d ∨ (p ++ ['/']) <+: d

/-- Specification: `p` is the innermost of the folders `ps` containing `d`. -/
def Innermost (ps : List Str) (d p : Str) : Prop :=
  p ∈ ps ∧ Contains p d ∧ ∀ q ∈ ps, Contains q d → q.length ≤ p.length

/-- Specification: the document is in a directory below `p` whose name starts with `vendor`. -/
def InVendor (p d : Str) : Prop := (p ++ "/vendor".toList) <+: d

/-- No folder path is a proper prefix (as a string of bytes) of another one: no nested folders and
no siblings like `/a/foo` and `/a/foobar`. -/
def PrefixFree (ps : List Str) : Prop := ∀ p ∈ ps, ∀ q ∈ ps, p <+: q → p = q

theorem Contains.prefix {p d : Str} (h : Contains p d) : p <+: d := by
  rcases h with rfl | h
  · exact List.prefix_refl _
  · exact (List.prefix_append _ _).trans h

theorem serves_iff {u : Uri} {e : Str × Cache} : serves u e = true ↔ e.1 <+: u.path ∧ ¬ InVendor e.1 u.path := by
  unfold serves InVendor vendor
  rw [Bool.and_eq_true, Bool.not_eq_true', ← Bool.not_eq_true, List.isPrefixOf_iff_prefix,
    List.isPrefixOf_iff_prefix]

theorem serves_unique {caches : List (Str × Cache)} (hnd : (Assoc.keys caches).Nodup)
    (hpf : PrefixFree (Assoc.keys caches)) {u : Uri} {a b : Str × Cache} (ha : a ∈ caches) (hb : b ∈ caches)
    (hsa : serves u a = true) (hsb : serves u b = true) : a = b := by
  have h1 := (serves_iff.1 hsa).1
  have h2 := (serves_iff.1 hsb).1
  have ka : a.1 ∈ Assoc.keys caches := Assoc.mem_keys_of_mem (v := a.2) ha
  have kb : b.1 ∈ Assoc.keys caches := Assoc.mem_keys_of_mem (v := b.2) hb
  have h3 : a.1 = b.1 := by
    rcases List.prefix_or_prefix_of_prefix h1 h2 with h | h
    · exact hpf _ ka _ kb h
    · exact (hpf _ kb _ ka h).symm
  obtain ⟨p, c⟩ := a
  obtain ⟨q, d⟩ := b
  simp only at h3
  subst h3
  rw [Assoc.unique hnd ha hb]

/-- **C55** (partial): if no folder path is a prefix of another one, a document inside a folder (and
not below its vendor directories, which the code excludes on purpose) is served by the innermost
folder containing it, whatever the iteration order of the map. Missing: nested folders, siblings
sharing a prefix and directories like `vendored`, for which the property fails. -/
theorem C55_routed_partial (caches order : List (Str × Cache)) (hnd : (Assoc.keys caches).Nodup)
    (hperm : order.Perm caches) (hpf : PrefixFree (Assoc.keys caches)) (u : Uri) (hok : u.ok = true)
    (hfr : u.fragment = []) (p : Str) (c : Cache) (hc : (p, c) ∈ caches)
    (hin : Innermost (Assoc.keys caches) u.path p) (hv : ¬ InVendor p u.path) :
    cacheForURI order u = some c := by
  have hs : serves u (p, c) = true := serves_iff.2 ⟨hin.2.1.prefix, hv⟩
  unfold cacheForURI
  rw [if_neg (by simp [hok]), if_neg (by simp [hfr])]
  cases hf : order.find? (serves u) with
  | none =>
    rw [List.find?_eq_none] at hf
    exact absurd hs (hf _ (hperm.mem_iff.2 hc))
  | some e =>
    have he := List.find?_some hf
    have hm := hperm.mem_iff.1 (List.mem_of_find?_eq_some hf)
    rw [serves_unique hnd hpf hm hc he hs]

/-- **C55** (part): whatever the order and the folders, a document in no folder (not even
byte-wise) is only given to a workspace that tracks it, and rejected if there is none. -/
theorem C55_outside (order : List (Str × Cache)) (u : Uri) (hok : u.ok = true) (hfr : u.fragment = [])
    (hout : ∀ e ∈ order, ¬ e.1 <+: u.path) :
    (∀ c, cacheForURI order u = some c → ∃ p, (p, c) ∈ order ∧ u ∈ c.tracks) ∧
    (cacheForURI order u = none ↔ ∀ e ∈ order, u ∉ e.2.tracks) := by
  have hn : order.find? (serves u) = none := by
    rw [List.find?_eq_none]
    intro e he hs
    exact hout e he (serves_iff.1 hs).1
  unfold cacheForURI
  rw [if_neg (by simp [hok]), if_neg (by simp [hfr]), hn]
  simp only
  refine ⟨fun c hc => ?_, by simp⟩
  cases hf : order.find? (fun e => decide (u ∈ e.2.tracks)) with
  | none => rw [hf] at hc; cases hc
  | some e =>
    rw [hf] at hc
    have := Option.some.inj hc
    subst this
    exact ⟨e.1, List.mem_of_find?_eq_some hf, by simpa using List.find?_some hf⟩

/-- **C55** (part): whatever the order, a document URI with a fragment is given to a workspace with
that name, and rejected if there is none. -/
theorem C55_fragment (order : List (Str × Cache)) (u : Uri) (hok : u.ok = true) (hfr : u.fragment ≠ []) :
    (∀ c, cacheForURI order u = some c → c.folder.name = u.fragment ∧ ∃ p, (p, c) ∈ order) ∧
    (cacheForURI order u = none ↔ ∀ e ∈ order, e.2.folder.name ≠ u.fragment) := by
  unfold cacheForURI
  rw [if_neg (by simp [hok]), if_pos hfr]
  refine ⟨fun c hc => ?_, by simp⟩
  cases hf : order.find? (fun e => decide (e.2.folder.name = u.fragment)) with
  | none => rw [hf] at hc; cases hc
  | some e =>
    rw [hf] at hc
    have := Option.some.inj hc
    subst this
    exact ⟨by simpa using List.find?_some hf, e.1, List.mem_of_find?_eq_some hf⟩

/-- A cache of a folder. -/
def mkCache (p : Str) : Str × Cache := (p, ⟨⟨p, p⟩, true, []⟩)

/-- `/w` -/
def pW : Str := ['/', 'w']
/-- `/w/sub` -/
def pSub : Str := pW ++ ['/', 's', 'u', 'b']
/-- `/w/subway` -/
def pSubway : Str := pSub ++ ['w', 'a', 'y']
/-- `/v` -/
def pV : Str := ['/', 'v']

example : (Assoc.keys [mkCache pW, mkCache pV]).Nodup ∧ PrefixFree (Assoc.keys [mkCache pW, mkCache pV]) ∧
    Innermost (Assoc.keys [mkCache pW, mkCache pV]) pSub pW ∧ ¬ InVendor pW pSub := by
  refine ⟨by decide, ?_, ⟨by decide, .inr (by decide), ?_⟩, by unfold InVendor; decide⟩
  · unfold PrefixFree; decide
  · intro q hq h
    replace h := h.prefix
    revert q
    decide

/-- The code violates C55 for nested folders: the folder serving a document depends on the iteration
order. -/
theorem C55_nested_violated :
    Innermost (Assoc.keys [mkCache pW, mkCache pSub]) (pSub ++ ['/', 'a']) pSub ∧
    cacheForURI [mkCache pSub, mkCache pW] ⟨true, pSub ++ ['/', 'a'], []⟩ = some (mkCache pSub).2 ∧
    cacheForURI [mkCache pW, mkCache pSub] ⟨true, pSub ++ ['/', 'a'], []⟩ = some (mkCache pW).2 := by
  refine ⟨⟨by decide, .inr (by decide), ?_⟩, by decide, by decide⟩
  intro q hq h
  replace h := h.prefix
  revert q
  decide

/-- The code violates C55 for siblings: a document in `/w/subway` may be given to `/w/sub`, which
does not contain it. -/
theorem C55_sibling_violated :
    Contains pSubway (pSubway ++ ['/', 'a']) ∧ ¬ Contains pSub (pSubway ++ ['/', 'a']) ∧
    cacheForURI [mkCache pSub, mkCache pSubway] ⟨true, pSubway ++ ['/', 'a'], []⟩
      = some (mkCache pSub).2 := by
  refine ⟨.inr (by decide), ?_, by decide⟩
  rintro (h | h)
  · revert h; decide
  · revert h; decide

/-- The code violates C55 for a directory whose name merely starts with `vendor`: the only folder,
which contains the document, does not serve it. -/
theorem C55_vendor_violated :
    Contains pW (pW ++ vendor ++ ['2', '/', 'a']) ∧
    cacheForURI [mkCache pW] ⟨true, pW ++ vendor ++ ['2', '/', 'a'], []⟩ = none := by
  refine ⟨.inr (by decide), by decide⟩

/-- Specification: which requests are answered with an error, given the state of the server. A document that no folder serves,
arguments that cannot be read, a workspace that is not open, a folder without Go driver, and a failure of the request
itself. -/
inductive Refused (s : Server) : Req → Prop where
  | document (u : Uri) (fails : Bool) : cacheForURI s.caches u = none ∨ fails = true → Refused s (.doc u fails)
  | config : Refused s (.config true)
  | synthetic (u : Uri) (fails : Bool) : cacheForURI s.caches u = none ∨ fails = true →
      Refused s (.cmd (.syntheticFileContents (.uri u) fails))
  | ast (u : Uri) (fails : Bool) : cacheForURI s.caches u = none ∨ fails = true → Refused s (.cmd (.ast (.uri u) fails))
  | generated (u : Uri) (fails : Bool) : cacheForURI s.caches u = none ∨ fails = true →
      Refused s (.cmd (.goToGeneratedDefinition (.uri u) fails))
  | badSynthetic (fails : Bool) : Refused s (.cmd (.syntheticFileContents .malformed fails))
  | badAst (fails : Bool) : Refused s (.cmd (.ast .malformed fails))
  | badGenerated (fails : Bool) : Refused s (.cmd (.goToGeneratedDefinition .malformed fails))
  | refresh (e : Str × Cache) : e ∈ s.caches → e.2.hasDriver = false → Refused s (.cmd .refreshModules)
  | bad (fails : Bool) : Refused s (.cmd (.other .malformed fails))
  | uri (u : Uri) (fails : Bool) : cacheForURI s.caches u = none ∨ fails = true → Refused s (.cmd (.other (.uri u) fails))
  | workspace (p : Str) (fails : Bool) : (∀ e ∈ s.caches, e.2.folder.path ≠ p) ∨ fails = true →
      Refused s (.cmd (.other (.workspace p) fails))
  | other : Refused s (.cmd (.other .none true))

/-- **C55**: a request is answered with an error exactly for these reasons; in particular a document that a folder serves is
not refused. -/
theorem C55_refused (env : Env) (s s' : Server) (r : Req) (e : Bool) (h : exec env s r = .done e s') :
    e = true ↔ Refused s r := by
  have hw : ∀ (u : Uri) (fails : Bool), withCache s u fails = .done e s' →
      (e = true ↔ cacheForURI s.caches u = none ∨ fails = true) := by
    intro u fails h
    unfold withCache acquire at h
    split at h
    · cases h
    · injection h with h1 h2
      rw [← h1, Bool.or_eq_true, Option.isNone_iff_eq_none]
  cases r with
  | doc u fails =>
    rw [hw u fails h]
    exact ⟨.document u fails, fun h => by cases h; assumption⟩
  | folders a b =>
    unfold exec lock acquire at h
    simp only at h
    split at h
    · cases h
    · injection h with h1 h2
      rw [← h1]
      exact ⟨fun h => (by cases h), fun h => by cases h⟩
  | config fails =>
    unfold exec acquire at h
    simp only at h
    split at h
    · cases h
    · injection h with h1 h2
      rw [← h1]
      exact ⟨fun h => h ▸ .config, fun h => by cases h; rfl⟩
  | cmd c =>
    have hd : ∀ (a : DocArg) (fails : Bool), docCmd s a fails = .done e s' →
        (e = true ↔ a = .malformed ∨ ∃ u, a = .uri u ∧ (cacheForURI s.caches u = none ∨ fails = true)) := by
      intro a fails h
      cases a with
      | missing => cases h
      | malformed => injection h with h1 h2; simp [← h1]
      | uri u => rw [hw u fails h]; simp
    cases c with
    | syntheticFileContents a fails =>
      rw [hd a fails h]
      constructor
      · rintro (rfl | ⟨u, rfl, hu⟩)
        · exact .badSynthetic fails
        · exact .synthetic u fails hu
      · intro h
        cases h with
        | synthetic u _ hu => exact .inr ⟨u, rfl, hu⟩
        | badSynthetic => exact .inl rfl
    | ast a fails =>
      rw [hd a fails h]
      constructor
      · rintro (rfl | ⟨u, rfl, hu⟩)
        · exact .badAst fails
        · exact .ast u fails hu
      · intro h
        cases h with
        | ast u _ hu => exact .inr ⟨u, rfl, hu⟩
        | badAst => exact .inl rfl
    | goToGeneratedDefinition a fails =>
      rw [hd a fails h]
      constructor
      · rintro (rfl | ⟨u, rfl, hu⟩)
        · exact .badGenerated fails
        · exact .generated u fails hu
      · intro h
        cases h with
        | generated u _ hu => exact .inr ⟨u, rfl, hu⟩
        | badGenerated => exact .inl rfl
    | reindexWorkspaces =>
      unfold exec execCmd lock acquire at h
      simp only at h
      split at h
      · cases h
      · injection h with h1 h2
        rw [← h1]
        exact ⟨fun h => (by cases h), fun h => by cases h⟩
    | refreshModules =>
      unfold exec execCmd lock acquire at h
      simp only at h
      split at h
      · cases h
      · split at h
        · rename_i hf
          injection h with h1 h2
          rw [← h1]
          unfold refreshFails at hf
          obtain ⟨x, hx, hx'⟩ := List.any_eq_true.1 hf
          exact ⟨fun _ => .refresh x hx (by simpa using hx'), fun _ => rfl⟩
        · rename_i hf
          injection h with h1 h2
          rw [← h1]
          refine ⟨fun h => (by cases h), fun h => ?_⟩
          cases h with
          | refresh x hx hx' => exact absurd (List.any_eq_true.2 ⟨x, hx, by simpa using hx'⟩) hf
    | other a fails =>
      cases a with
      | missing => cases h
      | malformed => injection h with h1 h2; rw [← h1]; exact ⟨fun _ => .bad fails, fun _ => rfl⟩
      | badType => cases h
      | uri u =>
        rw [hw u fails h]
        exact ⟨.uri u fails, fun h => by cases h; assumption⟩
      | workspace p =>
        unfold exec execCmd acquire at h
        simp only at h
        split at h
        · cases h
        · injection h with h1 h2
          rw [← h1, Bool.or_eq_true, Option.isNone_iff_eq_none]
          have : cacheForWorkspace s.caches p = none ↔ ∀ e ∈ s.caches, e.2.folder.path ≠ p := by
            unfold cacheForWorkspace
            rw [Option.map_eq_none_iff, List.find?_eq_none]
            simp
          rw [this]
          exact ⟨.workspace p fails, fun h => by cases h; assumption⟩
      | none =>
        injection h with h1 h2
        rw [← h1]
        exact ⟨fun h => h ▸ .other, fun h => by cases h; rfl⟩

/-- Both answers occur. -/
example : (∃ s, exec envYes (addFolder envYes {} folderA) (.doc ⟨true, "/a/x.proto".toList, []⟩ false) = .done false s) ∧
    (∃ s, exec envYes (addFolder envYes {} folderA) (.doc ⟨true, "/b/x.proto".toList, []⟩ false) = .done true s) :=
  ⟨⟨_, rfl⟩, ⟨_, rfl⟩⟩

end Verif.Workspaces
