import Verif.Spec.Versions

namespace Verif.Versions

def WOK (s : State) (pre post : List Event) (w : Waiter) : Prop :=
  match w.status with
  | .ready => SatLast pre w.uri w.version
  | .blocked c => ¬ SatLast pre w.uri w.version ∧
      (c ∈ s.closed ↔ SatSome post w.uri w.version) ∧
      (c ∉ s.closed → (w.version, c) ∈ s.queue w.uri)

structure QInv (owner : Nat → Uri × Int) (s : State) : Prop where
  qowner : ∀ u v c, (v, c) ∈ s.queue u → owner c = (u, v)
  wowner : ∀ w ∈ s.waiters, ∀ c, w.status = .blocked c → owner c = (w.uri, w.version)
  qfresh : ∀ u v c, (v, c) ∈ s.queue u → c ∉ s.closed ∧ c < s.nextChan
  cfresh : ∀ c ∈ s.closed, c < s.nextChan
  wfresh : ∀ w ∈ s.waiters, ∀ c, w.status = .blocked c → c < s.nextChan
  qkeys : ∀ u, ((s.queue u).map (·.1)).Nodup
  nopanic : s.panicked = false

structure Inv (es : List Event) (s : State) : Prop where
  q : ∃ owner, QInv owner s
  vers : ∀ u, s.versions u = lastVersion es u
  ids : ∀ w ∈ s.waiters, w.id < s.nextId
  used : ∀ e ∈ es, ∀ id, (e = .granted id ∨ e = .failed id) → id < s.nextId
  a : ∀ pre w u v post, es = pre ++ .request w u v :: post →
      (.granted w ∈ post ∨ .failed w ∈ post) ∨
      ∃ wt ∈ s.waiters, wt.id = w ∧ wt.uri = u ∧ wt.version = v ∧ WOK s pre post wt
  b : ∀ wt ∈ s.waiters, ∃ pre post,
      es = pre ++ .request wt.id wt.uri wt.version :: post ∧ WOK s pre post wt

theorem mods_append (a b : List Event) : mods (a ++ b) = mods a ++ mods b := by
  simp [mods]

theorem mods_single_of_not_update (e : Event) (h : ∀ ms, e ≠ .update ms) : mods [e] = [] := by
  cases e <;> simp_all [mods]

theorem lookup_some_mem {q : List (Int × Nat)} {v : Int} {c : Nat}
    (h : q.lookup v = some c) : (v, c) ∈ q := by
  induction q with
  | nil => simp at h
  | cons e t ih =>
    obtain ⟨a, b⟩ := e
    rw [List.lookup_cons] at h
    by_cases hv : v = a
    · subst hv; simp at h; simp [h]
    · have : (v == a) = false := by simpa using hv
      rw [this] at h
      exact List.mem_cons_of_mem _ (ih h)

theorem lookup_none_not_mem {q : List (Int × Nat)} {v : Int}
    (h : q.lookup v = none) : v ∉ q.map (·.1) := by
  induction q with
  | nil => simp
  | cons e t ih =>
    obtain ⟨a, b⟩ := e
    rw [List.lookup_cons] at h
    by_cases hv : v = a
    · subst hv; simp at h
    · have : (v == a) = false := by simpa using hv
      rw [this] at h
      simp only [List.map_cons, List.mem_cons, not_or]
      exact ⟨hv, ih h⟩

theorem waitFast_iff (es : List Event) (s : State) (u : Uri) (v : Int)
    (h : s.versions u = lastVersion es u) :
    waitFast (s.versions u) v = true ↔ SatLast es u v := by
  rw [h]
  unfold SatLast waitFast Satisfies
  cases lastVersion es u with
  | none => simp
  | some k => simp [ge_iff_le]

theorem foldl_close (l : List (Int × Nat)) (s : State)
    (hn : (l.map (·.2)).Nodup) (hc : ∀ e ∈ l, e.2 ∉ s.closed) :
    l.foldl (fun s e => closeChan s e.2) s =
      { s with closed := (l.map (·.2)).reverse ++ s.closed } := by
  induction l generalizing s with
  | nil => simp
  | cons e t ih =>
    simp only [List.foldl_cons]
    have h1 : e.2 ∉ s.closed := hc e (by simp)
    have : closeChan s e.2 = { s with closed := e.2 :: s.closed } := by simp [closeChan, h1]
    rw [this, ih]
    · simp
    · simp only [List.map_cons, List.nodup_cons] at hn; exact hn.2
    · intro x hx
      simp only [List.map_cons, List.nodup_cons] at hn
      simp only [List.mem_cons, not_or]
      refine ⟨?_, hc x (by simp [hx])⟩
      intro heq
      exact hn.1 (by rw [← heq]; exact List.mem_map_of_mem hx)

theorem due_iff (k v : Int) : due k v = true ↔ Satisfies k v := by
  simp [due, Satisfies, or_comm]

/-- Channels of a queue list are distinct. -/
theorem chans_nodup {owner : Nat → Uri × Int} {s : State} (h : QInv owner s) (u : Uri) :
    ((s.queue u).map (·.2)).Nodup := by
  have hk := h.qkeys u
  have ho := h.qowner u
  revert hk ho
  generalize s.queue u = q
  intro hk ho
  induction q with
  | nil => simp
  | cons e t ih =>
    obtain ⟨v, c⟩ := e
    simp only [List.map_cons, List.nodup_cons] at hk ⊢
    refine ⟨?_, ih hk.2 (fun v c hm => ho v c (List.mem_cons_of_mem _ hm))⟩
    intro hm
    obtain ⟨⟨v', c'⟩, hm', heq⟩ := List.mem_map.mp hm
    simp only at heq
    subst heq
    have h1 := ho v c' (by simp)
    have h2 := ho v' c' (List.mem_cons_of_mem _ hm')
    rw [h1] at h2
    simp only [Prod.mk.injEq, true_and] at h2
    subst h2
    exact hk.1 (List.mem_map.mpr ⟨(v, c'), hm', rfl⟩)

theorem updateOne_eq {owner : Nat → Uri × Int} {s : State} (h : QInv owner s) (m : Mod) :
    updateOne s m = { s with
      versions := set s.versions m.uri (some m.version)
      queue := set s.queue m.uri ((s.queue m.uri).filter fun e => !due m.version e.1)
      closed := (((s.queue m.uri).filter fun e => due m.version e.1).map (·.2)).reverse
        ++ s.closed } := by
  unfold updateOne
  rw [foldl_close]
  · exact (List.Sublist.map _ List.filter_sublist).nodup (chans_nodup h m.uri)
  · intro e he
    exact (h.qfresh m.uri e.1 e.2 (List.mem_filter.mp he).1).1

theorem updateOne_qinv {owner : Nat → Uri × Int} {s : State} (h : QInv owner s) (m : Mod) :
    QInv owner (updateOne s m) := by
  rw [updateOne_eq h]
  constructor
  · intro u v c hm
    simp only [set] at hm
    split at hm
    · subst_vars; exact h.qowner _ v c (List.mem_filter.mp hm).1
    · exact h.qowner u v c hm
  · exact h.wowner
  · intro u v c hm
    simp only [set] at hm
    simp only [List.mem_append, List.mem_reverse, List.mem_map, not_or]
    split at hm
    · rename_i hu; subst hu
      obtain ⟨hm1, hm2⟩ := List.mem_filter.mp hm
      obtain ⟨h1, h2⟩ := h.qfresh _ v c hm1
      refine ⟨⟨?_, h1⟩, h2⟩
      rintro ⟨⟨v', c'⟩, hx, heq⟩
      simp only at heq; subst heq
      obtain ⟨hx1, hx2⟩ := List.mem_filter.mp hx
      have a := h.qowner _ v c' hm1
      have b := h.qowner _ v' c' hx1
      rw [a] at b
      simp only [Prod.mk.injEq, true_and] at b
      subst b
      simp_all
    · rename_i hu
      obtain ⟨h1, h2⟩ := h.qfresh u v c hm
      refine ⟨⟨?_, h1⟩, h2⟩
      rintro ⟨⟨v', c'⟩, hx, heq⟩
      simp only at heq; subst heq
      obtain ⟨hx1, hx2⟩ := List.mem_filter.mp hx
      have a := h.qowner _ v c' hm
      have b := h.qowner _ v' c' hx1
      rw [a] at b
      simp only [Prod.mk.injEq] at b
      exact hu b.1
  · intro c hc
    simp only [List.mem_append, List.mem_reverse, List.mem_map] at hc
    rcases hc with ⟨⟨v', c'⟩, hx, heq⟩ | hc
    · simp only at heq; subst heq
      exact (h.qfresh _ v' c' (List.mem_filter.mp hx).1).2
    · exact h.cfresh c hc
  · exact h.wfresh
  · intro u
    simp only [set]
    split
    · subst_vars
      exact (List.Sublist.map _ List.filter_sublist).nodup (h.qkeys m.uri)
    · exact h.qkeys u
  · exact h.nopanic

theorem updateOne_waiters {owner : Nat → Uri × Int} {s : State} (h : QInv owner s) (m : Mod) :
    (updateOne s m).waiters = s.waiters ∧ (updateOne s m).nextId = s.nextId := by
  rw [updateOne_eq h]; simp

theorem updateOne_versions {owner : Nat → Uri × Int} {s : State} (h : QInv owner s) (m : Mod) :
    (updateOne s m).versions = set s.versions m.uri (some m.version) := by
  rw [updateOne_eq h]

/-- Effect of one modification on a blocked waiter. -/
theorem updateOne_closed {owner : Nat → Uri × Int} {s : State} (h : QInv owner s) (m : Mod)
    (w : Waiter) (hw : w ∈ s.waiters) (c : Nat) (hst : w.status = .blocked c)
    (hq : c ∉ s.closed → (w.version, c) ∈ s.queue w.uri) :
    (c ∈ (updateOne s m).closed ↔
      c ∈ s.closed ∨ (m.uri = w.uri ∧ Satisfies m.version w.version)) ∧
    (c ∉ (updateOne s m).closed → (w.version, c) ∈ (updateOne s m).queue w.uri) := by
  rw [updateOne_eq h]
  have hown := h.wowner w hw c hst
  have key : c ∈ (((s.queue m.uri).filter fun e => due m.version e.1).map (·.2)).reverse
        ++ s.closed ↔ c ∈ s.closed ∨ (m.uri = w.uri ∧ Satisfies m.version w.version) := by
    simp only [List.mem_append, List.mem_reverse, List.mem_map]
    constructor
    · rintro (⟨⟨v', c'⟩, hx, heq⟩ | hc)
      · simp only at heq; subst heq
        obtain ⟨hx1, hx2⟩ := List.mem_filter.mp hx
        have b := h.qowner _ v' c' hx1
        rw [hown] at b
        simp only [Prod.mk.injEq] at b
        right
        refine ⟨b.1.symm, ?_⟩
        rw [b.2]; exact (due_iff _ _).mp hx2
      · exact Or.inl hc
    · rintro (hc | ⟨hu, hsat⟩)
      · exact Or.inr hc
      · by_cases hc : c ∈ s.closed
        · exact Or.inr hc
        · left
          refine ⟨(w.version, c), ?_, rfl⟩
          rw [hu]
          exact List.mem_filter.mpr ⟨hq hc, (due_iff _ _).mpr hsat⟩
  refine ⟨key, ?_⟩
  intro hn
  simp only at hn ⊢
  rw [key, not_or] at hn
  simp only [set]
  split
  · rename_i hu
    refine List.mem_filter.mpr ⟨hu ▸ hq hn.1, ?_⟩
    have hns : ¬ Satisfies m.version w.version := fun hs => hn.2 ⟨hu.symm, hs⟩
    have : due m.version w.version ≠ true := fun hd => hns ((due_iff _ _).mp hd)
    simpa using this
  · exact hq hn.1

theorem update_qinv {owner : Nat → Uri × Int} (ms : List Mod) {s : State} (h : QInv owner s) :
    QInv owner (update s ms) ∧ (update s ms).waiters = s.waiters ∧
    (update s ms).nextId = s.nextId := by
  induction ms generalizing s with
  | nil => exact ⟨h, rfl, rfl⟩
  | cons m t ih =>
    obtain ⟨a, b, c⟩ := ih (updateOne_qinv h m)
    obtain ⟨d, e⟩ := updateOne_waiters h m
    refine ⟨a, ?_, ?_⟩
    · rw [← d, ← b]; rfl
    · rw [← e, ← c]; rfl

theorem update_closed {owner : Nat → Uri × Int} (ms : List Mod) {s : State} (h : QInv owner s)
    (w : Waiter) (hw : w ∈ s.waiters) (c : Nat) (hst : w.status = .blocked c)
    (hq : c ∉ s.closed → (w.version, c) ∈ s.queue w.uri) :
    (c ∈ (update s ms).closed ↔
      c ∈ s.closed ∨ ∃ m ∈ ms, m.uri = w.uri ∧ Satisfies m.version w.version) ∧
    (c ∉ (update s ms).closed → (w.version, c) ∈ (update s ms).queue w.uri) := by
  induction ms generalizing s with
  | nil => simpa [update] using hq
  | cons m t ih =>
    obtain ⟨d, e⟩ := updateOne_waiters h m
    obtain ⟨k1, k2⟩ := updateOne_closed h m w hw c hst hq
    obtain ⟨j1, j2⟩ := ih (updateOne_qinv h m) (by rw [d]; exact hw) k2
    have hrw : update s (m :: t) = update (updateOne s m) t := rfl
    rw [hrw]
    refine ⟨?_, j2⟩
    rw [j1, k1]
    simp only [List.mem_cons, exists_eq_or_imp]
    grind

theorem lastVersion_append (es : List Event) (ms : List Mod) (u : Uri) :
    (((mods es ++ ms).filter (fun x => decide (x.uri = u))).getLast?).map (·.version) =
      ms.foldl (fun f m => set f m.uri (some m.version)) (lastVersion es) u := by
  induction ms generalizing es with
  | nil => simp [lastVersion]
  | cons m t ih =>
    have := ih (es ++ [.update [m]])
    rw [mods_append] at this
    have e1 : mods [Event.update [m]] = [m] := by simp [mods]
    rw [e1] at this
    rw [List.append_assoc] at this
    simp only [List.singleton_append] at this
    rw [this]
    simp only [List.foldl_cons]
    have hf : lastVersion (es ++ [Event.update [m]]) =
        set (lastVersion es) m.uri (some m.version) := by
     funext u'
     simp only [lastVersion, mods_append, e1, set, List.filter_append]
     by_cases hu : m.uri = u'
     · simp [hu]
     · rw [if_neg (fun h => hu h.symm)]
       simp [hu]
    rw [hf]

theorem update_versions {owner : Nat → Uri × Int} (ms : List Mod) {s : State} (h : QInv owner s) :
    (update s ms).versions = ms.foldl (fun f m => set f m.uri (some m.version)) s.versions := by
  induction ms generalizing s with
  | nil => rfl
  | cons m t ih =>
    have hrw : update s (m :: t) = update (updateOne s m) t := rfl
    rw [hrw, ih (updateOne_qinv h m), updateOne_versions h]
    rfl

theorem split_snoc {α : Type} {es pre post : List α} {e x : α}
    (h : es ++ [e] = pre ++ x :: post) :
    (post = [] ∧ pre = es ∧ x = e) ∨ ∃ post', post = post' ++ [e] ∧ es = pre ++ x :: post' := by
  rcases List.eq_nil_or_concat post with rfl | ⟨p, y, rfl⟩
  · left
    have := List.append_inj' h (by simp)
    obtain ⟨h1, h2⟩ := this
    simp at h2
    exact ⟨rfl, h1.symm, h2.symm⟩
  · right
    rw [List.concat_eq_append] at h ⊢
    have h' : es ++ [e] = (pre ++ x :: p) ++ [y] := by simpa using h
    obtain ⟨h1, h2⟩ := List.append_inj' h' (by simp)
    simp at h2
    exact ⟨p, by rw [h2], h1⟩

theorem inv_init : Inv [] init := by
  refine ⟨⟨fun _ => ("", 0), ?_⟩, ?_, ?_, ?_, ?_, ?_⟩
  · constructor <;> simp [init]
  · intro u; simp [init, lastVersion, mods]
  · simp [init]
  · simp
  · intro pre w u v post h; simp at h
  · simp [init]

theorem satSome_snoc_nonupdate {post : List Event} {e : Event} (h : ∀ ms, e ≠ .update ms)
    (u : Uri) (v : Int) : SatSome (post ++ [e]) u v ↔ SatSome post u v := by
  simp [SatSome, mods_append, mods_single_of_not_update e h]

theorem lastVersion_snoc_nonupdate {es : List Event} {e : Event} (h : ∀ ms, e ≠ .update ms)
    (u : Uri) : lastVersion (es ++ [e]) u = lastVersion es u := by
  simp [lastVersion, mods_append, mods_single_of_not_update e h]

theorem wok_mono {s s' : State} {pre post post' : List Event} {w : Waiter}
    (h : WOK s pre post w)
    (hc : ∀ c, w.status = .blocked c → (c ∈ s'.closed ↔ c ∈ s.closed))
    (hq : ∀ c, w.status = .blocked c → (w.version, c) ∈ s.queue w.uri →
      (w.version, c) ∈ s'.queue w.uri)
    (hp : SatSome post' w.uri w.version ↔ SatSome post w.uri w.version) :
    WOK s' pre post' w := by
  unfold WOK at *
  cases hst : w.status with
  | ready => simp only [hst] at h ⊢; exact h
  | blocked c =>
    simp only [hst] at h ⊢
    obtain ⟨h1, h2, h3⟩ := h
    refine ⟨h1, ?_, ?_⟩
    · rw [hc c hst, h2, hp]
    · intro hn
      exact hq c hst (h3 (fun hx => hn ((hc c hst).mpr hx)))

theorem inv_step_request {es : List Event} {s : State} (h : Inv es s) (u : Uri) (v : Int) :
    Inv (es ++ [.request s.nextId u v]) (waitEnter s u v) := by
  obtain ⟨⟨owner, hq⟩, hv, hid, hused, ha, hb⟩ := h
  have hnu : ∀ ms, Event.request s.nextId u v ≠ .update ms := by simp
  -- the new waiter and what is common to the three cases
  have common : ∀ (s' : State) (wt : Waiter) (owner' : Nat → Uri × Int), QInv owner' s' →
      s'.versions = s.versions → s'.nextId = s.nextId + 1 → s'.waiters = wt :: s.waiters →
      wt.id = s.nextId → wt.uri = u → wt.version = v →
      s'.closed = s.closed →
      (∀ u' e, e ∈ s.queue u' → e ∈ s'.queue u') →
      WOK s' es [] wt →
      Inv (es ++ [.request s.nextId u v]) s' := by
    intro s' wt owner' hq' hvers hnid hwt hwid hwu hwv hcl hqq hwok
    have mono : ∀ pre post w, WOK s pre post w →
        WOK s' pre (post ++ [.request s.nextId u v]) w := by
      intro pre post w hw
      refine wok_mono hw (fun c _ => by rw [hcl]) (fun c _ hm => hqq _ _ hm) ?_
      exact satSome_snoc_nonupdate hnu _ _
    refine ⟨⟨owner', hq'⟩, ?_, ?_, ?_, ?_, ?_⟩
    · intro u'
      rw [hvers, hv, lastVersion_snoc_nonupdate hnu]
    · intro w hw
      rw [hwt] at hw
      rw [hnid]
      rcases List.mem_cons.mp hw with rfl | hw
      · omega
      · have := hid w hw; omega
    · intro e he id hh
      rw [hnid]
      rcases List.mem_append.mp he with he | he
      · have := hused e he id hh; omega
      · simp at he; subst he; simp at hh
    · intro pre w u' v' post heq
      rcases split_snoc heq with ⟨rfl, rfl, hx⟩ | ⟨post', rfl, heq'⟩
      · simp only [Event.request.injEq] at hx
        obtain ⟨rfl, rfl, rfl⟩ := hx
        right
        refine ⟨wt, by rw [hwt]; simp, hwid, hwu, hwv, hwok⟩
      · rcases ha pre w u' v' post' heq' with hg | ⟨wt', hwt', h1, h2, h3, h4⟩
        · left
          rcases hg with hg | hg
          · left; simp [hg]
          · right; simp [hg]
        · right
          exact ⟨wt', by rw [hwt]; simp [hwt'], h1, h2, h3, mono _ _ _ h4⟩
    · intro w hw
      rw [hwt] at hw
      rcases List.mem_cons.mp hw with rfl | hw
      · exact ⟨es, [], by rw [hwid, hwu, hwv], hwok⟩
      · obtain ⟨pre, post, heq, hwk⟩ := hb w hw
        exact ⟨pre, post ++ [.request s.nextId u v], by rw [heq]; simp, mono _ _ _ hwk⟩
  have hfast := waitFast_iff es s u v (hv u)
  unfold waitEnter
  split
  · rename_i hf
    refine common _ ⟨s.nextId, u, v, .ready⟩ owner ?_ rfl rfl rfl rfl rfl rfl rfl
      (fun _ _ h => h) ?_
    · constructor
      · exact hq.qowner
      · intro w hw c hst
        rcases List.mem_cons.mp hw with rfl | hw
        · simp at hst
        · exact hq.wowner w hw c hst
      · exact hq.qfresh
      · exact hq.cfresh
      · intro w hw c hst
        rcases List.mem_cons.mp hw with rfl | hw
        · simp at hst
        · exact hq.wfresh w hw c hst
      · exact hq.qkeys
      · exact hq.nopanic
    · exact hfast.mp hf
  · rename_i hf
    have hns : ¬ SatLast es u v := fun hs => hf (hfast.mpr hs)
    have hnil : ∀ u v, ¬ SatSome [] u v := by simp [SatSome, mods]
    split
    · rename_i c hl
      have hmem := lookup_some_mem hl
      refine common _ ⟨s.nextId, u, v, .blocked c⟩ owner ?_ rfl rfl rfl rfl rfl rfl rfl
        (fun _ _ h => h) ?_
      · constructor
        · exact hq.qowner
        · intro w hw c' hst
          rcases List.mem_cons.mp hw with rfl | hw
          · simp only [Status.blocked.injEq] at hst; subst hst
            exact hq.qowner u v c hmem
          · exact hq.wowner w hw c' hst
        · exact hq.qfresh
        · exact hq.cfresh
        · intro w hw c' hst
          rcases List.mem_cons.mp hw with rfl | hw
          · simp only [Status.blocked.injEq] at hst; subst hst
            exact (hq.qfresh u v c hmem).2
          · exact hq.wfresh w hw c' hst
        · exact hq.qkeys
        · exact hq.nopanic
      · refine ⟨hns, ?_, fun _ => hmem⟩
        exact ⟨fun hc => absurd hc (hq.qfresh u v c hmem).1, fun hc => absurd hc (hnil _ _)⟩
    · rename_i hl
      have hnk := lookup_none_not_mem hl
      have hfr : s.nextChan ∉ s.closed := fun hc => Nat.lt_irrefl _ (hq.cfresh _ hc)
      refine common _ ⟨s.nextId, u, v, .blocked s.nextChan⟩
        (fun c => if c = s.nextChan then (u, v) else owner c) ?_ rfl rfl rfl rfl rfl rfl rfl ?_ ?_
      · constructor
        · intro u' v' c hm
          simp only [set] at hm
          split at hm
          · rename_i hu; subst hu
            rcases List.mem_cons.mp hm with hm | hm
            · simp only [Prod.mk.injEq] at hm
              simp [hm.1, hm.2]
            · have := (hq.qfresh u' v' c hm).2
              rw [if_neg (by omega)]; exact hq.qowner u' v' c hm
          · have := (hq.qfresh u' v' c hm).2
            rw [if_neg (by omega)]; exact hq.qowner u' v' c hm
        · intro w hw c hst
          rcases List.mem_cons.mp hw with rfl | hw
          · simp only [Status.blocked.injEq] at hst; subst hst; simp
          · have := hq.wfresh w hw c hst
            rw [if_neg (by omega)]; exact hq.wowner w hw c hst
        · intro u' v' c hm
          simp only [set] at hm
          show c ∉ s.closed ∧ c < s.nextChan + 1
          split at hm
          · rcases List.mem_cons.mp hm with hm | hm
            · simp only [Prod.mk.injEq] at hm
              rw [hm.2]; exact ⟨hfr, by omega⟩
            · have := hq.qfresh _ v' c hm
              exact ⟨this.1, by omega⟩
          · have := hq.qfresh u' v' c hm
            exact ⟨this.1, by omega⟩
        · intro c hc
          have := hq.cfresh c hc
          show c < s.nextChan + 1
          omega
        · intro w hw c hst
          show c < s.nextChan + 1
          rcases List.mem_cons.mp hw with rfl | hw
          · simp only [Status.blocked.injEq] at hst; omega
          · have := hq.wfresh w hw c hst; omega
        · intro u'
          simp only [set]
          split
          · simp only [List.map_cons, List.nodup_cons]
            exact ⟨hnk, hq.qkeys u⟩
          · exact hq.qkeys u'
        · exact hq.nopanic
      · intro u' e he
        simp only [set]
        split
        · subst_vars; exact List.mem_cons_of_mem _ he
        · exact he
      · refine ⟨hns, ?_, ?_⟩
        · exact ⟨fun hc => absurd hc hfr, fun hc => absurd hc (hnil _ _)⟩
        · intro _; simp [set]

theorem inv_step_finish {es : List Event} {s : State} (h : Inv es s) (w : Waiter)
    (hw : w ∈ s.waiters) (e : Event) (he : e = .granted w.id ∨ e = .failed w.id) :
    Inv (es ++ [e]) { s with waiters := s.waiters.filter (fun x => x.id ≠ w.id) } := by
  obtain ⟨⟨owner, hq⟩, hv, hid, hused, ha, hb⟩ := h
  have hnu : ∀ ms, e ≠ .update ms := by rcases he with rfl | rfl <;> simp
  have hnr : ∀ a b c, e ≠ .request a b c := by rcases he with rfl | rfl <;> simp
  have mono : ∀ pre post wt, WOK s pre post wt →
      WOK { s with waiters := s.waiters.filter (fun x => x.id ≠ w.id) } pre (post ++ [e]) wt := by
    intro pre post wt hwt
    refine wok_mono hwt (fun c _ => Iff.rfl) (fun c _ hm => hm) ?_
    exact satSome_snoc_nonupdate hnu _ _
  refine ⟨⟨owner, ?_⟩, ?_, ?_, ?_, ?_, ?_⟩
  · exact ⟨hq.qowner, fun w hw => hq.wowner w (List.mem_filter.mp hw).1, hq.qfresh, hq.cfresh,
      fun w hw => hq.wfresh w (List.mem_filter.mp hw).1, hq.qkeys, hq.nopanic⟩
  · intro u; rw [lastVersion_snoc_nonupdate hnu]; exact hv u
  · intro w' hw'; exact hid w' (List.mem_filter.mp hw').1
  · intro e' he' id hh
    rcases List.mem_append.mp he' with he' | he'
    · exact hused e' he' id hh
    · simp at he'; subst he'
      have hw' := hid w hw
      rcases he with rfl | rfl <;> simp at hh <;> subst hh <;> exact hw'
  · intro pre w' u v post heq
    rcases split_snoc heq with ⟨_, _, hx⟩ | ⟨post', rfl, heq'⟩
    · exact absurd hx.symm (hnr _ _ _)
    · by_cases hww : w' = w.id
      · left; subst hww
        rcases he with rfl | rfl
        · left; simp
        · right; simp
      · rcases ha pre w' u v post' heq' with hg | ⟨wt, hwt, h1, h2, h3, h4⟩
        · left
          rcases hg with hg | hg
          · left; simp [hg]
          · right; simp [hg]
        · right
          refine ⟨wt, ?_, h1, h2, h3, mono _ _ _ h4⟩
          refine List.mem_filter.mpr ⟨hwt, ?_⟩
          simp only [ne_eq, decide_not, Bool.not_eq_eq_eq_not, Bool.not_true,
            decide_eq_false_iff_not]
          rw [h1]; exact hww
  · intro wt hwt
    obtain ⟨pre, post, heq, hwk⟩ := hb wt (List.mem_filter.mp hwt).1
    exact ⟨pre, post ++ [e], by rw [heq]; simp, mono _ _ _ hwk⟩

theorem inv_step_update {es : List Event} {s : State} (h : Inv es s) (ms : List Mod) :
    Inv (es ++ [.update ms]) (update s ms) := by
  obtain ⟨⟨owner, hq⟩, hv, hid, hused, ha, hb⟩ := h
  obtain ⟨hq', hws, hnid⟩ := update_qinv ms hq
  have e1 : mods [Event.update ms] = ms := by simp [mods]
  have mono : ∀ pre post wt, wt ∈ s.waiters → WOK s pre post wt →
      WOK (update s ms) pre (post ++ [.update ms]) wt := by
    intro pre post wt hmem hwt
    unfold WOK at *
    cases hst : wt.status with
    | ready => simp only [hst] at hwt ⊢; exact hwt
    | blocked c =>
      simp only [hst] at hwt ⊢
      obtain ⟨h1, h2, h3⟩ := hwt
      obtain ⟨k1, k2⟩ := update_closed ms hq wt hmem c hst h3
      refine ⟨h1, ?_, k2⟩
      rw [k1, h2]
      simp only [SatSome, mods_append, e1, List.mem_append]
      constructor
      · rintro (⟨m, hm, h⟩ | ⟨m, hm, h⟩)
        · exact ⟨m, Or.inl hm, h⟩
        · exact ⟨m, Or.inr hm, h⟩
      · rintro ⟨m, hm | hm, h⟩
        · exact Or.inl ⟨m, hm, h⟩
        · exact Or.inr ⟨m, hm, h⟩
  refine ⟨⟨owner, hq'⟩, ?_, ?_, ?_, ?_, ?_⟩
  · intro u
    rw [update_versions ms hq]
    have := lastVersion_append es ms u
    unfold lastVersion
    rw [mods_append, e1, this]
    rw [show s.versions = lastVersion es from funext hv]
  · intro w hw; rw [hws] at hw; rw [hnid]; exact hid w hw
  · intro e' he' id hh
    rw [hnid]
    rcases List.mem_append.mp he' with he' | he'
    · exact hused e' he' id hh
    · simp at he'; subst he'; simp at hh
  · intro pre w u v post heq
    rcases split_snoc heq with ⟨_, _, hx⟩ | ⟨post', rfl, heq'⟩
    · simp at hx
    · rcases ha pre w u v post' heq' with hg | ⟨wt, hwt, h1, h2, h3, h4⟩
      · left
        rcases hg with hg | hg
        · left; simp [hg]
        · right; simp [hg]
      · right
        exact ⟨wt, by rw [hws]; exact hwt, h1, h2, h3, mono _ _ _ hwt h4⟩
  · intro wt hwt
    rw [hws] at hwt
    obtain ⟨pre, post, heq, hwk⟩ := hb wt hwt
    exact ⟨pre, post ++ [.update ms], by rw [heq]; simp, mono _ _ _ hwt hwk⟩

theorem inv_exec {es : List Event} {s : State} (h : Exec es s) : Inv es s := by
  induction h with
  | init => exact inv_init
  | step _ hs ih =>
    cases hs with
    | request u v => exact inv_step_request ih u v
    | granted w hw hr => exact inv_step_finish ih w hw _ (Or.inl rfl)
    | failed w hw hb => exact inv_step_finish ih w hw _ (Or.inr rfl)
    | update ms => exact inv_step_update ih ms

end Verif.Versions
