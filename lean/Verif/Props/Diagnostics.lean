import Verif.Model.Diagnostics

/-! # C07, C08, C09: diagnostics -/
namespace Verif.Diagnostics

/-! ## C07: 'unchanged' answers -/

/-- Clock readings used by a sequence of operations. -/
def times (ops : List Op) : List Nat :=
  ops.filterMap fun o => match o with
    | .add t _ => some t
    | .clear t => some t
    | .deleteRelated t _ => some t
    | .flush => none

/-- The clock never repeats a value. -/
def ClockOk (ops : List Op) : Prop := (times ops).Pairwise (· < ·)

theorem step_id (l : DList) (o : Op) :
    ((l.step o).resultId = l.resultId ∧ (l.step o).diags = l.diags) ∨
    ∃ t ∈ times [o], (l.step o).resultId = some t := by
  cases o with
  | add t d => right; exact ⟨t, by simp [times], rfl⟩
  | clear t => right; exact ⟨t, by simp [times], rfl⟩
  | deleteRelated t r =>
    simp only [DList.step, DList.deleteRelated]
    cases deleteFirst r.range l.diags with
    | none => left; exact ⟨rfl, rfl⟩
    | some ds => right; exact ⟨t, by simp [times], rfl⟩
  | flush =>
    left
    simp only [DList.step, DList.flush]
    split <;> exact ⟨rfl, rfl⟩

theorem times_append (a b : List Op) : times (a ++ b) = times a ++ times b := by
  simp [times]

theorem run_append (l : DList) (a b : List Op) : l.run (a ++ b) = (l.run a).run b := by
  simp [DList.run]

theorem run_id (ops : List Op) (l : DList) :
    ((l.run ops).resultId = l.resultId ∧ (l.run ops).diags = l.diags) ∨
    ∃ t ∈ times ops, (l.run ops).resultId = some t := by
  induction ops generalizing l with
  | nil => left; exact ⟨rfl, rfl⟩
  | cons o t ih =>
    have hr : l.run (o :: t) = (l.step o).run t := rfl
    have ht : times (o :: t) = times [o] ++ times t := by rw [← times_append]; rfl
    rw [hr, ht]
    rcases ih (l.step o) with ⟨h1, h2⟩ | ⟨x, hx, h⟩
    · rw [h1, h2]
      rcases step_id l o with ⟨k1, k2⟩ | ⟨x, hx, hk⟩
      · left; exact ⟨k1, k2⟩
      · right; exact ⟨x, by simp [hx], hk⟩
    · right; exact ⟨x, by simp [hx], h⟩

/-- A modification resets the id. -/
theorem run_reset (ops : List Op) (l : DList)
    (h : (∃ t d, .add t d ∈ ops) ∨ (∃ t, .clear t ∈ ops)) :
    ∃ t ∈ times ops, (l.run ops).resultId = some t := by
  induction ops generalizing l with
  | nil => simp at h
  | cons o t ih =>
    have hr : l.run (o :: t) = (l.step o).run t := rfl
    have ht : times (o :: t) = times [o] ++ times t := by rw [← times_append]; rfl
    rw [hr, ht]
    by_cases hin : (∃ x d, Op.add x d ∈ t) ∨ (∃ x, Op.clear x ∈ t)
    · obtain ⟨x, hx, hx'⟩ := ih (l.step o) hin
      exact ⟨x, by simp [hx], hx'⟩
    · have ho : (∃ x d, o = .add x d) ∨ (∃ x, o = .clear x) := by
        rcases h with ⟨x, d, h⟩ | ⟨x, h⟩
        · rcases List.mem_cons.mp h with h | h
          · exact Or.inl ⟨x, d, h.symm⟩
          · exact absurd (Or.inl ⟨x, d, h⟩) hin
        · rcases List.mem_cons.mp h with h | h
          · exact Or.inr ⟨x, h.symm⟩
          · exact absurd (Or.inr ⟨x, h⟩) hin
      have hs : ∃ x ∈ times [o], (l.step o).resultId = some x := by
        rcases ho with ⟨x, d, rfl⟩ | ⟨x, rfl⟩
        · exact ⟨x, by simp [times], rfl⟩
        · exact ⟨x, by simp [times], rfl⟩
      rcases run_id t (l.step o) with ⟨h1, _⟩ | ⟨x, hx, h⟩
      · obtain ⟨x, hx, hx'⟩ := hs
        exact ⟨x, by simp [hx], by rw [h1]; exact hx'⟩
      · exact ⟨x, by simp [hx], h⟩

theorem get_full_id {l : DList} {prev : Option ResultId} {ds : List Diag} {id : ResultId}
    (h : l.get prev = .full ds id) : l.resultId = id ∧ l.diags = ds := by
  unfold DList.get at h
  cases prev with
  | none => simp at h; exact ⟨h.2, h.1⟩
  | some p =>
    simp only at h
    split at h
    · cases h
    · simp at h; exact ⟨h.2, h.1⟩

theorem ids_fresh {a b : List Op} (hc : ClockOk (a ++ b)) {t : Nat} (ht : t ∈ times b) :
    (({} : DList).run a).resultId ≠ some t := by
  intro h
  unfold ClockOk at hc
  rw [times_append, List.pairwise_append] at hc
  rcases run_id a {} with ⟨h1, _⟩ | ⟨x, hx, h1⟩
  · rw [h1] at h; cases h
  · rw [h1] at h
    cases h
    exact Nat.lt_irrefl _ (hc.2.2 t hx t ht)

/-- **C07, partial** (clock assumed to never repeat a value). After any history `a` let a
pull be answered by a full report `ds` with id `id`; let any history `b` follow. If the
pull for `id` is now answered 'unchanged' then the diagnostics are still `ds`. -/
theorem C07_unchanged_sound_partial (a b : List Op) (hc : ClockOk (a ++ b))
    (prev : Option ResultId) (ds : List Diag) (id id' : ResultId)
    (h1 : (({} : DList).run a).get prev = .full ds id)
    (h2 : (({} : DList).run (a ++ b)).get (some id) = .unchanged id') :
    (({} : DList).run (a ++ b)).diags = ds := by
  obtain ⟨hid, hds⟩ := get_full_id h1
  rw [run_append] at h2 ⊢
  rcases run_id b (({} : DList).run a) with ⟨k1, k2⟩ | ⟨t, ht, hk⟩
  · rw [k2]; exact hds
  · exfalso
    unfold DList.get at h2
    simp only at h2
    split at h2
    · rename_i he
      rw [hk] at he
      exact ids_fresh hc ht (hid.trans he.symm)
    · cases h2

/-- **C07, partial** (same clock assumption). Once a diagnostic was added or the list was
cleared, the next pull with the old id is answered by a full report with the current
diagnostics. -/
theorem C07_change_visible_partial (a b : List Op) (hc : ClockOk (a ++ b))
    (prev : Option ResultId) (ds : List Diag) (id : ResultId)
    (h1 : (({} : DList).run a).get prev = .full ds id)
    (hb : (∃ t d, .add t d ∈ b) ∨ (∃ t, .clear t ∈ b)) :
    ∃ id', (({} : DList).run (a ++ b)).get (some id) =
      .full (({} : DList).run (a ++ b)).diags id' := by
  obtain ⟨hid, hds⟩ := get_full_id h1
  rw [run_append]
  obtain ⟨t, ht, hk⟩ := run_reset b (({} : DList).run a) hb
  refine ⟨some t, ?_⟩
  unfold DList.get
  simp only
  rw [if_neg, hk]
  rw [hk]
  intro he
  exact ids_fresh hc ht (hid.trans he.symm)

/-- Without the assumption on the clock the property fails: two additions with the same
time stamp make a stale answer. -/
theorem C07_clock_violated :
    ∃ (a b : List Op) (ds : List Diag) (id id' : ResultId),
      (({} : DList).run a).get none = .full ds id ∧
      (({} : DList).run (a ++ b)).get (some id) = .unchanged id' ∧
      (({} : DList).run (a ++ b)).diags ≠ ds :=
  ⟨[.add 5 ⟨1, 1, .error, [], []⟩], [.add 5 ⟨2, 2, .error, [], []⟩], [⟨1, 1, .error, [], []⟩],
    some 5, some 5, by decide, by decide, by decide⟩

example : ClockOk ([.add 5 ⟨1, 1, .error, [], []⟩, .flush] ++
    [.deleteRelated 7 ⟨"f", 9⟩, .clear 9]) ∧
    (({} : DList).run [.add 5 ⟨1, 1, .error, [], []⟩, .flush]).get none =
      .full [⟨1, 1, .error, [], []⟩] (some 5) := by
  constructor
  · unfold ClockOk; decide
  · decide

/-! ## C08: published diagnostics -/

/-- What the client shows for a document: the last report it got (nothing at first). -/
def view (log : List (Path × List Diag)) (p : Path) : List Diag :=
  match (log.filter (·.1 = p)).getLast? with
  | some r => r.2
  | none => []

/-- The reports for `p` in a log. -/
def reportsFor (log : List (Path × List Diag)) (p : Path) : List (List Diag) :=
  (log.filter (·.1 = p)).map (·.2)

/-- Every flush of the history happens while somebody is subscribed. -/
def FlushedWhileSubscribed : Bool → List HOp → Prop
  | _, [] => True
  | b, .flush :: ops => b = true ∧ FlushedWhileSubscribed b ops
  | _, .subscribe :: ops => FlushedWhileSubscribed true ops
  | _, .unsubscribe :: ops => FlushedWhileSubscribed false ops
  | b, .create _ :: ops => FlushedWhileSubscribed b ops
  | b, .add _ _ _ :: ops => FlushedWhileSubscribed b ops
  | b, .clearPath _ _ :: ops => FlushedWhileSubscribed b ops

theorem view_snoc (log : List (Path × List Diag)) (p q : Path) (ds : List Diag) :
    view (log ++ [(p, ds)]) q = if q = p then ds else view log q := by
  unfold view
  rw [List.filter_append]
  by_cases h : q = p
  · subst h; simp
  · have : ¬ p = q := fun h' => h h'.symm
    simp [h, this]

/-- Clean lists have been delivered; paths without list have never been reported. -/
structure HInv (h : Handler) : Prop where
  clean : ∀ p, (h.lists p).dirty = false → view h.log p = (h.lists p).diags
  nolist : ∀ p, p ∉ h.keys → h.lists p = {}
  nodup : h.keys.Nodup

theorem deleteRelated_dirty (l : DList) (now : Nat) (r : Related)
    (h : (l.deleteRelated now r).dirty = false) :
    l.dirty = false ∧ (l.deleteRelated now r).diags = l.diags := by
  unfold DList.deleteRelated at *
  cases hd : deleteFirst r.range l.diags with
  | none => simp only [hd] at h ⊢; exact ⟨h, trivial⟩
  | some ds => simp only [hd, DList.reset] at h; cases h

theorem hinv_deleteAllRelated (rs : List Related) (h : Handler) (now : Nat) (hi : HInv h) :
    HInv (h.deleteAllRelated now rs) ∧ (h.deleteAllRelated now rs).listening = h.listening ∧
    (h.deleteAllRelated now rs).log = h.log := by
  induction rs generalizing h with
  | nil => exact ⟨hi, rfl, rfl⟩
  | cons r t ih =>
    have hstep : h.deleteAllRelated now (r :: t) =
      (if r.file ∈ h.keys then h.set r.file ((h.lists r.file).deleteRelated now r)
        else h).deleteAllRelated now t := rfl
    rw [hstep]
    split
    · rename_i hk
      refine ih _ ?_
      refine ⟨?_, ?_, hi.nodup⟩
      · intro p hd
        simp only [Handler.set] at hd ⊢
        split
        · rename_i hp; subst hp
          simp only [if_true] at hd
          obtain ⟨h1, h2⟩ := deleteRelated_dirty _ _ _ hd
          rw [h2]; exact hi.clean _ h1
        · rename_i hp
          rw [if_neg hp] at hd
          exact hi.clean p hd
      · intro p hp
        simp only [Handler.set]
        rw [if_neg (fun he => hp (by rw [he]; exact hk))]
        exact hi.nolist p hp
    · exact ih h hi

theorem deleteAllRelated_listening (now : Nat) (rs : List Related) (g : Handler) :
    (g.deleteAllRelated now rs).listening = g.listening := by
  induction rs generalizing g with
  | nil => rfl
  | cons r u ihr =>
    have hs : g.deleteAllRelated now (r :: u) =
      (if r.file ∈ g.keys then g.set r.file ((g.lists r.file).deleteRelated now r)
        else g).deleteAllRelated now u := rfl
    rw [hs, ihr]
    split <;> rfl

theorem flushOne_clean (h : Handler) (k : Path) (hd : (h.lists k).dirty = false) :
    h.flushOne k = h := by
  have hf : (h.lists k).flush = (none, h.lists k) := by simp [DList.flush, hd]
  unfold Handler.flushOne
  rw [hf]
  simp only [Handler.set]
  congr
  funext q
  split
  · rename_i hq; rw [hq]
  · rfl

theorem flushOne_dirty (h : Handler) (k : Path) (hd : (h.lists k).dirty = true)
    (hl : h.listening = true) :
    h.flushOne k = { h with
      lists := fun q => if q = k then { h.lists k with dirty := false } else h.lists q
      log := h.log ++ [(k, (h.lists k).diags)] } := by
  have hf : (h.lists k).flush = (some (h.lists k).diags, { h.lists k with dirty := false }) := by
    simp [DList.flush, hd]
  unfold Handler.flushOne
  rw [hf]
  simp only [hl, if_true, Handler.set]

/-- The loop of `Flush` over a list of keys. -/
theorem hinv_flushKeys (ks : List Path) (h : Handler) (hl : h.listening = true) (hi : HInv h)
    (hks : ∀ p ∈ ks, p ∈ h.keys) :
    HInv (ks.foldl Handler.flushOne h) ∧ (ks.foldl Handler.flushOne h).listening = true ∧
    (ks.foldl Handler.flushOne h).keys = h.keys ∧
    (∀ p, ((ks.foldl Handler.flushOne h).lists p).diags = (h.lists p).diags) ∧
    (∀ p ∈ ks, ((ks.foldl Handler.flushOne h).lists p).dirty = false) ∧
    (∀ p, (h.lists p).dirty = false → ((ks.foldl Handler.flushOne h).lists p).dirty = false) ∧
    (∀ p, (h.lists p).dirty = false →
      reportsFor (ks.foldl Handler.flushOne h).log p = reportsFor h.log p) := by
  induction ks generalizing h with
  | nil => exact ⟨hi, hl, rfl, fun _ => rfl, by simp, fun _ h => h, fun _ _ => rfl⟩
  | cons k t ih =>
    simp only [List.foldl_cons]
    have hk : k ∈ h.keys := hks k (by simp)
    cases hd : (h.lists k).dirty with
    | false =>
      rw [flushOne_clean h k hd]
      obtain ⟨a, b, c, d, e, f, g⟩ := ih h hl hi (fun p hp => hks p (by simp [hp]))
      refine ⟨a, b, c, d, ?_, f, g⟩
      intro p hp
      rcases List.mem_cons.mp hp with rfl | hp
      · exact f p hd
      · exact e p hp
    | true =>
      have heq := flushOne_dirty h k hd hl
      have hls : ∀ p, (h.flushOne k).lists p =
          if p = k then { h.lists k with dirty := false } else h.lists p := by
        intro p; rw [heq]
      have hlog : (h.flushOne k).log = h.log ++ [(k, (h.lists k).diags)] := by rw [heq]
      have hkeys : (h.flushOne k).keys = h.keys := by rw [heq]
      have hlis : (h.flushOne k).listening = true := by rw [heq]; exact hl
      have hi' : HInv (h.flushOne k) := by
        refine ⟨?_, ?_, by rw [hkeys]; exact hi.nodup⟩
        · intro p hp
          rw [hls] at hp ⊢
          rw [hlog, view_snoc]
          split
          · rename_i hpk; subst hpk; rfl
          · rename_i hpk
            rw [if_neg hpk] at hp
            exact hi.clean p hp
        · intro p hp
          rw [hkeys] at hp
          rw [hls, if_neg (fun he => hp (by rw [he]; exact hk))]
          exact hi.nolist p hp
      obtain ⟨a, b, c, d, e, f, g⟩ :=
        ih _ hlis hi' (fun p hp => by rw [hkeys]; exact hks p (by simp [hp]))
      refine ⟨a, b, by rw [c, hkeys], ?_, ?_, ?_, ?_⟩
      · intro p
        rw [d, hls]
        split
        · rename_i hp; rw [hp]
        · rfl
      · intro p hp
        rcases List.mem_cons.mp hp with rfl | hp
        · exact f p (by rw [hls]; simp)
        · exact e p hp
      · intro p hp
        apply f
        rw [hls]
        split
        · rfl
        · exact hp
      · intro p hp
        have hpk : p ≠ k := by intro he; rw [he, hd] at hp; cases hp
        rw [g p (by rw [hls, if_neg hpk]; exact hp), hlog]
        have hkp : ¬ k = p := fun he => hpk he.symm
        simp [reportsFor, hkp]

theorem hinv_run (ops : List HOp) (h : Handler) (hi : HInv h)
    (hf : FlushedWhileSubscribed h.listening ops) : HInv (h.run ops) := by
  induction ops generalizing h with
  | nil => exact hi
  | cons o t ih =>
    have hr : h.run (o :: t) = (h.step o).run t := rfl
    rw [hr]
    cases o with
    | create p =>
      have hf' : FlushedWhileSubscribed h.listening t := hf
      simp only [Handler.step]
      split
      · exact ih h hi hf'
      · rename_i hp
        refine ih _ ?_ hf'
        have hnone := hi.nolist p hp
        refine ⟨?_, ?_, ?_⟩
        · intro q hq
          simp only [Handler.set] at hq ⊢
          split
          · rename_i hqp; subst hqp
            have := hi.clean q (by rw [hnone])
            rw [this, hnone]
          · rename_i hqp
            rw [if_neg hqp] at hq
            exact hi.clean q hq
        · intro q hq
          simp only [Handler.set, List.mem_append, List.mem_singleton, not_or] at hq ⊢
          rw [if_neg hq.2]; exact hi.nolist q hq.1
        · simp only
          rw [List.nodup_append]
          refine ⟨hi.nodup, by simp, ?_⟩
          intro a ha b hb
          simp at hb; subst hb
          intro hab; subst hab; exact hp ha
    | add p now d =>
      have hf' : FlushedWhileSubscribed h.listening t := hf
      simp only [Handler.step]
      split
      · rename_i hp
        refine ih _ ?_ hf'
        refine ⟨?_, ?_, hi.nodup⟩
        · intro q hq
          simp only [Handler.set] at hq ⊢
          split
          · rename_i hqp; subst hqp
            simp [DList.add, DList.reset] at hq
          · rename_i hqp
            rw [if_neg hqp] at hq
            exact hi.clean q hq
        · intro q hq
          simp only [Handler.set] at hq ⊢
          rw [if_neg (fun he => hq (by rw [he]; exact hp))]
          exact hi.nolist q hq
      · exact ih h hi hf'
    | clearPath p now =>
      have hf' : FlushedWhileSubscribed h.listening t := hf
      simp only [Handler.step]
      split
      · rename_i hp
        have hi2 : HInv (h.set p ((h.lists p).clear now)) := by
          refine ⟨?_, ?_, hi.nodup⟩
          · intro q hq
            simp only [Handler.set] at hq ⊢
            split
            · rename_i hqp; subst hqp
              simp [DList.clear, DList.reset] at hq
            · rename_i hqp
              rw [if_neg hqp] at hq
              exact hi.clean q hq
          · intro q hq
            simp only [Handler.set] at hq ⊢
            rw [if_neg (fun he => hq (by rw [he]; exact hp))]
            exact hi.nolist q hq
        obtain ⟨a, b, c⟩ := hinv_deleteAllRelated ((h.lists p).diags.flatMap (·.related)) _ now hi2
        refine ih _ a ?_
        rw [b]; exact hf'
      · exact ih h hi hf'
    | subscribe => exact ih _ ⟨hi.clean, hi.nolist, hi.nodup⟩ hf
    | unsubscribe => exact ih _ ⟨hi.clean, hi.nolist, hi.nodup⟩ hf
    | flush =>
      obtain ⟨hl, hf'⟩ := hf
      obtain ⟨a, b, c, d, e, f, g⟩ := hinv_flushKeys h.keys h hl hi (fun p hp => hp)
      refine ih _ a ?_
      have : (h.step .flush).listening = h.listening := by rw [hl]; exact b
      rw [this]; exact hf'

theorem hinv_init : HInv {} := ⟨fun _ _ => rfl, fun _ _ => rfl, by simp⟩

theorem run_append' (h : Handler) (a b : List HOp) : h.run (a ++ b) = (h.run a).run b := by
  simp [Handler.run]

theorem flushed_append {b : Bool} {a c : List HOp} (h : FlushedWhileSubscribed b (a ++ c)) :
    FlushedWhileSubscribed b a := by
  induction a generalizing b with
  | nil => trivial
  | cons o t ih =>
    cases o with
    | flush => exact ⟨h.1, ih h.2⟩
    | _ => exact ih h

theorem listening_of_flush (ops : List HOp) (h : Handler)
    (hf : FlushedWhileSubscribed h.listening (ops ++ [.flush])) (hi : HInv h) :
    (h.run ops).listening = true := by
  induction ops generalizing h with
  | nil => exact hf.1
  | cons o t ih =>
    have hr : h.run (o :: t) = (h.step o).run t := rfl
    rw [hr]
    have hi' : HInv (h.step o) := by
      have := hinv_run [o] h hi (by
        have : FlushedWhileSubscribed h.listening ([o] ++ (t ++ [.flush])) := hf
        exact flushed_append this)
      exact this
    refine ih _ ?_ hi'
    cases o with
    | create p => simp only [Handler.step]; split <;> exact hf
    | add p now d => simp only [Handler.step]; split <;> exact hf
    | clearPath p now =>
      simp only [Handler.step]
      split
      · rename_i hp
        rw [deleteAllRelated_listening]; exact hf
      · exact hf
    | subscribe => exact hf
    | unsubscribe => exact hf
    | flush =>
      obtain ⟨hl, hf'⟩ := hf
      obtain ⟨a, b, c, d, e, f, g⟩ := hinv_flushKeys h.keys h hl hi (fun p hp => hp)
      have : (h.step .flush).listening = h.listening := by rw [hl]; exact b
      rw [this]; exact hf'

/-- **C08, partial** In every history in which somebody is subscribed whenever the server
flushes, after a flush the client's view of every document is the current list of
diagnostics. Missing: changes flushed while nobody is subscribed are lost, see
`C08_late_subscriber_violated`. -/
theorem C08_view_current_partial (ops : List HOp)
    (hf : FlushedWhileSubscribed false (ops ++ [.flush])) (p : Path) :
    view (({} : Handler).run (ops ++ [.flush])).log p =
      ((({} : Handler).run (ops ++ [.flush])).lists p).diags := by
  have hi := hinv_run ops {} hinv_init (flushed_append hf)
  have hl := listening_of_flush ops {} hf hinv_init
  rw [run_append']
  obtain ⟨a, b, c, d, e, f, g⟩ := hinv_flushKeys _ _ hl hi (fun p hp => hp)
  apply a.clean
  by_cases hp : p ∈ (({} : Handler).run ops).keys
  · exact e p hp
  · apply f
    rw [hi.nolist p hp]

theorem quiet_run (p : Path) (b : List HOp) (h : Handler) (hi : HInv h)
    (hf : FlushedWhileSubscribed h.listening b)
    (hb : ∀ o ∈ b, (∀ now d, o ≠ .add p now d) ∧ (∀ q now, o ≠ .clearPath q now))
    (hd : (h.lists p).dirty = false) :
    ((h.run b).lists p).dirty = false ∧ reportsFor (h.run b).log p = reportsFor h.log p := by
  induction b generalizing h with
  | nil => exact ⟨hd, rfl⟩
  | cons o t ih =>
    have hr : h.run (o :: t) = (h.step o).run t := rfl
    rw [hr]
    have hi' : HInv (h.step o) :=
      hinv_run [o] h hi (flushed_append (c := t) (show FlushedWhileSubscribed h.listening ([o] ++ t) from hf))
    have hb' := fun o' (ho' : o' ∈ t) => hb o' (by simp [ho'])
    cases o with
    | create q =>
      simp only [Handler.step] at hi' ⊢
      split at hi' <;> rename_i hq
      · rw [if_pos hq]; exact ih h hi hf hb' hd
      · rw [if_neg hq]
        refine ih _ hi' hf hb' ?_
        simp only [Handler.set]
        split
        · rfl
        · exact hd
    | add q now d =>
      have hqp : q ≠ p := fun he => (hb (.add q now d) (by simp)).1 now d (by rw [he])
      simp only [Handler.step] at hi' ⊢
      split at hi' <;> rename_i hq
      · rw [if_pos hq]
        refine ih _ hi' hf hb' ?_
        simp only [Handler.set]
        rw [if_neg (fun he => hqp he.symm)]; exact hd
      · rw [if_neg hq]; exact ih h hi hf hb' hd
    | clearPath q now => exact absurd rfl ((hb (.clearPath q now) (by simp)).2 q now)
    | subscribe => exact ih _ hi' hf hb' hd
    | unsubscribe => exact ih _ hi' hf hb' hd
    | flush =>
      obtain ⟨hl, hf'⟩ := hf
      obtain ⟨_, b', _, _, _, f, g⟩ := hinv_flushKeys h.keys h hl hi (fun p hp => hp)
      have hl' : (h.step .flush).listening = h.listening := by rw [hl]; exact b'
      obtain ⟨r1, r2⟩ := ih (h.step .flush) hi' (by rw [hl']; exact hf') hb' (f p hd)
      exact ⟨r1, by rw [r2]; exact g p hd⟩

/-- **C08** Nothing is published for a document between two flushes unless a diagnostic of
it was reported or some document was cleared in between (clearing a document may remove
related diagnostics of others). -/
theorem C08_no_republication (ops b : List HOp) (p : Path)
    (hf : FlushedWhileSubscribed false (ops ++ ([.flush] ++ (b ++ [.flush]))))
    (hb : ∀ o ∈ b, (∀ now d, o ≠ .add p now d) ∧ (∀ q now, o ≠ .clearPath q now)) :
    reportsFor (({} : Handler).run (ops ++ ([.flush] ++ (b ++ [.flush])))).log p =
      reportsFor (({} : Handler).run (ops ++ [.flush])).log p := by
  have hf1 : FlushedWhileSubscribed false (ops ++ [.flush]) := by
    rw [← List.append_assoc] at hf; exact flushed_append hf
  have hi := hinv_run ops {} hinv_init (flushed_append hf)
  have hl := listening_of_flush ops {} hf1 hinv_init
  obtain ⟨a, bb, c, d, e, f, g⟩ := hinv_flushKeys _ _ hl hi (fun p hp => hp)
  have hclean : ((({} : Handler).run (ops ++ [.flush])).lists p).dirty = false := by
    rw [run_append']
    by_cases hp : p ∈ (({} : Handler).run ops).keys
    · exact e p hp
    · apply f
      rw [hi.nolist p hp]
  rw [← List.append_assoc, run_append']
  have hi2 := hinv_run (ops ++ [.flush]) {} hinv_init hf1
  have hlist : (({} : Handler).run (ops ++ [.flush])).listening = true := by
    rw [run_append']; exact bb
  refine (quiet_run p (b ++ [.flush]) _ hi2 ?_ ?_ hclean).2
  · rw [hlist]
    have key : ∀ (x : List HOp) (h : Handler), HInv h → FlushedWhileSubscribed h.listening (x ++ ([.flush] ++ (b ++ [.flush]))) →
        FlushedWhileSubscribed (h.run x).listening ([.flush] ++ (b ++ [.flush])) := by
      intro x
      induction x with
      | nil => intro h _ hh; exact hh
      | cons o t ih =>
        intro h hih hh
        have hr : h.run (o :: t) = (h.step o).run t := rfl
        rw [hr]
        have hi' : HInv (h.step o) :=
          hinv_run [o] h hih (flushed_append (c := t ++ ([.flush] ++ (b ++ [.flush])))
            (show FlushedWhileSubscribed h.listening ([o] ++ (t ++ _)) from hh))
        refine ih _ hi' ?_
        cases o with
        | create q => simp only [Handler.step]; split <;> exact hh
        | add q now d => simp only [Handler.step]; split <;> exact hh
        | clearPath q now =>
          simp only [Handler.step]
          split
          · rename_i hq
            rw [deleteAllRelated_listening]; exact hh
          · exact hh
        | subscribe => exact hh
        | unsubscribe => exact hh
        | flush =>
          obtain ⟨hl, hf'⟩ := hh
          obtain ⟨_, b', _⟩ := hinv_flushKeys h.keys h hl hih (fun p hp => hp)
          have : (h.step .flush).listening = h.listening := by rw [hl]; exact b'
          rw [this]; exact hf'
    have := key ops {} hinv_init hf
    rw [hl] at this
    exact this.2
  · intro o ho
    rcases List.mem_append.mp ho with ho | ho
    · exact hb o ho
    · simp at ho; subst ho; simp

/-- **C08 is violated** for a client that subscribes after a flush: it never sees the
diagnostics although they are still current. -/
theorem C08_late_subscriber_violated :
    ∃ (ops : List HOp) (p : Path),
      view (({} : Handler).run (ops ++ [.subscribe, .flush])).log p ≠
        ((({} : Handler).run (ops ++ [.subscribe, .flush])).lists p).diags :=
  ⟨[.create "a", .add "a" 1 ⟨1, 1, .error, [], []⟩, .flush], "a", by decide⟩

example : FlushedWhileSubscribed false
    ([.subscribe, .create "a", .add "a" 1 ⟨1, 1, .error, [⟨"b", 4⟩], []⟩, .create "b",
      .add "b" 2 ⟨2, 4, .error, [], []⟩, .flush, .clearPath "a" 3] ++ [.flush]) :=
  ⟨rfl, rfl, trivial⟩

/-- In that history clearing `a` also removes the related diagnostic of `b`, and the
client gets to know. -/
example : (({} : Handler).run
    ([.subscribe, .create "a", .add "a" 1 ⟨1, 1, .error, [⟨"b", 4⟩], []⟩, .create "b",
      .add "b" 2 ⟨2, 4, .error, [], []⟩, .flush, .clearPath "a" 3] ++ [.flush])).log =
    [("a", [⟨1, 1, .error, [⟨"b", 4⟩], []⟩]), ("b", [⟨2, 4, .error, [], []⟩]), ("a", []), ("b", [])] := by
  decide

/-! ## C09: warnings promoted to errors -/

/-- The debug pragma text suppresses promotion for a category: one of its blank-separated
words is `Wnoerror=<category>` or `Wnoerror=all`. -/
def Suppresses (dbg category : Str) : Prop :=
  IsField isSpace ("Wnoerror=".toList ++ category) dbg ∨
  IsField isSpace ("Wnoerror=".toList ++ "all".toList) dbg

theorem suppressed_iff (category dbg : Str) :
    suppressed category dbg = true ↔ Suppresses dbg category := by
  unfold suppressed Suppresses
  rw [List.any_eq_true]
  constructor
  · rintro ⟨f, hf, h⟩
    cases hc : cut '=' f with
    | none => simp [hc] at h
    | some kv =>
      obtain ⟨k, v⟩ := kv
      obtain ⟨rfl, _⟩ := cut_eq_some.mp hc
      simp only [hc, Bool.and_eq_true, Bool.or_eq_true, decide_eq_true_eq] at h
      obtain ⟨rfl, rfl | rfl⟩ := h
      · left; exact (mem_fieldsBy _ _).mp hf
      · right; exact (mem_fieldsBy _ _).mp hf
  · have hcut : ∀ v, cut '=' ("Wnoerror=".toList ++ v) = some ("Wnoerror".toList, v) := by
      intro v
      exact cut_eq_some.mpr ⟨by simp, by decide⟩
    rintro (h | h)
    · refine ⟨_, (mem_fieldsBy _ _).mpr h, ?_⟩
      rw [hcut]; simp
    · refine ⟨_, (mem_fieldsBy _ _).mpr h, ?_⟩
      rw [hcut]; simp

/-- **C09** A warning with a category is shown as an error, unless the file's debug pragma
names its category or `all`. -/
theorem C09_warning_promoted (d : Diag) (pragma : Option Str)
    (hw : d.severity = .warning) (hc : d.werrorCategory ≠ []) :
    (reportedSeverity d pragma = .error ↔ ¬ ∃ dbg, pragma = some dbg ∧ Suppresses dbg d.werrorCategory)
    ∧ (reportedSeverity d pragma = .warning ↔
        ∃ dbg, pragma = some dbg ∧ Suppresses dbg d.werrorCategory) := by
  unfold reportedSeverity
  rw [if_pos ⟨hw, hc⟩]
  cases pragma with
  | none => simp
  | some dbg =>
    simp only [Option.some.injEq, exists_eq_left']
    by_cases hs : suppressed d.werrorCategory dbg = true
    · have hs' := (suppressed_iff _ _).mp hs
      simp [hs, hs', hw]
    · have hs' : ¬ Suppresses dbg d.werrorCategory := fun h => hs ((suppressed_iff _ _).mpr h)
      simp [hs, hs']

/-- **C09** Every other diagnostic keeps its severity, whatever the pragma says. -/
theorem C09_others_unchanged (d : Diag) (pragma : Option Str)
    (h : d.severity ≠ .warning ∨ d.werrorCategory = []) :
    reportedSeverity d pragma = d.severity := by
  unfold reportedSeverity
  rw [if_neg]
  rintro ⟨h1, h2⟩
  rcases h with h | h
  · exact h h1
  · exact h2 h

/-- A pragma with several words. -/
example : reportedSeverity ⟨1, 1, .warning, [], "semicolon".toList⟩
    (some "x Wnoerror=comma  Wnoerror=semicolon".toList) = .warning := by decide
example : reportedSeverity ⟨1, 1, .warning, [], "semicolon".toList⟩
    (some "Wnoerror=semicolons nWnoerror=all".toList) = .error := by decide

end Verif.Diagnostics
