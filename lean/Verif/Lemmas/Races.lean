import Verif.Props.Async
import Verif.Props.RWLockRequests
import Verif.Spec.Races

/-!
# Lemmas about the lock discipline
-/
namespace Verif.Races

def arrivals (log : List Event) : List Kind :=
  log.filterMap (fun e => match e with | .arrive k => some k | _ => none)

theorem arrivals_append (log : List Event) (e : Event) :
    arrivals (log ++ [e]) = arrivals log ++ (match e with | .arrive k => [k] | _ => []) := by
  cases e <;> simp [arrivals]

/-- What holds for the request `i`. -/
structure ThreadOk (s : State) (i : Nat) (t : Thread) : Prop where
  split : t.done ++ t.prog = program t.kind
  rd : ∀ l, (s.rd l).count i + t.done.count (.runlock l) = t.done.count (.rlock l)
  wr : ∀ l, (if s.wr l = some i then 1 else 0) + t.done.count (.unlock l) = t.done.count (.lock l)
  busy : t.busy = true → (∃ v r, t.prog = .read v :: r ∨ t.prog = .write v :: r) ∧
    ∃ q, s.async.reqs[i]? = some q ∧ q.started = true ∧ q.replied = false

structure Inv (log : List Event) (s : State) : Prop where
  kinds : s.threads.map Thread.kind = arrivals log
  async : ∃ l, Async.Run l s.async ∧ Async.kinds l = (arrivals log).map Kind.streaming
  threads : ∀ i t, s.threads[i]? = some t → ThreadOk s i t
  excl : ∀ l i, s.wr l = some i → s.rd l = []
  rdRange : ∀ l, ∀ i ∈ s.rd l, i < s.threads.length
  wrRange : ∀ l i, s.wr l = some i → i < s.threads.length

theorem Inv.len {log : List Event} {s : State} (h : Inv log s) : s.threads.length = s.async.reqs.length := by
  obtain ⟨l, h1, h2⟩ := h.async
  have := (Async.inv_of_run h1).sameKinds
  have e1 := congrArg List.length this
  have e2 := congrArg List.length h2
  have e3 := congrArg List.length h.kinds
  simp at e1 e2 e3
  omega

theorem getElem?_set_cases {α : Type} {l : List α} {i j : Nat} {x y : α} (h : (l.set i x)[j]? = some y) :
    (j = i ∧ y = x) ∨ (j ≠ i ∧ l[j]? = some y) := by
  by_cases e : i = j
  · subst e
    rw [List.getElem?_set_self'] at h
    cases hl : l[i]? with
    | none => simp [hl] at h
    | some z => simp [hl] at h; exact .inl ⟨rfl, h.symm⟩
  · rw [List.getElem?_set_ne e] at h
    exact .inr ⟨fun e' => e e'.symm, h⟩

theorem map_set_kind (ts : List Thread) (i : Nat) (t t' : Thread) (h : ts[i]? = some t) (hk : t'.kind = t.kind) :
    (ts.set i t').map Thread.kind = ts.map Thread.kind := by
  rw [List.map_set, hk]
  apply List.ext_getElem?
  intro j
  by_cases e : i = j
  · subst e
    rw [List.getElem?_set_self']
    simp [h]
  · rw [List.getElem?_set_ne e]

/-- The events of the handler keep the facts about a request. -/
theorem ThreadOk.async {s : State} {i : Nat} {t : Thread} (h : ThreadOk s i t) (a : Async.State)
    (ts : List Thread)
    (hb : t.busy = true → ∀ q, s.async.reqs[i]? = some q → q.started = true → q.replied = false →
      ∃ q', a.reqs[i]? = some q' ∧ q'.started = true ∧ q'.replied = false) :
    ThreadOk { s with async := a, threads := ts } i t := by
  refine ⟨h.split, h.rd, h.wr, fun hbt => ⟨(h.busy hbt).1, ?_⟩⟩
  obtain ⟨q, h1, h2, h3⟩ := (h.busy hbt).2
  exact hb hbt q h1 h2 h3

theorem async_arrive {s a : Async.State} {b : Bool} (h : Async.Step s (.arrive b) a) (i : Nat) (q : Async.Req)
    (hq : s.reqs[i]? = some q) : a.reqs[i]? = some q := by
  have hi := (List.getElem?_eq_some_iff.mp hq).1
  cases h with
  | arriveStreaming =>
    unfold Async.close
    split <;> simp only <;> rw [List.getElem?_append_left hi, hq]
  | arrive => simp only; rw [List.getElem?_append_left hi, hq]

theorem async_start {s a : Async.State} {j : Nat} (h : Async.Step s (.start j) a) (i : Nat) (q : Async.Req)
    (hq : s.reqs[i]? = some q) (hs : q.started = true) : a.reqs[i]? = some q := by
  cases h with
  | start _ q' hq' hn hc =>
    have : j ≠ i := by
      rintro rfl
      rw [hq] at hq'
      injection hq' with e
      rw [← e, hs] at hn
      exact absurd hn (by simp)
    simp only
    rw [List.getElem?_set_ne this, hq]

theorem async_reply {s a : Async.State} {j : Nat} (h : Async.Step s (.reply j) a) (i : Nat) (q : Async.Req)
    (hq : s.reqs[i]? = some q) (hji : j ≠ i) : a.reqs[i]? = some q := by
  cases h with
  | replyStreaming =>
    simp only
    rw [List.getElem?_set_ne hji, hq]
  | reply =>
    unfold Async.close
    split <;> simp only <;> rw [List.getElem?_set_ne hji, hq]

/-- A step of request `i` that changes the locks only on behalf of `i`. -/
theorem inv_set {log : List Event} {s : State} (h : Inv log s) {e : Event} (he : arrivals (log ++ [e]) = arrivals log)
    {i : Nat} {t t' : Thread} (ht : s.threads[i]? = some t) (hk : t'.kind = t.kind) (rd : Lock → List Nat)
    (wr : Lock → Option Nat)
    (hrd : ∀ l j, j ≠ i → (rd l).count j = (s.rd l).count j)
    (hwr : ∀ l j, j ≠ i → (wr l = some j ↔ s.wr l = some j))
    (hx : ∀ l j, wr l = some j → rd l = [])
    (hok : ThreadOk { s with threads := s.threads.set i t', rd := rd, wr := wr } i t') :
    Inv (log ++ [e]) { s with threads := s.threads.set i t', rd := rd, wr := wr } := by
  have hi := (List.getElem?_eq_some_iff.mp ht).1
  refine ⟨?_, ?_, ?_, hx, ?_, ?_⟩
  · simp only; rw [he, map_set_kind _ _ _ _ ht hk, h.kinds]
  · rw [he]; exact h.async
  · intro j u hu
    rcases getElem?_set_cases hu with ⟨rfl, rfl⟩ | ⟨hne, hu⟩
    · exact hok
    · have o := h.threads j u hu
      refine ⟨o.split, ?_, ?_, o.busy⟩
      · intro l; simp only; rw [hrd l j hne]; exact o.rd l
      · intro l
        have := o.wr l
        simp only [hwr l j hne]
        exact this
  · intro l j hj
    simp only [List.length_set]
    by_cases e : j = i
    · subst e; exact hi
    · refine h.rdRange l j ?_
      rw [← List.count_pos_iff, ← hrd l j e, List.count_pos_iff]
      exact hj
  · intro l j hj
    simp only [List.length_set]
    by_cases e : j = i
    · subst e; exact hi
    · exact h.wrRange l j ((hwr l j e).mp hj)

theorem inv_exec {log : List Event} {s s' : State} (h : Inv log s) {i : Nat} {t : Thread} {q : Async.Req}
    (hq : s.async.reqs[i]? = some q) (hs : q.started = true) (hr : q.replied = false)
    (ht : s.threads[i]? = some t) (he : exec s i t = some s') : Inv (log ++ [.act i]) s' := by
  have ha : arrivals (log ++ [Event.act i]) = arrivals log := by simp [arrivals_append]
  have o := h.threads i t ht
  unfold exec at he
  split at he
  · cases he
  · -- rlock
    rename_i l p hp
    have hnb : t.busy = false := by
      by_contra hb
      obtain ⟨⟨v, r, h1 | h1⟩, _⟩ := o.busy (by simpa using hb) <;> simp [hp] at h1
    split at he
    · rename_i hw
      injection he with he; subst he
      refine inv_set h ha ht (t' := { t with done := t.done ++ [.rlock l], prog := p }) rfl _ s.wr ?_
        (fun _ _ _ => Iff.rfl) ?_ ?_
      · intro l' j hj
        by_cases e : l' = l
        · subst e
          rw [Function.update_self, List.count_cons_of_ne (Ne.symm hj)]
        · rw [Function.update_of_ne e]
      · intro l' j hj
        by_cases e : l' = l
        · subst e; rw [hw] at hj; cases hj
        · rw [Function.update_of_ne e]; exact h.excl l' j hj
      · refine ⟨by simpa [hp] using o.split, ?_, ?_, ?_⟩
        · intro l'
          have := o.rd l'
          by_cases e : l' = l
          · subst e; simp [List.count_append]; omega
          · simp [List.count_append, Function.update_of_ne e, Ne.symm e]; omega
        · intro l'
          have := o.wr l'
          simp [List.count_append]; omega
        · intro hb
          simp only at hb
          rw [hnb] at hb
          cases hb
    · cases he
  · -- runlock
    rename_i l p hp
    have hnb : t.busy = false := by
      by_contra hb
      obtain ⟨⟨v, r, h1 | h1⟩, _⟩ := o.busy (by simpa using hb) <;> simp [hp] at h1
    split at he
    · rename_i hm
      injection he with he; subst he
      refine inv_set h ha ht (t' := { t with done := t.done ++ [.runlock l], prog := p }) rfl _ s.wr ?_
        (fun _ _ _ => Iff.rfl) ?_ ?_
      · intro l' j hj
        by_cases e : l' = l
        · subst e
          rw [Function.update_self, List.count_erase_of_ne hj]
        · rw [Function.update_of_ne e]
      · intro l' j hj
        by_cases e : l' = l
        · subst e
          rw [h.excl l' j hj] at hm
          cases hm
        · rw [Function.update_of_ne e]; exact h.excl l' j hj
      · refine ⟨by simpa [hp] using o.split, ?_, ?_, ?_⟩
        · intro l'
          have := o.rd l'
          by_cases e : l' = l
          · subst e
            have hpos := List.count_pos_iff.mpr hm
            simp [List.count_append, List.count_erase_self]; omega
          · simp [List.count_append, Function.update_of_ne e, Ne.symm e]; omega
        · intro l'
          have := o.wr l'
          simp [List.count_append]; omega
        · intro hb
          simp only at hb
          rw [hnb] at hb
          cases hb
    · cases he
  · -- lock
    rename_i l p hp
    have hnb : t.busy = false := by
      by_contra hb
      obtain ⟨⟨v, r, h1 | h1⟩, _⟩ := o.busy (by simpa using hb) <;> simp [hp] at h1
    split at he
    · rename_i hw
      injection he with he; subst he
      refine inv_set h ha ht (t' := { t with done := t.done ++ [.lock l], prog := p }) rfl s.rd _
        (fun _ _ _ => rfl) ?_ ?_ ?_
      · intro l' j hj
        by_cases e : l' = l
        · subst e
          rw [Function.update_self, hw.1]
          simp [Ne.symm hj]
        · rw [Function.update_of_ne e]
      · intro l' j hj
        by_cases e : l' = l
        · subst e; exact hw.2
        · rw [Function.update_of_ne e] at hj; exact h.excl l' j hj
      · refine ⟨by simpa [hp] using o.split, ?_, ?_, ?_⟩
        · intro l'
          have := o.rd l'
          simp [List.count_append]; omega
        · intro l'
          have := o.wr l'
          by_cases e : l' = l
          · subst e
            simp [hw.1] at this
            simp [List.count_append]; omega
          · simp [List.count_append, Function.update_of_ne e, Ne.symm e]; omega
        · intro hb
          simp only at hb
          rw [hnb] at hb
          cases hb
    · cases he
  · -- unlock
    rename_i l p hp
    have hnb : t.busy = false := by
      by_contra hb
      obtain ⟨⟨v, r, h1 | h1⟩, _⟩ := o.busy (by simpa using hb) <;> simp [hp] at h1
    split at he
    · rename_i hw
      injection he with he; subst he
      refine inv_set h ha ht (t' := { t with done := t.done ++ [.unlock l], prog := p }) rfl s.rd _
        (fun _ _ _ => rfl) ?_ ?_ ?_
      · intro l' j hj
        by_cases e : l' = l
        · subst e
          rw [Function.update_self, hw]
          simp [Ne.symm hj]
        · rw [Function.update_of_ne e]
      · intro l' j hj
        by_cases e : l' = l
        · subst e; rw [Function.update_self] at hj; cases hj
        · rw [Function.update_of_ne e] at hj; exact h.excl l' j hj
      · refine ⟨by simpa [hp] using o.split, ?_, ?_, ?_⟩
        · intro l'
          have := o.rd l'
          simp [List.count_append]; omega
        · intro l'
          have := o.wr l'
          by_cases e : l' = l
          · subst e
            simp [hw] at this
            simp [List.count_append]; omega
          · simp [List.count_append, Function.update_of_ne e, Ne.symm e]; omega
        · intro hb
          simp only at hb
          rw [hnb] at hb
          cases hb
    · cases he
  · -- an access
    rename_i a p n1 n2 n3 n4 hp
    have hacc : ∃ v, a = .read v ∨ a = .write v := by
      cases a with
      | rlock l => exact absurd rfl (n1 l)
      | runlock l => exact absurd rfl (n2 l)
      | lock l => exact absurd rfl (n3 l)
      | unlock l => exact absurd rfl (n4 l)
      | read v => exact ⟨v, .inl rfl⟩
      | write v => exact ⟨v, .inr rfl⟩
    have hcount : ∀ l, [a].count (.rlock l) = 0 ∧ [a].count (.runlock l) = 0 ∧ [a].count (.lock l) = 0 ∧
        [a].count (.unlock l) = 0 := by
      intro l; obtain ⟨v, rfl | rfl⟩ := hacc <;> simp [List.count_singleton]
    split at he
    · injection he with he; subst he
      refine inv_set h ha ht (t' := { t with done := t.done ++ [a], prog := p, busy := false }) rfl s.rd s.wr
        (fun _ _ _ => rfl) (fun _ _ _ => Iff.rfl) h.excl ?_
      refine ⟨by simpa [hp] using o.split, ?_, ?_, fun hb => by cases hb⟩
      · intro l
        have := o.rd l
        obtain ⟨c1, c2, c3, c4⟩ := hcount l
        simp only [List.count_append, c1, c2]; omega
      · intro l
        have := o.wr l
        obtain ⟨c1, c2, c3, c4⟩ := hcount l
        simp only [List.count_append, c3, c4]; omega
    · injection he with he; subst he
      refine inv_set h ha ht (t' := { t with busy := true }) rfl s.rd s.wr
        (fun _ _ _ => rfl) (fun _ _ _ => Iff.rfl) h.excl ?_
      refine ⟨o.split, o.rd, o.wr, fun _ => ⟨?_, q, hq, hs, hr⟩⟩
      obtain ⟨v, rfl | rfl⟩ := hacc
      · exact ⟨v, p, .inl hp⟩
      · exact ⟨v, p, .inr hp⟩

theorem inv_skip {log : List Event} {s : State} (h : Inv log s) {i : Nat} {t : Thread} {p r : List Act}
    (ht : s.threads[i]? = some t) (hb : t.busy = false) (hp : t.prog = p ++ r) (hn : Neutral p) :
    Inv (log ++ [.skip i]) { s with threads := s.threads.set i { t with done := t.done ++ p, prog := r } } := by
  have ha : arrivals (log ++ [Event.skip i]) = arrivals log := by simp [arrivals_append]
  have o := h.threads i t ht
  refine inv_set h ha ht (t' := { t with done := t.done ++ p, prog := r }) rfl s.rd s.wr
    (fun _ _ _ => rfl) (fun _ _ _ => Iff.rfl) h.excl ?_
  refine ⟨by simpa [hp] using o.split, ?_, ?_, fun hbt => by simp only at hbt; rw [hb] at hbt; cases hbt⟩
  · intro l
    have := o.rd l
    have := (hn l).1
    simp only [List.count_append]; omega
  · intro l
    have := o.wr l
    have := (hn l).2
    simp only [List.count_append]; omega

theorem inv_of_run {log : List Event} {s : State} (h : Run log s) : Inv log s := by
  induction h with
  | init =>
    refine ⟨rfl, ⟨[], .init, rfl⟩, ?_, ?_, ?_, ?_⟩ <;> simp
  | @step log s e t hr hs ih =>
    cases hs with
    | arrive k a ha =>
      have hk : arrivals (log ++ [Event.arrive k]) = arrivals log ++ [k] := arrivals_append _ _
      refine ⟨?_, ?_, ?_, ih.excl, ?_, ?_⟩
      · rw [hk, ← ih.kinds]; simp
      · obtain ⟨l, h1, h2⟩ := ih.async
        refine ⟨_, h1.step ha, ?_⟩
        rw [Async.kinds_append, hk, h2]
        simp
      · intro i u hu
        simp only at hu
        by_cases hi : i < s.threads.length
        · rw [List.getElem?_append_left hi] at hu
          exact (ih.threads i u hu).async a _ (fun _ q h1 h2 h3 => ⟨q, async_arrive ha i q h1, h2, h3⟩)
        · have hlen := (List.getElem?_eq_some_iff.mp hu).1
          simp at hlen
          have : i = s.threads.length := by omega
          subst this
          simp at hu
          subst hu
          refine ⟨by simp, ?_, ?_, fun hb => by cases hb⟩
          · intro l
            have : List.count s.threads.length (s.rd l) = 0 := by
              rw [List.count_eq_zero]
              intro hm
              exact absurd (ih.rdRange l _ hm) (by omega)
            simp [this]
          · intro l
            have : s.wr l ≠ some s.threads.length := by
              intro hm
              exact absurd (ih.wrRange l _ hm) (by omega)
            simp [this]
      · intro l i hi; have := ih.rdRange l i hi; simp; omega
      · intro l i hi; have := ih.wrRange l i hi; simp; omega
    | start i a ha =>
      have hk : arrivals (log ++ [Event.start i]) = arrivals log := by simp [arrivals_append]
      refine ⟨by rw [hk]; exact ih.kinds, ?_, ?_, ih.excl, ih.rdRange, ih.wrRange⟩
      · obtain ⟨l, h1, h2⟩ := ih.async
        refine ⟨_, h1.step ha, ?_⟩
        rw [Async.kinds_append, hk, h2]
        simp
      · intro j u hu
        exact (ih.threads j u hu).async a _ (fun _ q h1 h2 h3 => ⟨q, async_start ha j q h1 h2, h2, h3⟩)
    | reply i a t ha ht hp =>
      have hk : arrivals (log ++ [Event.reply i]) = arrivals log := by simp [arrivals_append]
      refine ⟨by rw [hk]; exact ih.kinds, ?_, ?_, ih.excl, ih.rdRange, ih.wrRange⟩
      · obtain ⟨l, h1, h2⟩ := ih.async
        refine ⟨_, h1.step ha, ?_⟩
        rw [Async.kinds_append, hk, h2]
        simp
      · intro j u hu
        refine (ih.threads j u hu).async a _ (fun hb q h1 h2 h3 => ⟨q, async_reply ha j q h1 ?_, h2, h3⟩)
        rintro rfl
        rw [ht] at hu
        injection hu with e
        subst e
        obtain ⟨⟨v, r, h | h⟩, _⟩ := (ih.threads _ _ ht).busy hb <;> rw [hp] at h <;> cases h
    | act i q t s' hq hs hr ht he => exact inv_exec ih hq hs hr ht he
    | skip i q t p r hq hs hr ht hb hp hn => exact inv_skip ih ht hb hp hn

/-! ### The programs -/

/-- `prog` accesses `v` only with `l`; `r`, `w`: how often `l` is held at the start. -/
def Safe (l : Lock) (v : Option Var) : Nat → Nat → List Act → Prop
  | _, _, [] => True
  | r, w, .rlock l' :: p => Safe l v (if l' = l then r + 1 else r) w p
  | r, w, .runlock l' :: p => (l' = l → 0 < r) ∧ Safe l v (if l' = l then r - 1 else r) w p
  | r, w, .lock l' :: p => Safe l v r (if l' = l then w + 1 else w) p
  | r, w, .unlock l' :: p => (l' = l → 0 < w) ∧ Safe l v r (if l' = l then w - 1 else w) p
  | r, w, .read v' :: p => (some v' = v → 0 < r ∨ 0 < w) ∧ Safe l v r w p
  | r, w, .write v' :: p => (some v' = v → 0 < w) ∧ Safe l v r w p

theorem safe_at {l : Lock} {v : Option Var} : ∀ (p : List Act) (a : Act) (q : List Act) (r w : Nat),
    Safe l v r w (p ++ a :: q) →
    Safe l v (r + p.count (.rlock l) - p.count (.runlock l)) (w + p.count (.lock l) - p.count (.unlock l)) (a :: q) ∧
    p.count (.runlock l) ≤ r + p.count (.rlock l) ∧ p.count (.unlock l) ≤ w + p.count (.lock l) := by
  intro p
  induction p with
  | nil => intro a q r w h; simpa using h
  | cons b p ih =>
    intro a q r w h
    cases b with
    | rlock l' =>
      simp only [List.cons_append, Safe] at h
      have := ih a q _ _ h
      by_cases e : l' = l
      · subst e; simp [List.count_cons] at this ⊢
        rw [show r + (List.count (Act.rlock l') p + 1) = r + 1 + List.count (Act.rlock l') p by omega]
        exact this
      · simpa [e, List.count_cons] using this
    | runlock l' =>
      simp only [List.cons_append, Safe] at h
      have := ih a q _ _ h.2
      by_cases e : l' = l
      · subst e
        have h0 := h.1 rfl
        simp [List.count_cons] at this ⊢
        rw [show r + List.count (Act.rlock l') p - (List.count (Act.runlock l') p + 1) =
          r - 1 + List.count (Act.rlock l') p - List.count (Act.runlock l') p by omega]
        exact ⟨this.1, by omega, this.2.2⟩
      · simpa [e, List.count_cons] using this
    | lock l' =>
      simp only [List.cons_append, Safe] at h
      have := ih a q _ _ h
      by_cases e : l' = l
      · subst e; simp [List.count_cons] at this ⊢
        rw [show w + (List.count (Act.lock l') p + 1) = w + 1 + List.count (Act.lock l') p by omega]
        exact this
      · simpa [e, List.count_cons] using this
    | unlock l' =>
      simp only [List.cons_append, Safe] at h
      have := ih a q _ _ h.2
      by_cases e : l' = l
      · subst e
        have h0 := h.1 rfl
        simp [List.count_cons] at this ⊢
        rw [show w + List.count (Act.lock l') p - (List.count (Act.unlock l') p + 1) =
          w - 1 + List.count (Act.lock l') p - List.count (Act.unlock l') p by omega]
        exact ⟨this.1, this.2.1, by omega⟩
      · simpa [e, List.count_cons] using this
    | read v' =>
      simp only [List.cons_append, Safe] at h
      simpa [List.count_cons] using ih a q _ _ h.2
    | write v' =>
      simp only [List.cons_append, Safe] at h
      simpa [List.count_cons] using ih a q _ _ h.2

/-- A part of a program that may stand where `l` is held in the given way. -/
def Block (l : Lock) (v : Option Var) (P : Nat → Nat → Prop) (p : List Act) : Prop :=
  ∀ r w, P r w → ∀ q, Safe l v r w q → Safe l v r w (p ++ q)

variable {l : Lock} {v : Option Var} {P : Nat → Nat → Prop}

theorem Block.nil : Block l v P [] := fun _ _ _ _ h => h

theorem Block.append {p q : List Act} (hp : Block l v P p) (hq : Block l v P q) : Block l v P (p ++ q) := by
  intro r w hP x hx
  rw [List.append_assoc]
  exact hp r w hP _ (hq r w hP _ hx)

theorem Block.flatten {ps : List (List Act)} (h : ∀ p ∈ ps, Block l v P p) : Block l v P ps.flatten := by
  induction ps with
  | nil => exact .nil
  | cons p ps ih =>
    rw [List.flatten_cons]
    exact (h p List.mem_cons_self).append (ih (fun q hq => h q (List.mem_cons_of_mem _ hq)))

theorem Block.replicate {p : List Act} (h : Block l v P p) (n : Nat) :
    Block l v P (List.replicate n p).flatten :=
  .flatten (fun q hq => by rw [List.eq_of_mem_replicate hq]; exact h)

theorem Block.flatMap {α : Type} {f : α → List Act} {xs : List α} (h : ∀ x, Block l v P (f x)) :
    Block l v P (xs.flatMap f) := by
  rw [List.flatMap_def]
  refine .flatten (fun p hp => ?_)
  obtain ⟨x, _, rfl⟩ := List.mem_map.mp hp
  exact h x

theorem Block.mono {Q : Nat → Nat → Prop} {p : List Act} (h : Block l v Q p) (hPQ : ∀ r w, P r w → Q r w) :
    Block l v P p := fun r w hP q hq => h r w (hPQ r w hP) q hq

theorem Block.acts {a : Act} (h : Block l v P [a]) (n : Nat) : Block l v P (List.replicate n a) := by
  induction n with
  | zero => exact .nil
  | succ n ih => rw [List.replicate_succ]; exact h.append ih

/-- With the lock held for reading. -/
theorem Block.rsection {p : List Act} {l' : Lock} (hne : l' ≠ l → Block l v P p)
    (he : l' = l → Block l v (fun r _ => 0 < r) p) : Block l v P ([.rlock l'] ++ p ++ [.runlock l']) := by
  intro r w hP q hq
  simp only [List.append_assoc, List.cons_append, List.nil_append, Safe]
  by_cases e : l' = l
  · rw [if_pos e]
    refine he e (r + 1) w (by omega) _ ?_
    simp only [Safe, if_pos e]
    exact ⟨fun _ => by omega, by simpa using hq⟩
  · rw [if_neg e]
    refine hne e r w hP _ ?_
    simp only [Safe, if_neg e]
    exact ⟨fun x => absurd x e, hq⟩

/-- With the lock held for writing. -/
theorem Block.wsection {p : List Act} {l' : Lock} (hne : l' ≠ l → Block l v P p)
    (he : l' = l → Block l v (fun _ w => 0 < w) p) : Block l v P ([.lock l'] ++ p ++ [.unlock l']) := by
  intro r w hP q hq
  simp only [List.append_assoc, List.cons_append, List.nil_append, Safe]
  by_cases e : l' = l
  · rw [if_pos e]
    refine he e r (w + 1) (by omega) _ ?_
    simp only [Safe, if_pos e]
    exact ⟨fun _ => by omega, by simpa using hq⟩
  · rw [if_neg e]
    refine hne e r w hP _ ?_
    simp only [Safe, if_neg e]
    exact ⟨fun x => absurd x e, hq⟩

theorem Block.read {v' : Var} (h : some v' = v → ∀ r w, P r w → 0 < r ∨ 0 < w) : Block l v P [.read v'] :=
  fun r w hP _ hq => ⟨fun e => h e r w hP, hq⟩

theorem Block.write {v' : Var} (h : some v' = v → ∀ r w, P r w → 0 < w) : Block l v P [.write v'] :=
  fun r w hP _ hq => ⟨fun e => h e r w hP, hq⟩

/-- The mutex that belongs to the data. -/
def guard : Var → Lock
  | .caches => .caches
  | .results c => .results c
  | .partials c => .results c
  | .paths c => .paths c

variable [hl : Fact (∀ v', v = some v' → guard v' = l)]

theorem rd_ne {l' : Lock} {v' : Var} (hne : l' ≠ l) (hg : guard v' = l' := by rfl) :
    Block l v P [.read v'] := .read (fun e => absurd (hg ▸ hl.out _ e.symm) hne)

theorem rd_r {v' : Var} : Block l v (fun r _ => 0 < r) [.read v'] := .read (fun _ _ _ h => .inl h)

theorem rd_w {v' : Var} : Block l v (fun _ w => 0 < w) [.read v'] := .read (fun _ _ _ h => .inr h)

theorem wr_ne {l' : Lock} {v' : Var} (hne : l' ≠ l) (hg : guard v' = l' := by rfl) :
    Block l v P [.write v'] := .write (fun e => absurd (hg ▸ hl.out _ e.symm) hne)

theorem wr_w {v' : Var} : Block l v (fun _ w => 0 < w) [.write v'] := .write (fun _ _ _ h => h)

theorem block_pathLookup (c : Nat) : Block l v P (pathLookup c) :=
  Block.rsection (l' := .paths c) (p := [.read (.paths c)]) (fun h => rd_ne h) (fun _ => rd_r)

theorem block_pathUpdate (c : Nat) : Block l v P (pathUpdate c) :=
  Block.wsection (l' := .paths c) (p := [.write (.paths c)]) (fun h => wr_ne h) (fun _ => wr_w)

theorem block_cacheForWorkspace : Block l v P cacheForWorkspace :=
  Block.rsection (l' := .caches) (p := [.read .caches]) (fun h => rd_ne h) (fun _ => rd_r)

theorem block_cacheForURI (cs : List Nat) : Block l v P (cacheForURI cs) :=
  block_cacheForWorkspace.append (.flatMap block_pathLookup)

theorem block_resultLookup (c : Nat) : Block l v P (resultLookup c) := by
  have : resultLookup c = [.rlock (.results c)] ++ (pathLookup c ++ [.read (.partials c)] ++ [.read (.results c)])
      ++ [.runlock (.results c)] := by simp [resultLookup]
  rw [this]
  refine Block.rsection (fun hne => ?_) (fun he => ?_)
  · exact ((block_pathLookup c).append (rd_ne hne)).append (rd_ne hne)
  · exact ((block_pathLookup c).append rd_r).append rd_r

theorem block_compileRound (c m : Nat) :
    (Lock.results c ≠ l → Block l v P (compileRound c m)) ∧
    (Lock.results c = l → Block l v (fun _ w => 0 < w) (compileRound c m)) := by
  have e : compileRound c m = [.write (.partials c)] ++ (List.replicate m (pathUpdate c)).flatten ++
      [.write (.results c)] ++ [.write (.partials c)] ++
      ([.lock (.paths c)] ++ ([.read (.results c)] ++ [.write (.paths c)]) ++ [.unlock (.paths c)]) := by
    simp [compileRound]
  rw [e]
  constructor
  · intro hne
    refine (((Block.append (wr_ne hne) (.replicate (block_pathUpdate c) m)).append
      (wr_ne hne)).append (wr_ne hne)).append
      (Block.wsection (fun h => ?_) (fun h => ?_))
    · exact (rd_ne hne).append (wr_ne h)
    · exact (rd_ne hne).append wr_w
  · intro he
    refine (((Block.append wr_w (.replicate (block_pathUpdate c) m)).append
      wr_w).append wr_w).append
      (Block.wsection (fun h => ?_) (fun h => ?_))
    · exact rd_w.append (wr_ne h)
    · rw [← he] at h; cases h

theorem block_compile (c : Nat) (rounds : List Nat) : Block l v P (compile c rounds) :=
  Block.wsection (fun h => .flatMap (fun m => (block_compileRound c m).1 h))
    (fun h => .flatMap (fun m => (block_compileRound (P := P) c m).2 h))

theorem block_modify (c n : Nat) (rounds : List Nat) : Block l v P (modify c n rounds) :=
  (((Block.replicate (block_pathLookup c) n).append (block_pathUpdate c)).append
    (Block.replicate (block_pathLookup c) n)).append (block_compile c rounds)

theorem block_balanced (c : Nat) {p : List RWLock.Act} (h : RWLock.Balanced p) :
    ∀ P, Block l v P (p.flatMap (expand c)) := by
  induction h with
  | nil => intro P; exact .nil
  | @nest p q hp hq ih1 ih2 =>
    intro P
    have e : List.flatMap (expand c) (RWLock.Act.rlock :: (p ++ RWLock.Act.runlock :: q)) =
        ([.rlock (.results c)] ++ (pathLookup c ++ [.read (.partials c)] ++ [.read (.results c)] ++
          p.flatMap (expand c)) ++ [.runlock (.results c)]) ++ q.flatMap (expand c) := by
      simp [expand]
    rw [e]
    refine Block.append (Block.rsection (fun hne => ?_) (fun he => ?_)) (ih2 P)
    · exact (((block_pathLookup c).append (rd_ne hne)).append (rd_ne hne)).append (ih1 P)
    · exact (((block_pathLookup c).append rd_r).append
        rd_r).append (ih1 _)

theorem block_query (c : Nat) (r : RWLock.Request) : Block l v P (query c r) := by
  by_cases h : r = .update
  · subst h
    exact Block.wsection (l' := .results c) (p := []) (fun _ => .nil) (fun _ => .nil)
  · exact block_balanced c (RWLock.C28_balanced r h) P

theorem block_cacheInit (c n : Nat) (rounds : List Nat) :
    (Lock.caches ≠ l → Block l v P (cacheInit c n rounds)) ∧
    (Lock.caches = l → Block l v (fun _ w => 0 < w) (cacheInit c n rounds)) :=
  ⟨fun h => (block_modify c n rounds).append (wr_ne h),
   fun h => (block_modify c n rounds).append wr_w⟩

/-- The results lock does not matter for other data. -/
theorem block_xPathMappings (c : Nat) (h : v ≠ some (.paths c)) : Block l v P (xPathMappings c) :=
  Block.rsection (l' := .results c) (p := [.read (.paths c)]) (fun _ => .read (fun e => absurd e.symm h))
    (fun _ => .read (fun e => absurd e.symm h))

theorem block_xListLocal (c n : Nat) (h : v ≠ some (.paths c)) : Block l v P (xListLocal c n) := by
  have e : xListLocal c n = [.rlock (.results c)] ++ ([.read (.paths c)] ++
      (List.replicate n (pathLookup c ++ [.read (.paths c)])).flatten) ++ [.runlock (.results c)] := by
    simp [xListLocal]
  rw [e]
  have hr : ∀ P, Block l v P [.read (.paths c)] := fun P => .read (fun e => absurd e.symm h)
  exact Block.rsection
    (fun _ => (hr _).append (.replicate ((block_pathLookup c).append (hr _)) n))
    (fun _ => (hr _).append (.replicate ((block_pathLookup c).append (hr _)) n))

theorem block_doGenerate (c n : Nat) (h : v ≠ some (.paths c)) : Block l v P (doGenerate c n) :=
  (block_xPathMappings c h).append (.replicate (block_resultLookup c) n)

/-- Each request that is not careless accesses the data only with the mutex. -/
theorem block_program (k : Kind) (h : ∀ v', v = some v' → ¬ Careless v' k) : Block l v P (program k) := by
  cases k with
  | init fs =>
    exact Block.wsection (fun hne => .flatMap (fun f => (block_cacheInit _ _ _).1 hne))
      (fun he => .flatMap (fun f => (block_cacheInit (P := P) _ _ _).2 he))
  | didChangeWorkspaceFolders fs n =>
    have e : program (.didChangeWorkspaceFolders fs n) =
        [.lock .caches] ++ (initFolders fs ++ List.replicate n (.write .caches)) ++ [.unlock .caches] := by
      simp [program]
    rw [e]
    exact Block.wsection
      (fun hne => Block.append (.flatMap (fun f => (block_cacheInit _ _ _).1 hne)) (.acts (wr_ne hne) n))
      (fun he => Block.append (.flatMap (fun f => (block_cacheInit (P := P) _ _ _).2 he))
        (.acts wr_w n))
  | didChangeConfiguration n =>
    exact Block.rsection (fun hne => .acts (rd_ne hne) n)
      (fun he => .acts rd_r n)
  | didModify cs c n rounds => exact (block_cacheForURI cs).append (block_modify c n rounds)
  | document cs c rs => exact (block_cacheForURI cs).append (.flatMap (fun r => block_query c r))
  | completion cs c n =>
    refine ((block_cacheForURI cs).append (.replicate (block_resultLookup c) n)).append (.read ?_)
    rintro rfl
    exact absurd rfl (h _ rfl)
  | symbol cs =>
    have hr : ∀ P, Block l v P [.read .caches] := by
      intro P
      refine .read ?_
      rintro rfl
      exact absurd trivial (h _ rfl)
    exact (hr P).append (.flatMap (fun c => (block_query c.1 _).append (hr P)))
  | shutdown n =>
    have hv : v ≠ some .caches := by rintro rfl; exact absurd trivial (h _ rfl)
    have e : program (.shutdown n) = [.lock .once] ++ ([.read .caches] ++ List.replicate n (.write .caches) ++
        [.write .caches]) ++ [.unlock .once] := by simp [program]
    rw [e]
    have h1 : ∀ P, Block l v P [.read .caches] := fun P => .read (fun e => absurd e.symm hv)
    have h2 : ∀ P, Block l v P [.write .caches] := fun P => .write (fun e => absurd e.symm hv)
    exact Block.wsection (fun _ => ((h1 _).append (.acts (h2 _) n)).append (h2 _))
      (fun _ => ((h1 _).append (.acts (h2 _) n)).append (h2 _))
  | cmdSynthetic cs c => exact (block_cacheForURI cs).append (block_pathLookup c)
  | cmdAst cs c => exact (block_cacheForURI cs).append (block_resultLookup c)
  | cmdReindex n fs =>
    have e : program (.cmdReindex n fs) = [.lock .caches] ++ (List.replicate n (.read .caches) ++
        List.replicate n (.write .caches) ++ [.write .caches] ++
        fs.flatMap (fun f => cacheInit f.1 f.2.1 f.2.2 ++ modify f.1 f.2.1 f.2.2)) ++ [.unlock .caches] := by
      simp [program]
    rw [e]
    refine Block.wsection (fun hne => ?_) (fun he => ?_)
    · exact (((Block.acts (rd_ne hne) n).append (.acts (wr_ne hne) n)).append
        (wr_ne hne)).append
        (.flatMap (fun f => ((block_cacheInit _ _ _).1 hne).append (block_modify _ _ _)))
    · exact (((Block.acts rd_w n).append
        (.acts wr_w n)).append wr_w).append
        (.flatMap (fun f => ((block_cacheInit (P := P) _ _ _).2 he).append (block_modify _ _ _)))
  | cmdRefresh n =>
    exact Block.wsection (fun hne => .acts (rd_ne hne) n)
      (fun he => .acts rd_w n)
  | cmdGenerated cs c => exact (block_cacheForURI cs).append (block_query c _)
  | cmdGenerate cs c n =>
    refine (block_cacheForURI cs).append (block_doGenerate c n ?_)
    rintro rfl
    exact absurd rfl (h _ rfl)
  | cmdGenerateWorkspace c n =>
    have hv : v ≠ some (.paths c) := by rintro rfl; exact absurd rfl (h _ rfl)
    exact (block_cacheForWorkspace.append (block_xListLocal c n hv)).append (block_doGenerate c n hv)

theorem safe_program (k : Kind) (h : ∀ v', v = some v' → ¬ Careless v' k) : Safe l v 0 0 (program k) := by
  have := block_program (l := l) (P := fun _ _ => True) k h 0 0 trivial [] trivial
  simpa using this

end Verif.Races
