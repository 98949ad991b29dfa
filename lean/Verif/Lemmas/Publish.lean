import Verif.Spec.Publish
import Mathlib.Data.List.Perm.Basic
/-!
# Lemmas about the way of diagnostics to the client
-/
namespace Verif.Publish

open Diagnostics

theorem run_append {uriOf : Path → Option Uri} {s t : State} {a b : List Event} (h : Run uriOf s (a ++ b) t) :
    ∃ m, Run uriOf s a m ∧ Run uriOf m b t := by
  generalize htr : a ++ b = tr at h
  induction h generalizing b with
  | nil =>
    obtain ⟨rfl, rfl⟩ := List.append_eq_nil_iff.1 htr
    exact ⟨s, .nil, .nil⟩
  | @snoc tr t e u h hs ih =>
    rcases List.eq_nil_or_concat b with rfl | ⟨b', x, rfl⟩
    · rw [List.append_nil] at htr
      subst htr
      exact ⟨u, .snoc h hs, .nil⟩
    · rw [List.concat_eq_append, ← List.append_assoc] at htr
      obtain ⟨h1, h2⟩ := List.append_inj' htr rfl
      simp only [List.cons.injEq, and_true] at h2
      subst h2
      obtain ⟨m, h3, h4⟩ := ih h1
      rw [List.concat_eq_append]
      exact ⟨m, h3, .snoc h4 hs⟩

theorem run_trans {uriOf : Path → Option Uri} {s m t : State} {a b : List Event} (h : Run uriOf s a m) (h' : Run uriOf m b t) :
    Run uriOf s (a ++ b) t := by
  induction h' with
  | nil => simpa using h
  | snoc _ hs ih => rw [← List.append_assoc]; exact .snoc ih hs

/-! ## The handler -/

theorem deleteAllRelated_facts (now : Nat) (rs : List Related) (p : Path) (h : Handler) :
    (h.deleteAllRelated now rs).log = h.log ∧ (h.deleteAllRelated now rs).listening = h.listening ∧
    (h.deleteAllRelated now rs).keys = h.keys ∧
    (((h.deleteAllRelated now rs).lists p) = h.lists p ∨ p ∈ h.keys ∧ ((h.deleteAllRelated now rs).lists p).dirty = true) := by
  induction rs generalizing h with
  | nil => exact ⟨rfl, rfl, rfl, .inl rfl⟩
  | cons r rs ih =>
    have hs : h.deleteAllRelated now (r :: rs) =
      (if r.file ∈ h.keys then h.set r.file ((h.lists r.file).deleteRelated now r) else h).deleteAllRelated now rs := rfl
    rw [hs]
    by_cases hk : r.file ∈ h.keys
    · rw [if_pos hk]
      obtain ⟨h1, h2, h3, h4⟩ := ih (h.set r.file ((h.lists r.file).deleteRelated now r))
      refine ⟨h1, h2, h3, ?_⟩
      rcases h4 with h4 | ⟨h4, h5⟩
      · rw [h4]
        by_cases hp : p = r.file
        · subst hp
          simp only [Handler.set, if_true]
          unfold DList.deleteRelated
          cases deleteFirst r.range (h.lists r.file).diags with
          | none => exact .inl rfl
          | some ds => exact .inr ⟨hk, rfl⟩
        · simp only [Handler.set, if_neg hp]
          exact .inl trivial
      · exact .inr ⟨h4, h5⟩
    · rw [if_neg hk]
      exact ih h

/-- What a modification does to the list of a path. -/
theorem modify_path (h : Handler) (op : HOp) (hm : isModification op = true) (p : Path) (hn : p ∉ h.keys → h.lists p = {}) :
    (h.step op).log = h.log ∧ (h.step op).listening = h.listening ∧
    ((h.step op).lists p = h.lists p ∨ p ∈ h.keys ∧ ((h.step op).lists p).dirty = true) ∧
    (¬ Touches p (.modify op) → (h.step op).lists p = h.lists p) ∧ (∀ q ∈ h.keys, q ∈ (h.step op).keys) := by
  cases op with
  | create q =>
    simp only [Handler.step]
    by_cases hq : q ∈ h.keys
    · rw [if_pos hq]
      exact ⟨rfl, rfl, .inl rfl, fun _ => rfl, fun _ h => h⟩
    · rw [if_neg hq]
      have : (if p = q then ({} : DList) else h.lists p) = h.lists p := by
        by_cases hp : p = q
        · subst hp; rw [if_pos rfl, hn hq]
        · rw [if_neg hp]
      exact ⟨rfl, rfl, .inl this, fun _ => this, fun x hx => List.mem_append_left _ hx⟩
  | add q now d =>
    simp only [Handler.step]
    by_cases hq : q ∈ h.keys
    · rw [if_pos hq]
      refine ⟨rfl, rfl, ?_, ?_, fun _ h => h⟩
      · by_cases hp : p = q
        · subst hp
          exact .inr ⟨hq, by simp [Handler.set, DList.add, DList.reset]⟩
        · exact .inl (by simp [Handler.set, hp])
      · intro ht
        have hp : p ≠ q := fun hp => ht hp.symm
        simp [Handler.set, hp]
    · rw [if_neg hq]
      exact ⟨rfl, rfl, .inl rfl, fun _ => rfl, fun _ h => h⟩
  | clearPath q now =>
    simp only [Handler.step]
    by_cases hq : q ∈ h.keys
    · rw [if_pos hq]
      obtain ⟨h1, h2, h3, h4⟩ := deleteAllRelated_facts now ((h.lists q).diags.flatMap (·.related)) p (h.set q ((h.lists q).clear now))
      refine ⟨h1, h2, ?_, fun ht => absurd trivial ht, fun x hx => by rw [h3]; exact hx⟩
      rcases h4 with h4 | h4
      · by_cases hp : p = q
        · subst hp
          right
          refine ⟨hq, ?_⟩
          rw [h4]
          simp [Handler.set, DList.clear, DList.reset]
        · left
          rw [h4]
          simp [Handler.set, hp]
      · exact .inr h4
    · rw [if_neg hq]
      exact ⟨rfl, rfl, .inl rfl, fun _ => rfl, fun _ h => h⟩
  | subscribe => cases hm
  | unsubscribe => cases hm
  | flush => cases hm

theorem modify_keys (h : Handler) (op : HOp) (hm : isModification op = true) (p : Path) (hn : p ∉ h.keys → h.lists p = {}) :
    p ∉ (h.step op).keys → (h.step op).lists p = {} := by
  intro hp
  obtain ⟨_, _, h3, _, h5⟩ := modify_path h op hm p hn
  have hpk : p ∉ h.keys := fun hk => hp (h5 p hk)
  rcases h3 with h3 | ⟨h3, _⟩
  · rw [h3, hn hpk]
  · exact absurd h3 hpk

/-- What `Flush` does with one path. -/
theorem flushOne_facts (h : Handler) (p q : Path) :
    (h.flushOne p).keys = h.keys ∧ (h.flushOne p).listening = h.listening ∧ ((h.flushOne p).lists q).diags = (h.lists q).diags ∧
    (q = p → ((h.flushOne p).lists q).dirty = false) ∧ (q ≠ p → (h.flushOne p).lists q = h.lists q) ∧
    ((h.lists q).dirty = false → (h.flushOne p).lists q = h.lists q) ∧
    (h.flushOne p).log = h.log ++ (if (h.lists p).dirty = true ∧ h.listening = true then [(p, (h.lists p).diags)] else []) := by
  unfold Handler.flushOne DList.flush
  cases hd : (h.lists p).dirty
  · simp only [Bool.false_eq_true, if_false, false_and, List.append_nil, Handler.set]
    refine ⟨trivial, trivial, ?_, ?_, ?_, ?_, trivial⟩
    · split
      · rename_i hq; rw [hq]
      · rfl
    · rintro rfl; simp [hd]
    · intro hq; simp [hq]
    · intro _
      split
      · rename_i hq; rw [hq]
      · rfl
  · cases hl : h.listening
    · simp only [if_true, Handler.set, Bool.false_eq_true, if_false, and_false, List.append_nil]
      refine ⟨trivial, hl, ?_, ?_, ?_, ?_, trivial⟩
      · split
        · rename_i hq; rw [hq]
        · rfl
      · rintro rfl; simp
      · intro hq; simp [hq]
      · intro hq
        split
        · rename_i he; rw [he, hd] at hq; cases hq
        · rfl
    · simp only [if_true, Handler.set, and_self]
      refine ⟨trivial, hl, ?_, ?_, ?_, ?_, trivial⟩
      · split
        · rename_i hq; rw [hq]
        · rfl
      · rintro rfl; simp
      · intro hq; simp [hq]
      · intro hq
        split
        · rename_i he; rw [he, hd] at hq; cases hq
        · rfl

/-! ## Versions -/

theorem setVersions_append (vs : Uri → Int) (a b : List (Uri × Int)) : setVersions vs (a ++ b) = setVersions (setVersions vs a) b := by
  simp [setVersions]

theorem setVersions_other (vs : Uri → Int) (mods : List (Uri × Int)) (u : Uri) (h : ∀ m ∈ mods, m.1 ≠ u) : setVersions vs mods u = vs u := by
  induction mods generalizing vs with
  | nil => rfl
  | cons m mods ih =>
    have h1 : setVersions vs (m :: mods) = setVersions (fun u => if u = m.1 then m.2 else vs u) mods := rfl
    rw [h1, ih _ fun x hx => h x (by simp [hx])]
    exact if_neg fun he => h m (by simp) he.symm

theorem last_given (mods : List (Uri × Int)) (u : Uri) :
    (∀ m ∈ mods, m.1 ≠ u) ∨ ∃ before v after, mods = before ++ (u, v) :: after ∧ ∀ m ∈ after, m.1 ≠ u := by
  induction mods with
  | nil => exact .inl (by simp)
  | cons m mods ih =>
    rcases ih with h | ⟨b, v, a, rfl, h⟩
    · by_cases hm : m.1 = u
      · exact .inr ⟨[], m.2, mods, by rw [← hm]; rfl, h⟩
      · left
        intro x hx
        rcases List.mem_cons.1 hx with rfl | hx
        · exact hm
        · exact h x hx
    · exact .inr ⟨m :: b, v, a, rfl, h⟩

theorem version_update {tr : List Event} {u : Uri} {vs : Uri → Int} (h : Version tr u (vs u)) (mods : List (Uri × Int)) :
    Version (tr ++ [.update mods]) u (setVersions vs mods u) := by
  rcases last_given mods u with hn | ⟨b, v, a, rfl, hn⟩
  · rw [setVersions_other vs mods u hn]
    exact .other tr u _ _ h fun m hm => by cases hm; exact hn
  · rw [setVersions_append]
    have : setVersions (setVersions vs b) ((u, v) :: a) u = v := by
      have h1 : setVersions (setVersions vs b) ((u, v) :: a) = setVersions (fun x => if x = u then v else setVersions vs b x) a := rfl
      rw [h1, setVersions_other _ a u hn]
      exact if_pos rfl
    rw [this]
    exact .given tr u v b a hn

/-! ## The invariant -/

def pending : Publisher → List Report
  | .busy r => [r]
  | _ => []

structure Inv (uriOf : Path → Option Uri) (tr : List Event) (s : State) : Prop where
  order : made tr = tried tr ++ (pending s.publisher ++ (s.channel ++ s.calling.toList))
  cap : s.channel.length ≤ capacity
  calling : s.calling ≠ none → s.flush ≠ none ∧ s.stream = .waiting
  listen : s.handler.listening = decide (s.stream = .waiting)
  nolist : ∀ p, p ∉ s.handler.keys → s.handler.lists p = {}
  flushed : ∀ ks, s.flush = some ks → ∀ p, p ∉ ks → (s.handler.lists p).dirty = false
  versions : ∀ u, Version tr u (s.versions u)
  starting : s.stream = .starting → made tr = []
  stopped : s.publisher = .stopped → s.cancelled = true

theorem made_snoc (tr : List Event) (e : Event) : made (tr ++ [e]) = made tr ++ made [e] := by simp [made]
theorem tried_snoc (tr : List Event) (e : Event) : tried (tr ++ [e]) = tried tr ++ tried [e] := by simp [tried]

theorem inv_init (uriOf : Path → Option Uri) : Inv uriOf [] {} :=
  ⟨rfl, by simp, by simp, rfl, fun _ _ => rfl, by simp, fun u => .none u, fun _ => rfl, by simp⟩

theorem version_other {tr : List Event} {u : Uri} {v : Int} (e : Event) (h : Version tr u v) (he : ∀ mods, e ≠ .update mods) :
    Version (tr ++ [e]) u v :=
  .other tr u v e h fun m hm => absurd hm (he m)

theorem inv_step {uriOf : Path → Option Uri} {tr : List Event} {s t : State} {e : Event} (hi : Inv uriOf tr s) (h : Step uriOf s e t) :
    Inv uriOf (tr ++ [e]) t := by
  obtain ⟨order, cap, calling, listen, nolist, flushed, versions, starting, stopped⟩ := hi
  cases h with
  | modify op hm hf =>
    have hp := fun p => modify_path s.handler op hm p (nolist p)
    constructor <;> simp only [made_snoc, tried_snoc, show made [Event.modify op] = [] from rfl, show tried [Event.modify op] = [] from rfl, List.append_nil]
    · exact order
    · exact cap
    · exact calling
    · rw [(hp "").2.1]; exact listen
    · intro p; exact modify_keys s.handler op hm p (nolist p)
    · intro ks hk; rw [hf] at hk; cases hk
    · exact fun u => version_other _ (versions u) (by simp)
    · exact starting
    · exact stopped
  | update mods hf =>
    constructor <;> simp only [made_snoc, tried_snoc, show made [Event.update mods] = [] from rfl, show tried [Event.update mods] = [] from rfl, List.append_nil]
    · exact order
    · exact cap
    · exact calling
    · exact listen
    · exact nolist
    · exact flushed
    · exact fun u => version_update (versions u) mods
    · exact starting
    · exact stopped
  | startFlush ks hk hf =>
    constructor <;> simp only [made_snoc, tried_snoc, show made [Event.startFlush] = [] from rfl, show tried [Event.startFlush] = [] from rfl, List.append_nil]
    · exact order
    · exact cap
    · exact fun h => ⟨by simp, (calling h).2⟩
    · exact listen
    · exact nolist
    · intro ks' hk' p hp
      cases hk'
      rw [nolist p fun h => hp (hk.mem_iff.2 h)]
    · exact fun u => version_other _ (versions u) (by simp)
    · exact starting
    · exact stopped
  | clean p rest hf hc hd =>
    have hq := fun q => flushOne_facts s.handler p q
    constructor <;> simp only [made_snoc, tried_snoc, show made [Event.clean p] = [] from rfl, show tried [Event.clean p] = [] from rfl, List.append_nil]
    · exact order
    · exact cap
    · exact fun h => absurd hc h
    · rw [(hq p).2.1]; exact listen
    · intro q; rw [(hq q).1, (hq p).2.2.2.2.2.1 hd |> fun _ => (show (s.handler.flushOne p).lists q = s.handler.lists q by
        by_cases h : q = p
        · subst h; exact (hq q).2.2.2.2.2.1 hd
        · exact (hq q).2.2.2.2.1 h)]
      exact nolist q
    · intro ks hk q hqk
      cases hk
      by_cases h : q = p
      · exact (hq q).2.2.2.1 h
      · rw [(hq q).2.2.2.2.1 h]
        exact flushed _ hf q (by simp [h, hqk])
    · exact fun u => version_other _ (versions u) (by simp)
    · exact starting
    · exact stopped
  | unheard p rest hf hc hd hl =>
    have hq := fun q => flushOne_facts s.handler p q
    constructor <;> simp only [made_snoc, tried_snoc, show made [Event.unheard p] = [] from rfl, show tried [Event.unheard p] = [] from rfl, List.append_nil]
    · exact order
    · exact cap
    · exact fun h => absurd hc h
    · rw [(hq p).2.1]; exact listen
    · intro q hk
      rw [(hq q).1] at hk
      have h0 := nolist q hk
      rw [(hq q).2.2.2.2.2.1 (by rw [h0]), h0]
    · intro ks hk q hqk
      cases hk
      by_cases h : q = p
      · exact (hq q).2.2.2.1 h
      · rw [(hq q).2.2.2.2.1 h]
        exact flushed _ hf q (by simp [h, hqk])
    · exact fun u => version_other _ (versions u) (by simp)
    · exact starting
    · exact stopped
  | unknown p rest hf hc hd hl hu =>
    have hq := fun q => flushOne_facts s.handler p q
    constructor <;> simp only [made_snoc, tried_snoc, show made [Event.unknown p] = [] from rfl, show tried [Event.unknown p] = [] from rfl, List.append_nil]
    · exact order
    · exact cap
    · exact fun h => absurd hc h
    · rw [(hq p).2.1]; exact listen
    · intro q hk
      rw [(hq q).1] at hk
      have h0 := nolist q hk
      rw [(hq q).2.2.2.2.2.1 (by rw [h0]), h0]
    · intro ks hk q hqk
      cases hk
      by_cases h : q = p
      · exact (hq q).2.2.2.1 h
      · rw [(hq q).2.2.2.2.1 h]
        exact flushed _ hf q (by simp [h, hqk])
    · exact fun u => version_other _ (versions u) (by simp)
    · exact starting
    · exact stopped
  | call p rest u hf hc hd hl hu =>
    have hq := fun q => flushOne_facts s.handler p q
    have hw : s.stream = .waiting := by rw [hl] at listen; exact of_decide_eq_true listen.symm
    constructor <;> simp only [made_snoc, tried_snoc, show tried [Event.call p ⟨u, s.versions u, (s.handler.lists p).diags⟩] = [] from rfl,
      show made [Event.call p ⟨u, s.versions u, (s.handler.lists p).diags⟩] = [⟨u, s.versions u, (s.handler.lists p).diags⟩] from rfl, List.append_nil]
    · rw [order, hc]; simp
    · exact cap
    · exact fun _ => ⟨by simp, hw⟩
    · rw [(hq p).2.1]; exact listen
    · intro q hk
      rw [(hq q).1] at hk
      have h0 := nolist q hk
      rw [(hq q).2.2.2.2.2.1 (by rw [h0]), h0]
    · intro ks hk q hqk
      cases hk
      by_cases h : q = p
      · exact (hq q).2.2.2.1 h
      · rw [(hq q).2.2.2.2.1 h]
        exact flushed _ hf q (by simp [h, hqk])
    · exact fun u => version_other _ (versions u) (by simp)
    · intro h; rw [hw] at h; cases h
    · exact stopped
  | send r hc hr =>
    constructor <;> simp only [made_snoc, tried_snoc, show made [Event.send r] = [] from rfl, show tried [Event.send r] = [] from rfl, List.append_nil]
    · rw [order, hc]; simp
    · rw [List.length_append]; exact hr
    · exact fun h => absurd rfl h
    · exact listen
    · exact nolist
    · exact flushed
    · exact fun u => version_other _ (versions u) (by simp)
    · exact starting
    · exact stopped
  | endFlush hf hc =>
    constructor <;> simp only [made_snoc, tried_snoc, show made [Event.endFlush] = [] from rfl, show tried [Event.endFlush] = [] from rfl, List.append_nil]
    · exact order
    · exact cap
    · exact fun h => absurd hc h
    · exact listen
    · exact nolist
    · exact fun _ h => nomatch h
    · exact fun u => version_other _ (versions u) (by simp)
    · exact starting
    · exact stopped
  | install h =>
    constructor <;> simp only [made_snoc, tried_snoc, show made [Event.install] = [] from rfl, show tried [Event.install] = [] from rfl, List.append_nil]
    · exact order
    · exact cap
    · exact fun h => ⟨(calling h).1, trivial⟩
    · rfl
    · exact nolist
    · exact flushed
    · exact fun u => version_other _ (versions u) (by simp)
    · exact fun h => nomatch h
    · exact stopped
  | remove h hx hc =>
    constructor <;> simp only [made_snoc, tried_snoc, show made [Event.remove] = [] from rfl, show tried [Event.remove] = [] from rfl, List.append_nil]
    · exact order
    · exact cap
    · exact fun h => absurd hc h
    · rfl
    · exact nolist
    · exact flushed
    · exact fun u => version_other _ (versions u) (by simp)
    · exact fun h => nomatch h
    · exact stopped
  | cancel =>
    constructor <;> simp only [made_snoc, tried_snoc, show made [Event.cancel] = [] from rfl, show tried [Event.cancel] = [] from rfl, List.append_nil]
    · exact order
    · exact cap
    · exact calling
    · exact listen
    · exact nolist
    · exact flushed
    · exact fun u => version_other _ (versions u) (by simp)
    · exact starting
    · exact fun _ => trivial
  | receive r rest hp hr =>
    constructor <;> simp only [made_snoc, tried_snoc, show made [Event.receive r] = [] from rfl, show tried [Event.receive r] = [] from rfl, List.append_nil]
    · rw [order, hp, hr]; simp [pending]
    · rw [hr] at cap; exact Nat.le_trans (Nat.le_succ _) cap
    · exact calling
    · exact listen
    · exact nolist
    · exact flushed
    · exact fun u => version_other _ (versions u) (by simp)
    · exact starting
    · exact fun h => nomatch h
  | published r hp =>
    constructor <;> simp only [made_snoc, tried_snoc, show made [Event.published r] = [] from rfl, show tried [Event.published r] = [r] from rfl, List.append_nil]
    · rw [order, hp]; simp [pending]
    · exact cap
    · exact calling
    · exact listen
    · exact nolist
    · exact flushed
    · exact fun u => version_other _ (versions u) (by simp)
    · exact starting
    · exact fun h => nomatch h
  | failed r hp =>
    constructor <;> simp only [made_snoc, tried_snoc, show made [Event.failed r] = [] from rfl, show tried [Event.failed r] = [r] from rfl, List.append_nil]
    · rw [order, hp]; simp [pending]
    · exact cap
    · exact calling
    · exact listen
    · exact nolist
    · exact flushed
    · exact fun u => version_other _ (versions u) (by simp)
    · exact starting
    · exact fun h => nomatch h
  | stop hp hx =>
    constructor <;> simp only [made_snoc, tried_snoc, show made [Event.stop] = [] from rfl, show tried [Event.stop] = [] from rfl, List.append_nil]
    · rw [order, hp]; simp [pending]
    · exact cap
    · exact calling
    · exact listen
    · exact nolist
    · exact flushed
    · exact fun u => version_other _ (versions u) (by simp)
    · exact starting
    · exact fun _ => hx

theorem inv_run {uriOf : Path → Option Uri} {tr : List Event} {s : State} (h : Run uriOf {} tr s) : Inv uriOf tr s := by
  induction h with
  | nil => exact inv_init uriOf
  | snoc _ hs ih => exact inv_step ih hs

/-- The invariant goes on from any state that has it. -/
theorem inv_more {uriOf : Path → Option Uri} {tr tr' : List Event} {s t : State} (hi : Inv uriOf tr s) (h : Run uriOf s tr' t) :
    Inv uriOf (tr ++ tr') t := by
  induction h with
  | nil => simpa using hi
  | snoc _ hs ih => rw [← List.append_assoc]; exact inv_step ih hs

/-! ## What is shown -/

theorem shown_snoc_same (rs : List Report) (r : Report) : Shown (rs ++ [r]) r.uri r.items :=
  .inl ⟨rs, r, [], rfl, rfl, rfl, by simp⟩

theorem shown_snoc_other {rs : List Report} {u : Uri} {items : List Diag} (r : Report) (h : Shown rs u items) (hr : r.uri ≠ u) :
    Shown (rs ++ [r]) u items := by
  rcases h with ⟨b, x, a, rfl, h1, h2, h3⟩ | ⟨h1, h2⟩
  · refine .inl ⟨b, x, a ++ [r], by simp, h1, h2, ?_⟩
    intro y hy
    rcases List.mem_append.1 hy with hy | hy
    · exact h3 y hy
    · rw [List.mem_singleton.1 hy]; exact hr
  · refine .inr ⟨?_, h2⟩
    intro y hy
    rcases List.mem_append.1 hy with hy | hy
    · exact h1 y hy
    · rw [List.mem_singleton.1 hy]; exact hr

/-- The list of a path is not touched by other events. -/
theorem untouched {uriOf : Path → Option Uri} {tr : List Event} {s t : State} {e : Event} (hi : Inv uriOf tr s) (h : Step uriOf s e t) (p : Path)
    (he : ¬ Touches p e) : (t.handler.lists p).diags = (s.handler.lists p).diags ∧
      ((s.handler.lists p).dirty = false → (t.handler.lists p).dirty = false) := by
  cases h with
  | modify op hm hf =>
    have := (modify_path s.handler op hm p (hi.nolist p)).2.2.2.1 he
    simp only [this]
    exact ⟨trivial, id⟩
  | clean q rest hf hc hd =>
    have hq := flushOne_facts s.handler q p
    exact ⟨hq.2.2.1, fun h => by rw [hq.2.2.2.2.2.1 h]; exact h⟩
  | unheard q rest hf hc hd hl =>
    have hq := flushOne_facts s.handler q p
    exact ⟨hq.2.2.1, fun h => by rw [hq.2.2.2.2.2.1 h]; exact h⟩
  | unknown q rest hf hc hd hl hu =>
    have hq := flushOne_facts s.handler q p
    exact ⟨hq.2.2.1, fun h => by rw [hq.2.2.2.2.2.1 h]; exact h⟩
  | call q rest u hf hc hd hl hu =>
    have hq := flushOne_facts s.handler q p
    exact ⟨hq.2.2.1, fun h => by rw [hq.2.2.2.2.2.1 h]; exact h⟩
  | update => exact ⟨rfl, id⟩
  | startFlush => exact ⟨rfl, id⟩
  | send => exact ⟨rfl, id⟩
  | endFlush => exact ⟨rfl, id⟩
  | install => exact ⟨rfl, id⟩
  | remove => exact ⟨rfl, id⟩
  | cancel => exact ⟨rfl, id⟩
  | receive => exact ⟨rfl, id⟩
  | published => exact ⟨rfl, id⟩
  | failed => exact ⟨rfl, id⟩
  | stop => exact ⟨rfl, id⟩

theorem untouched_run {uriOf : Path → Option Uri} {tr tr' : List Event} {s t : State} (hi : Inv uriOf tr s) (h : Run uriOf s tr' t) (p : Path)
    (he : ∀ e ∈ tr', ¬ Touches p e) : (t.handler.lists p).diags = (s.handler.lists p).diags ∧
      ((s.handler.lists p).dirty = false → (t.handler.lists p).dirty = false) := by
  induction h with
  | nil => exact ⟨rfl, id⟩
  | @snoc tr' m e u hm hs ih =>
    obtain ⟨h1, h2⟩ := ih fun e he' => he e (by simp [he'])
    obtain ⟨h3, h4⟩ := untouched (inv_more hi hm) hs p (he _ (by simp))
    exact ⟨h3.trans h1, fun h => h4 (h2 h)⟩

/-- A path that is not to be flushed has been reported. -/
theorem made_current {uriOf : Path → Option Uri} {tr : List Event} {s : State} (h : Run uriOf {} tr s) (p : Path) (u : Uri) (hu : uriOf p = some u)
    (hinj : ∀ q, uriOf q = some u → q = p) (hn : Event.unheard p ∉ tr) (hd : (s.handler.lists p).dirty = false) :
    Shown (made tr) u (s.handler.lists p).diags := by
  induction h with
  | nil => exact .inr ⟨by simp [made], rfl⟩
  | @snoc tr m e t hm hs ih =>
    have ih := ih fun h => hn (by simp [h])
    have hi := inv_run hm
    rw [made_snoc]
    cases hs with
    | modify op hmo hf =>
      rw [show made [Event.modify op] = [] from rfl, List.append_nil]
      rcases (modify_path m.handler op hmo p (hi.nolist p)).2.2.1 with h | ⟨_, h⟩
      · rw [h] at hd ⊢; exact ih hd
      · rw [h] at hd; cases hd
    | clean q rest hf hc hq =>
      rw [show made [Event.clean q] = [] from rfl, List.append_nil]
      have hp : (m.handler.flushOne q).lists p = m.handler.lists p := by
        by_cases h : p = q
        · subst h; exact (flushOne_facts m.handler p p).2.2.2.2.2.1 hq
        · exact (flushOne_facts m.handler q p).2.2.2.2.1 h
      simp only [hp] at hd ⊢
      exact ih hd
    | unheard q rest hf hc hq hl =>
      rw [show made [Event.unheard q] = [] from rfl, List.append_nil]
      have hp : (m.handler.flushOne q).lists p = m.handler.lists p :=
        (flushOne_facts m.handler q p).2.2.2.2.1 fun h => hn (by rw [h]; simp)
      simp only [hp] at hd ⊢
      exact ih hd
    | unknown q rest hf hc hq hl huq =>
      rw [show made [Event.unknown q] = [] from rfl, List.append_nil]
      have hp : (m.handler.flushOne q).lists p = m.handler.lists p :=
        (flushOne_facts m.handler q p).2.2.2.2.1 fun h => by rw [← h, hu] at huq; cases huq
      simp only [hp] at hd ⊢
      exact ih hd
    | call q rest v hf hc hq hl huq =>
      by_cases h : p = q
      · subst h
        rw [hu] at huq
        cases huq
        simp only [(flushOne_facts m.handler p p).2.2.1]
        exact shown_snoc_same _ _
      · have hp : (m.handler.flushOne q).lists p = m.handler.lists p := (flushOne_facts m.handler q p).2.2.2.2.1 h
        simp only [hp] at hd ⊢
        refine shown_snoc_other _ (ih hd) ?_
        rintro rfl
        exact h (hinj q huq).symm
    | update => simpa [made] using ih hd
    | startFlush => simpa [made] using ih hd
    | send => simpa [made] using ih hd
    | endFlush => simpa [made] using ih hd
    | install => simpa [made, Handler.step] using ih hd
    | remove => simpa [made, Handler.step] using ih hd
    | cancel => simpa [made] using ih hd
    | receive => simpa [made] using ih hd
    | published => simpa [made] using ih hd
    | failed => simpa [made] using ih hd
    | stop => simpa [made] using ih hd

/-! ## Steps of the server itself -/

def streamWeight : Stream → Nat
  | .starting => 2
  | .waiting => 1
  | .done => 0

def publisherWeight : Publisher → Nat
  | .busy _ => 2
  | .idle => 1
  | .stopped => 0

/-- A bound for the number of steps that the server can do by itself. -/
def weight (s : State) : Nat :=
  (match s.flush with | none => 0 | some ks => 1 + 4 * ks.length) + (match s.calling with | none => 0 | some _ => 3) + 2 * s.channel.length +
    publisherWeight s.publisher + streamWeight s.stream

theorem internal_weight {uriOf : Path → Option Uri} {s t : State} {e : Event} (h : Step uriOf s e t) (he : Internal e) : weight t < weight s := by
  cases h with
  | modify => cases he
  | update => cases he
  | startFlush => cases he
  | cancel => cases he
  | clean p rest hf hc hd => simp only [weight, hf, hc, List.length_cons]; omega
  | unheard p rest hf hc hd hl => simp only [weight, hf, hc, List.length_cons]; omega
  | unknown p rest hf hc hd hl hu => simp only [weight, hf, hc, List.length_cons]; omega
  | call p rest u hf hc hd hl hu => simp only [weight, hf, hc, List.length_cons]; omega
  | send r hc hr => simp only [weight, hc, List.length_append, List.length_singleton]; omega
  | endFlush hf hc => simp only [weight, hf, List.length_nil]; omega
  | install h => simp only [weight, h, streamWeight]; omega
  | remove h hx hc => simp only [weight, h, streamWeight]; omega
  | receive r rest hp hr => simp only [weight, hp, hr, publisherWeight, List.length_cons]; omega
  | published r hp => simp only [weight, hp, publisherWeight]; omega
  | failed r hp => simp only [weight, hp, publisherWeight]; omega
  | stop hp hx => simp only [weight, hp, publisherWeight]; omega

theorem internal_run {uriOf : Path → Option Uri} {s t : State} {tr : List Event} (h : Run uriOf s tr t) (he : ∀ e ∈ tr, Internal e) :
    tr.length + weight t ≤ weight s := by
  induction h with
  | nil => simp
  | snoc _ hs ih =>
    have h1 := ih fun e h => he e (by simp [h])
    have h2 := internal_weight hs (he _ (by simp))
    simp only [List.length_append, List.length_singleton]
    omega

/-- Flushing goes on unless the listener waits for room in the channel. -/
theorem flush_step (uriOf : Path → Option Uri) (s : State) (hf : s.flush ≠ none) (hc : s.calling = none) :
    ∃ e t, Step uriOf s e t ∧ Internal e := by
  cases hk : s.flush with
  | none => exact absurd hk hf
  | some ks =>
    cases ks with
    | nil => exact ⟨_, _, .endFlush s hk hc, trivial⟩
    | cons p rest =>
      cases hd : (s.handler.lists p).dirty with
      | false => exact ⟨_, _, .clean s p rest hk hc hd, trivial⟩
      | true =>
        cases hl : s.handler.listening with
        | false => exact ⟨_, _, .unheard s p rest hk hc hd hl, trivial⟩
        | true =>
          cases hu : uriOf p with
          | none => exact ⟨_, _, .unknown s p rest hk hc hd hl hu, trivial⟩
          | some u => exact ⟨_, _, .call s p rest u hk hc hd hl hu, trivial⟩

end Verif.Publish
