import Verif.Lemmas.SymbolQuery
import Mathlib.Data.List.Perm.Subperm
import Mathlib.Data.List.Forall2

/-!
# Property C104: the workspace symbol request
-/
namespace Verif.SymbolQuery

open Verif.Symbols

variable {cfg : Cfg} {files : List (Option (List Nat))}

theorem answer_kept (cfg : Cfg) (stored : List Nat) : ∃ kept rest : List Nat,
    answer cfg stored = .symbols (kept.filterMap (fun i => cfg.resolve (cfg.entry i))) ∧
    (kept ++ rest).Perm stored ∧
    kept.Pairwise (fun a b => ¬ Better (cfg.entry b) (cfg.entry a)) ∧
    (∀ i ∈ kept, 0 < cfg.score i) ∧ kept.length ≤ 100 ∧
    (∀ j ∈ rest, 0 < cfg.score j → kept.length = 100 ∧ ∀ i ∈ kept, cfg.score j ≤ cfg.score i) := by
  obtain ⟨arr, kept, rest, h1, h2, h3, h4, h5⟩ := C14_best (stored.map cfg.entry) cfg.resolve
  have hent : ∀ e ∈ kept ++ rest, cfg.entry e.data = e := by
    intro e he
    obtain ⟨i, _, rfl⟩ := List.mem_map.mp (h3.subset he)
    rfl
  have hmap : ∀ l : List Entry, (∀ e ∈ l, cfg.entry e.data = e) → (l.map Entry.data).map cfg.entry = l := by
    intro l hl
    rw [List.map_map]
    conv_rhs => rw [← List.map_id l]
    exact List.map_congr_left (fun e he => by simpa using hl e he)
  have hk := hmap kept (fun e he => hent e (List.mem_append_left _ he))
  have hr := hmap rest (fun e he => hent e (List.mem_append_right _ he))
  generalize kept.map Entry.data = kept' at hk
  generalize rest.map Entry.data = rest' at hr
  subst hk; subst hr
  have hperm : (kept' ++ rest').Perm stored := by
    have := h3.map Entry.data
    have he : Entry.data ∘ cfg.entry = id := rfl
    simpa [List.map_append, List.map_map, he] using this
  have hsc : Entry.score ∘ cfg.entry = cfg.score := rfl
  simp only [List.map_map, hsc] at h5
  have hD : (descending ((stored.map cfg.score).filter (0 < ·))).Perm ((stored.map cfg.score).filter (0 < ·)) :=
    isort_perm _ _
  have hsorted : (descending ((stored.map cfg.score).filter (0 < ·))).Pairwise (fun a b => b ≤ a) := by
    refine (isort_pairwise (le := fun a b => decide (b ≤ a)) ?_ ?_ _).imp ?_
    · intro a b; simp; omega
    · intro a b c h1 h2; simp at *; omega
    · intro a b h; simpa using h
  generalize descending ((stored.map cfg.score).filter (0 < ·)) = D at h5 hD hsorted
  have hpos : ∀ i ∈ kept', 0 < cfg.score i := by
    intro i hi
    have : cfg.score i ∈ D.take 100 := h5 ▸ List.mem_map_of_mem hi
    have := hD.subset (List.mem_of_mem_take this)
    simpa using (List.mem_filter.mp this).2
  have hdrop : (D.drop 100).Perm ((rest'.map cfg.score).filter (0 < ·)) := by
    have e1 : D.Perm ((kept'.map cfg.score) ++ (rest'.map cfg.score).filter (0 < ·)) := by
      refine hD.trans ?_
      have := ((hperm.map cfg.score).filter (fun x => decide (0 < x))).symm
      refine this.trans ?_
      rw [List.map_append, List.filter_append]
      refine List.Perm.append_right _ ?_
      rw [List.filter_eq_self.mpr]
      intro x hx
      obtain ⟨i, hi, rfl⟩ := List.mem_map.mp hx
      simpa using hpos i hi
    rw [h5] at e1
    have e2 : (D.take 100 ++ D.drop 100).Perm (D.take 100 ++ (rest'.map cfg.score).filter (0 < ·)) := by
      rw [List.take_append_drop]; exact e1
    exact (List.perm_append_left_iff _).mp e2
  refine ⟨kept', rest', ?_, hperm, ?_, hpos, ?_, ?_⟩
  · simp only [answer, h1, h2, List.filterMap_map]
    rfl
  · exact List.pairwise_map.mp h4
  · have := congrArg List.length h5
    simp only [List.length_map, List.length_take] at this
    omega
  · intro j hj hp
    have hjm : cfg.score j ∈ D.drop 100 :=
      hdrop.symm.subset (List.mem_filter.mpr ⟨List.mem_map_of_mem hj, by simpa using hp⟩)
    have hlen := congrArg List.length h5
    have hl := List.length_pos_of_mem hjm
    simp only [List.length_map, List.length_take, List.length_drop] at hlen hl
    refine ⟨by omega, fun i hi => ?_⟩
    rw [← List.take_append_drop 100 D] at hsorted
    exact (List.pairwise_append.mp hsorted).2.2 _ (h5 ▸ List.mem_map_of_mem hi) _ hjm

theorem resolve_shown {e : Entry} {x : Shown} (h : cfg.resolve e = some x) (hel : eligible (cfg.info e.data) = true) :
    ∃ uri, cfg.uriOf (cfg.info e.data).path = some uri ∧ cfg.found uri = true ∧ ShownAs (cfg.info e.data) uri x := by
  unfold Cfg.resolve at h
  split at h
  · cases h
  · rename_i uri hu
    split at h
    · rename_i hf
      refine ⟨uri, hu, hf, ?_⟩
      unfold toSymbolInformation at h
      split at h
      · rename_i r hr
        injection h with h; subst h
        refine ⟨rfl, rfl, hr, rfl, ?_⟩
        unfold eligible at hel
        cases hk : (cfg.info e.data).kind <;> simp_all [symbolKind]
      · cases h
    · cases h

theorem resolve_of {i : Nat} {uri : Str} {r : Nat × Nat} (h1 : cfg.uriOf (cfg.info i).path = some uri)
    (h2 : cfg.found uri = true) (h3 : (cfg.info i).node = some r) :
    ∃ x, cfg.resolve (cfg.entry i) = some x := by
  simp [Cfg.resolve, Cfg.entry, h1, h2, toSymbolInformation, h3]

/-- What an answer is made of. -/
theorem kept_of {s : St} {a : Answer} (h : Reach cfg files s) (hm : s.main = .returned a) (hne : a ≠ .nil) :
    ∃ kept rest : List Nat, a = .symbols (kept.filterMap (fun i => cfg.resolve (cfg.entry i))) ∧
      (kept ++ rest).Perm (declared cfg.info files) ∧
      kept.Pairwise (fun a b => ¬ Better (cfg.entry b) (cfg.entry a)) ∧
      (∀ i ∈ kept, 0 < cfg.score i) ∧ kept.length ≤ 100 ∧
      (∀ j ∈ rest, 0 < cfg.score j → kept.length = 100 ∧ ∀ i ∈ kept, cfg.score j ≤ cfg.score i) := by
  have hI := inv_of_reach h
  obtain ⟨c1, c2, c3⟩ := hI.symbols a hm hne
  obtain ⟨kept, rest, k1, k2, k3⟩ := answer_kept cfg s.stored
  exact ⟨kept, rest, c3.trans k1, k2.trans ((stored_perm hI c1 c2).trans (by rw [declared_eq])), k3⟩

theorem eligible_of_mem {i : Nat} (h : i ∈ declared cfg.info files) : eligible (cfg.info i) = true := by
  rw [declared_eq] at h
  exact (List.mem_filter.mp h).2

/-- **C104**: an answer has at most 100 symbols, each is a declaration of a file of the workspace, shown
with its own name, kind, container and place, and its name matches all words of the query. -/
theorem C104_only {s : St} {l : List Shown} (h : Reach cfg files s) (hm : s.main = .returned (.symbols l))
    (lower : Str → Str) (fuzzy : Str → Matcher) (hf : ∀ w s, 0 ≤ fuzzy w s) (q : Str)
    (hq : ScoredBy lower fuzzy q cfg.info cfg.score) :
    l.length ≤ 100 ∧ ∀ x ∈ l, (∃ i ∈ declared cfg.info files, ∃ uri, cfg.uriOf (cfg.info i).path = some uri ∧
      ShownAs (cfg.info i) uri x) ∧ (∃ w, IsField isSpace w q) ∧
      ∀ w, IsField isSpace w q → WordMatches lower fuzzy w x.name := by
  obtain ⟨kept, rest, k1, k2, k3, k4, k5, k6⟩ := kept_of h hm (by simp)
  injection k1 with k1
  subst k1
  refine ⟨Nat.le_trans (List.length_filterMap_le _ _) k5, ?_⟩
  intro x hx
  obtain ⟨i, hi, hr⟩ := List.mem_filterMap.mp hx
  have hd : i ∈ declared cfg.info files := k2.subset (List.mem_append_left _ hi)
  obtain ⟨uri, u1, _, u3⟩ := resolve_shown hr (eligible_of_mem hd)
  refine ⟨⟨i, hd, uri, u1, u3⟩, ?_⟩
  have := (C15_words_and lower fuzzy hf q (cfg.info i).name).mp ((hq i).mp (k4 i hi))
  rw [u3.name]
  exact this

/-- **C104**: a declaration whose name matches all words of the query is found, if its file has a URI
and it has a place in the text; unless 100 other declarations match at least as well. This does not
depend on the interleaving of the goroutines. -/
theorem C104_found {s : St} {l : List Shown} (h : Reach cfg files s) (hm : s.main = .returned (.symbols l))
    (lower : Str → Str) (fuzzy : Str → Matcher) (hf : ∀ w s, 0 ≤ fuzzy w s) (q : Str)
    (hq : ScoredBy lower fuzzy q cfg.info cfg.score)
    {i : Nat} (hi : i ∈ declared cfg.info files) (hw : ∃ w, IsField isSpace w q)
    (hmatch : ∀ w, IsField isSpace w q → WordMatches lower fuzzy w (cfg.info i).name)
    {uri : Str} {r : Nat × Nat} (h1 : cfg.uriOf (cfg.info i).path = some uri)
    (h2 : cfg.found uri = true) (h3 : (cfg.info i).node = some r) :
    (∃ x ∈ l, ShownAs (cfg.info i) uri x) ∨
    ∃ better : List Nat, better.length = 100 ∧ (i :: better).Subperm (declared cfg.info files) ∧
      ∀ j ∈ better, cfg.score i ≤ cfg.score j := by
  obtain ⟨kept, rest, k1, k2, k3, k4, k5, k6⟩ := kept_of h hm (by simp)
  injection k1 with k1
  subst k1
  rcases List.mem_append.mp (k2.symm.subset hi) with hk | hk
  · left
    obtain ⟨x, hx⟩ := resolve_of h1 h2 h3
    obtain ⟨uri', u1, _, u3⟩ := resolve_shown hx (eligible_of_mem hi)
    have : uri' = uri := by
      have u1' : cfg.uriOf (cfg.info i).path = some uri' := u1
      rw [h1] at u1'; injection u1' with u1'; exact u1'.symm
    subst this
    exact ⟨x, List.mem_filterMap.mpr ⟨i, hk, hx⟩, u3⟩
  · right
    have hpos : 0 < cfg.score i := (hq i).mpr ((C15_words_and lower fuzzy hf q (cfg.info i).name).mpr ⟨hw, hmatch⟩)
    obtain ⟨b1, b2⟩ := k6 i hk hpos
    refine ⟨kept, b1, ?_, b2⟩
    obtain ⟨r1, r2, rfl⟩ := List.append_of_mem hk
    refine List.Perm.subperm_left k2 |>.mp ?_
    refine List.Subperm.trans (l₂ := kept ++ [i]) (List.perm_append_singleton i kept).symm.subperm ?_
    refine List.Sublist.subperm (List.Sublist.append_left ?_ _)
    simp

/-- **C104**: the symbols are ordered by their scores, whatever the interleaving: the scores of the
answer are those of the best matches in descending order. -/
theorem C104_order {s : St} {l : List Shown} (h : Reach cfg files s) (hm : s.main = .returned (.symbols l)) :
    ∃ shown : List Nat, List.Forall₂ (fun i x => (∃ uri, ShownAs (cfg.info i) uri x)) shown l ∧
      shown.Subperm (declared cfg.info files) ∧
      shown.Pairwise (fun a b => ¬ Better (cfg.entry b) (cfg.entry a)) := by
  obtain ⟨kept, rest, k1, k2, k3, k4, k5, k6⟩ := kept_of h hm (by simp)
  injection k1 with k1
  subst k1
  have hgood : ∀ i ∈ kept, ∀ x, cfg.resolve (cfg.entry i) = some x → ∃ uri, ShownAs (cfg.info i) uri x := by
    intro i hi x hx
    obtain ⟨uri, _, _, u⟩ := resolve_shown hx (eligible_of_mem (k2.subset (List.mem_append_left _ hi)))
    exact ⟨uri, u⟩
  refine ⟨kept.filter (fun i => (cfg.resolve (cfg.entry i)).isSome), ?_, ?_, k3.filter _⟩
  · clear k2 k3 k4 k5 k6 hm
    induction kept with
    | nil => simp
    | cons i is ih =>
      have := ih (fun j hj => hgood j (List.mem_cons_of_mem _ hj))
      cases hx : cfg.resolve (cfg.entry i) with
      | none => simpa [hx] using this
      | some x =>
        simp only [List.filter_cons, hx, Option.isSome_some, if_true, List.filterMap_cons]
        exact .cons (hgood i (List.mem_cons_self) x hx) this
  · exact (List.filter_sublist.trans (List.sublist_append_left _ _)).subperm.trans k2.subperm

/-- **C104**: the request answers without symbols only if it was cancelled. -/
theorem C104_nil {s : St} (h : Reach cfg files s) (hm : s.main = .returned .nil) : s.cancelled = true :=
  (inv_of_reach h).nil hm

/-- **C104**: nothing is sent on the closed channel, when it is closed the goroutines of all files have
ended, and the store does not fail. -/
theorem C104_no_panic {s : St} (h : Reach cfg files s) : s.panicked = false ∧ s.main ≠ .returned .panic ∧
    (s.closed = true → s.files = [] ∧ ∀ p ∈ s.prods, p.fin = true) := by
  have hI := inv_of_reach h
  refine ⟨hI.panicked, fun hm => ?_, fun hc => ?_⟩
  · obtain ⟨kept, rest, k1, _⟩ := kept_of h hm (by simp)
    cases k1
  · obtain ⟨h1, h2⟩ := hI.ended (hI.closed.mp hc)
    exact ⟨h1, running_zero.mp h2⟩

theorem running_set {ps : List Prod} {i : Nat} {p q : Prod} (h : ps[i]? = some p) (hf : p.fin = false) :
    running (ps.set i q) ≤ running ps := by
  obtain ⟨a, b, e1, e2⟩ := flatMap_set (q := q) h
  rw [e2]
  conv_rhs => rw [e1]
  simp only [running, List.filter_append, List.filter_cons, hf, List.length_append]
  split <;> simp

/-- **C104**: no more goroutines than processors walk through files at the same time, and no more
declarations wait than the channel has places. -/
theorem C104_limit {s : St} (h : Reach cfg files s) :
    (s.prods.filter (fun p => !p.fin)).length ≤ cfg.cpu ∧ s.chan.length ≤ cfg.cpu + 1 := by
  induction h with
  | init => simp
  | @step s t l h hs ih =>
    obtain ⟨ih1, ih2⟩ := ih
    change running s.prods ≤ cfg.cpu at ih1
    change running t.prods ≤ cfg.cpu ∧ _
    cases l with
    | launch =>
      simp only [step] at hs
      split at hs
      · cases hs
      · injection hs with hs; subst hs; exact ⟨ih1, ih2⟩
      · split at hs
        · rename_i hlt
          injection hs with hs; subst hs
          refine ⟨?_, ih2⟩
          simp only [running] at hlt ⊢
          simp only [List.filter_append, List.length_append]
          simp
          omega
        · cases hs
    | send i =>
      simp only [step] at hs
      split at hs
      · rename_i d ds hp
        have hr := running_set (q := ⟨ds, false⟩) hp rfl
        split at hs
        · split at hs
          · injection hs with hs; subst hs; exact ⟨ih1, ih2⟩
          · split at hs
            · injection hs with hs; subst hs
              refine ⟨Nat.le_trans hr ih1, ?_⟩
              simp only [List.length_append, List.length_cons, List.length_nil]
              omega
            · cases hs
        · injection hs with hs; subst hs; exact ⟨Nat.le_trans hr ih1, ih2⟩
      · cases hs
    | fail i =>
      simp only [step] at hs
      split at hs
      · rename_i ds hp
        split at hs
        · injection hs with hs; subst hs
          exact ⟨Nat.le_trans (running_set hp rfl) ih1, ih2⟩
        · cases hs
      · cases hs
    | finish i =>
      simp only [step] at hs
      split at hs
      · rename_i hp
        injection hs with hs; subst hs
        exact ⟨Nat.le_trans (running_set hp rfl) ih1, ih2⟩
      · cases hs
    | recv =>
      simp only [step] at hs
      split at hs
      · rename_i hc
        injection hs with hs; subst hs
        rw [hc] at ih2
        simp only [List.length_cons] at ih2
        exact ⟨ih1, by simp only; omega⟩
      · cases hs
    | cancel => simp only [step] at hs; split at hs <;> first | (cases hs; done) | (injection hs with hs; subst hs; exact ⟨ih1, ih2⟩)
    | done => simp only [step] at hs; split at hs <;> first | (cases hs; done) | (injection hs with hs; subst hs; exact ⟨ih1, ih2⟩)
    | close => simp only [step] at hs; split at hs <;> first | (cases hs; done) | (injection hs with hs; subst hs; exact ⟨ih1, ih2⟩)
    | select b =>
      simp only [step] at hs
      split at hs
      · split at hs <;> split at hs <;> first
          | (cases hs; done)
          | (injection hs with hs; subst hs; exact ⟨ih1, ih2⟩)
      · cases hs

theorem prod_moves (cfg : Cfg) (s : St) (hI : Inv cfg files s) (i : Nat) (p : Prod) (hp : s.prods[i]? = some p)
    (hf : p.fin = false) : ∃ l t, l ≠ Label.cancel ∧ step cfg s l = some t := by
  obtain ⟨todo, fin⟩ := p
  simp only at hf
  subst hf
  cases todo with
  | nil => exact ⟨.finish i, _, by simp, by simp only [step, hp]; rfl⟩
  | cons d ds =>
    have hrun : s.main = .ranging := by
      by_contra hm
      have := running_zero.mp (hI.ended hm).2 _ (List.mem_of_getElem? hp)
      simp at this
    have hc : s.closed = false := by
      by_contra hc
      exact (hI.closed.mp (by simpa using hc)) hrun
    by_cases he : eligible (cfg.info d) = true
    · by_cases hl : s.chan.length < cfg.cpu + 1
      · exact ⟨.send i, _, by simp, by simp only [step, hp, he, hc, hl, if_true]; rfl⟩
      · cases hch : s.chan with
        | nil => simp [hch] at hl
        | cons x xs => exact ⟨.recv, _, by simp, by simp only [step, hch]; rfl⟩
    · exact ⟨.send i, _, by simp, by simp only [step, hp, he]; rfl⟩

theorem running_pos {ps : List Prod} (h : running ps ≠ 0) : ∃ (i : Nat) (p : Prod), ps[i]? = some p ∧ p.fin = false := by
  rw [Ne, running_zero] at h
  push Not at h
  obtain ⟨p, hp, hf⟩ := h
  obtain ⟨i, hi⟩ := List.getElem?_of_mem hp
  exact ⟨i, p, hi, by simpa using hf⟩

/-- **C104**: there is no deadlock: until the request has answered and the consumer has ended, some
goroutine can go on (without the request being cancelled). -/
theorem C104_progress (hcpu : 0 < cfg.cpu) {s : St} (h : Reach cfg files s) :
    ((∃ a, s.main = .returned a) ∧ s.consumed = true) ∨ ∃ l t, l ≠ Label.cancel ∧ step cfg s l = some t := by
  have hI := inv_of_reach h
  have consumer : s.closed = true → s.consumed = false → ∃ l t, l ≠ Label.cancel ∧ step cfg s l = some t := by
    intro hc hn
    cases hch : s.chan with
    | nil => exact ⟨.done, _, by simp, by simp only [step, hc, hch, hn]; rfl⟩
    | cons x xs => exact ⟨.recv, _, by simp, by simp only [step, hch]; rfl⟩
  cases hm : s.main with
  | ranging =>
    right
    by_cases hr : running s.prods = 0
    · cases hf : s.files with
      | nil => exact ⟨.close, _, by simp, by simp only [step, hm, hf, hr, and_self, if_true]; rfl⟩
      | cons f fs =>
        cases f with
        | none => exact ⟨.launch, _, by simp, by simp only [step, hf]; rfl⟩
        | some ds => exact ⟨.launch, _, by simp, by simp only [step, hf, hr, hcpu, if_true]; rfl⟩
    · obtain ⟨i, p, hp, hfin⟩ := running_pos hr
      exact prod_moves cfg s hI i p hp hfin
  | selecting =>
    right
    have hc : s.closed = true := hI.closed.mpr (by rw [hm]; simp)
    cases hcon : s.consumed with
    | true => exact ⟨.select true, _, by simp, by simp only [step, hm, hcon, if_true]; rfl⟩
    | false => exact consumer hc hcon
  | returned a =>
    have hc : s.closed = true := hI.closed.mpr (by rw [hm]; simp)
    cases hcon : s.consumed with
    | true => exact Or.inl ⟨⟨a, rfl⟩, rfl⟩
    | false => exact Or.inr (consumer hc hcon)

def Prod.weight (p : Prod) : Nat := if p.fin then 0 else 1 + 2 * p.todo.length

def fileWeight : Option (List Nat) → Nat
  | none => 1
  | some ds => 2 + 2 * ds.length

def Main.weight : Main → Nat
  | .ranging => 2
  | .selecting => 1
  | .returned _ => 0

/-- The number of steps that can still be made. -/
def weight (s : St) : Nat :=
  (s.files.map fileWeight).sum + (s.prods.map Prod.weight).sum + s.chan.length +
    (if s.consumed then 0 else 1) + (if s.cancelled then 0 else 1) + s.main.weight

theorem step_weight {s t : St} {l : Label} (hI : Inv cfg files s) (hs : step cfg s l = some t) :
    weight t < weight s := by
  cases l with
  | cancel =>
    simp only [step] at hs
    split at hs
    · cases hs
    · rename_i hc
      injection hs with hs; subst hs
      simp [weight, hc]
  | launch =>
    simp only [step] at hs
    split at hs
    · cases hs
    · rename_i hf
      injection hs with hs; subst hs
      simp [weight, hf, fileWeight]
    · rename_i hf
      split at hs
      · injection hs with hs; subst hs
        simp [weight, hf, fileWeight, Prod.weight]
        omega
      · cases hs
  | send i =>
    simp only [step] at hs
    split at hs
    · rename_i d ds hp
      have hrun : s.main = .ranging := by
        by_contra hm
        have := running_zero.mp (hI.ended hm).2 _ (List.mem_of_getElem? hp)
        simp at this
      obtain ⟨a, b, e1, e2⟩ := flatMap_set (q := ⟨ds, false⟩) hp
      split at hs
      · split at hs
        · rename_i hc
          exact absurd hrun (hI.closed.mp hc)
        · split at hs
          · injection hs with hs; subst hs
            simp only [weight, e2]
            simp [e1, Prod.weight]
            omega
          · cases hs
      · injection hs with hs; subst hs
        simp only [weight, e2]
        simp [e1, Prod.weight]
    · cases hs
  | fail i =>
    simp only [step] at hs
    split at hs
    · rename_i ds hp
      obtain ⟨a, b, e1, e2⟩ := flatMap_set (q := ⟨ds, true⟩) hp
      split at hs
      · injection hs with hs; subst hs
        simp only [weight, e2]
        simp [e1, Prod.weight]
        try omega
      · cases hs
    · cases hs
  | finish i =>
    simp only [step] at hs
    split at hs
    · rename_i hp
      obtain ⟨a, b, e1, e2⟩ := flatMap_set (q := ⟨[], true⟩) hp
      injection hs with hs; subst hs
      simp only [weight, e2]
      simp [e1, Prod.weight]
    · cases hs
  | recv =>
    simp only [step] at hs
    split at hs
    · rename_i hc
      injection hs with hs; subst hs
      simp [weight, hc]
    · cases hs
  | done =>
    simp only [step] at hs
    split at hs
    · rename_i hc
      simp only [Bool.and_eq_true, Bool.not_eq_true'] at hc
      injection hs with hs; subst hs
      simp [weight, hc.2]
    · cases hs
  | close =>
    simp only [step] at hs
    split at hs
    · rename_i hc
      injection hs with hs; subst hs
      simp only [weight, hc.1]
      cases s.failed <;> simp [Main.weight]
    · cases hs
  | select b =>
    simp only [step] at hs
    split at hs
    · rename_i hm
      split at hs <;> split at hs <;> first
        | cases hs; done
        | (injection hs with hs; subst hs; simp [weight, hm, Main.weight])
    · cases hs

/-- Runs from the start, with the number of steps. -/
inductive Steps (cfg : Cfg) (files : List (Option (List Nat))) : Nat → St → Prop
  | init : Steps cfg files 0 { files := files }
  | step {n s t l} : Steps cfg files n s → step cfg s l = some t → Steps cfg files (n + 1) t

theorem Steps.reach {n : Nat} {s : St} (h : Steps cfg files n s) : Reach cfg files s := by
  induction h with
  | init => exact .init
  | step _ hs ih => exact .step ih hs

theorem fileWeight_sum (files : List (Option (List Nat))) :
    (files.map fileWeight).sum ≤ 2 * files.length + 2 * (files.filterMap id).flatten.length := by
  induction files with
  | nil => simp
  | cons f fs ih => cases f <;> simp [fileWeight] at * <;> omega

/-- **C104**: the request ends: a run has at most four steps, and two for each file and for each
declaration. -/
theorem C104_ends {n : Nat} {s : St} (h : Steps cfg files n s) :
    n ≤ 4 + 2 * files.length + 2 * (files.filterMap id).flatten.length := by
  have hb : n + weight s ≤ weight { files := files } := by
    induction h with
    | init => simp
    | step h' hs ih => have := step_weight (inv_of_reach h'.reach) hs; omega
  have hw : weight { files := files } ≤ 4 + 2 * files.length + 2 * (files.filterMap id).flatten.length := by
    have := fileWeight_sum files
    simp [weight, Main.weight]
    simp at this
    omega
  omega

/-- **C104**: the request over several caches has the symbols of each of them, and nothing else. -/
theorem C104_caches {as : List Answer} (h : ∀ a ∈ as, ∃ cfg files s, Reach cfg files s ∧ s.main = .returned a) :
    ∃ l, symbolAnswer as = some l ∧ ∀ x, x ∈ l ↔ ∃ l', Answer.symbols l' ∈ as ∧ x ∈ l' := by
  induction as with
  | nil => exact ⟨[], rfl, by simp⟩
  | cons a as ih =>
    obtain ⟨l, h1, h2⟩ := ih (fun b hb => h b (List.mem_cons_of_mem _ hb))
    cases a with
    | nil => exact ⟨l, by simp [symbolAnswer, h1], by simpa using h2⟩
    | symbols l0 =>
      refine ⟨l0 ++ l, by simp [symbolAnswer, h1], ?_⟩
      intro x
      simp [h2, or_and_right, exists_or]
    | panic =>
      obtain ⟨cfg, files, s, hr, hm⟩ := h _ List.mem_cons_self
      exact absurd hm (C104_no_panic hr).2.1

namespace Demo

/-- A message with a field, a map entry, a oneof and an enum in two demoFiles; the third is a placeholder. -/
def info : Nat → Desc
  | 0 => ⟨.message, "foo.Bar".toList, none, "a".toList, false, false, some (1, 2)⟩
  | 1 => ⟨.field, "foo.Bar.id".toList, some "foo.Bar".toList, "a".toList, false, false, some (3, 4)⟩
  | 2 => ⟨.message, "foo.Bar.MEntry".toList, some "foo.Bar".toList, "a".toList, false, true, some (5, 6)⟩
  | 3 => ⟨.oneof, "foo.Bar.o".toList, some "foo.Bar".toList, "a".toList, false, false, some (7, 8)⟩
  | _ => ⟨.enum, "foo.Bart".toList, none, "b".toList, false, false, some (9, 10)⟩

/-- Lower-case ASCII. -/
def lower (s : Str) : Str := s.map Char.toLower

/-- "'Bar" is an exact word: no fuzzy matching. -/
def q : Str := "'Bar".toList

def demoFiles : List (Option (List Nat)) := [some [0, 1, 2, 3], none, some [4]]

def demoCfg : Cfg where
  info := info
  score := fun i => if 0 < parseQuery lower (fun _ _ => 0) q (info i).name then (if i = 4 then 2 else 1) else 0
  sym := fun i => (info i).name.map Char.toNat
  uriOf := fun p => some ("file:///".toList ++ p)
  found := fun _ => true
  cpu := 1

def runs (c : Cfg) (s : St) : List Label → Option St
  | [] => some s
  | l :: ls => (step c s l).bind (runs c · ls)

theorem reach_runs {c : Cfg} {fs : List (Option (List Nat))} : ∀ (ls : List Label) {s t : St}, Reach c fs s →
    runs c s ls = some t → Reach c fs t
  | [], s, t, h, e => by simp only [runs, Option.some.injEq] at e; exact e ▸ h
  | l :: ls, s, t, h, e => by
    simp only [runs, Option.bind_eq_some_iff] at e
    obtain ⟨u, h1, h2⟩ := e
    exact reach_runs ls (.step h h1) h2

/-- One CPU: the second file has to wait for the first. The channel has two places. -/
def schedule : List Label := [.launch, .launch, .send 0, .send 0, .recv, .send 0, .send 0, .finish 0, .launch,
  .send 1, .finish 1, .close, .recv, .recv, .done, .select true]

def final : Option St := runs demoCfg { files := demoFiles } schedule

theorem final_main : final.map St.main = some (.returned (.symbols [
    ⟨"foo.Bart".toList, .enum, "file:///b".toList, (9, 10), []⟩,
    ⟨"foo.Bar".toList, .class_, "file:///a".toList, (1, 2), []⟩,
    ⟨"foo.Bar.id".toList, .field, "file:///a".toList, (3, 4), "foo.Bar".toList⟩])) := by decide +kernel

theorem scored : ScoredBy lower (fun _ _ => 0) q demoCfg.info demoCfg.score := by
  intro i
  simp only [demoCfg]
  split
  · rename_i h; simp only [h, iff_true]; split <;> decide
  · rename_i h; simp [h]

/-- The hypotheses of `C104_only`, `C104_found` and `C104_order` are met by this run. -/
example : ∃ s l, Reach demoCfg demoFiles s ∧ s.main = .returned (.symbols l) ∧ l.length = 3 ∧
    ScoredBy lower (fun _ _ => 0) q demoCfg.info demoCfg.score := by
  have h := final_main
  obtain ⟨s, hs, hm⟩ := Option.map_eq_some_iff.mp h
  exact ⟨s, _, reach_runs schedule .init hs, hm, rfl, scored⟩

/-- A cancelled request: the goroutine stops, the consumer goes on alone. -/
example : (runs demoCfg { files := demoFiles } [.launch, .send 0, .cancel, .fail 0, .launch, .launch, .fail 1, .close,
    .recv, .done]).map (fun s => (s.main, s.stored, s.cancelled, s.consumed)) =
    some (.returned .nil, [0], true, true) := by decide +kernel

/-- The second goroutine has to wait while the first runs, a full channel stops the sender. -/
example : (runs demoCfg { files := demoFiles } [.launch, .launch, .launch]).isNone = true ∧
    (runs { demoCfg with cpu := 0 } { files := demoFiles } [.launch]).isNone = true ∧
    (runs demoCfg { files := [some [0, 1, 4]] } [.launch, .send 0, .send 0, .send 0]).isNone = true := by decide +kernel

example : symbolAnswer [.nil, .symbols [⟨[], .enum, [], (0, 0), []⟩], .symbols []] =
    some [⟨[], .enum, [], (0, 0), []⟩] := rfl

end Demo

end Verif.SymbolQuery
