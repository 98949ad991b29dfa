import Verif.Spec.Definition
/-!
# Lemmas about go to definition
-/
namespace Verif.Definition
open Verif.PathSearch (Schema Sort' Name)

variable {D P ρ υ : Type}

theorem find_of_nodup {α : Type} (m : List (Str × α)) (h : (m.map (·.1)).Nodup) {k : Str} {v : α} (hm : (k, v) ∈ m) :
    (m.find? fun e => decide (e.1 = k)) = some (k, v) := by
  induction m with
  | nil => cases hm
  | cons e m ih =>
    rw [List.map_cons, List.nodup_cons] at h
    rcases List.mem_cons.1 hm with he | hm
    · subst he
      simp
    · have : e.1 ≠ k := fun hk => h.1 (hk ▸ List.mem_map.2 ⟨_, hm, rfl⟩)
      rw [List.find?_cons_of_neg (by simpa using this)]
      exact ih h.2 hm

theorem find_none {α : Type} (m : List (Str × α)) {k : Str} (h : ∀ v, (k, v) ∉ m) : (m.find? fun e => decide (e.1 = k)) = none := by
  rw [List.find?_eq_none]
  intro e he hk
  have : e.1 = k := by simpa using hk
  exact h e.2 (this ▸ he)

/-- The last result is the one that the lookup finds. -/
theorem find_last {c : Cache D P ρ υ} (hc : Single c) {path : Str} {R : Res D P ρ} (h : Last c path R) : findResultOrPartial c path = .ok R := by
  unfold findResultOrPartial Assoc.get
  rcases h with h | ⟨h, h'⟩
  · rw [find_of_nodup _ hc.1 h]
    rfl
  · rw [find_none _ h]
    simp only [Option.map_none, findResult]
    rw [find_of_nodup _ hc.2 h']

theorem byProto_own {I : Descs D P} {src : Source υ ρ} {R : Res D P ρ} {own : D → Prop} (hb : Built I src R own) {d : D} (ho : own d)
    {k : Sort'} (hk : declSort (I.schema.sort d) = k) {s : Sort'} {r : ρ} (hr : (I.schema.fullName d, s, r) ∈ src.decls) :
    byProto R k (I.proto d) = .ok (src.path, r) := by
  obtain ⟨p, r', hp, hd, hn⟩ := hb.decl ho
  obtain ⟨_, rfl⟩ := hb.unique hd hr
  rw [hp, ← hk]
  simp only [byProto, hn, reference, hb.filename]

theorem findDefinition_known {I : Descs D P} {src : Source υ ρ} {R : Res D P ρ} {own : D → Prop} (hb : Built I src R own) {d : D}
    (hk : Known I src own d) {s : Sort'} {r : ρ} (hr : (I.schema.fullName d, s, r) ∈ src.decls) :
    findDefinition I R d = .ok (src.path, r) := by
  cases hk with
  | own ho hs =>
    have key := fun k hk => byProto_own hb ho (k := k) hk hr
    obtain ⟨p, _, hp, _, _⟩ := hb.decl ho
    unfold findDefinition
    cases h : I.schema.sort d <;> rw [h] at key hs <;> simp only
    · exact absurd rfl hs
    · exact key _ rfl
    · have := key .field rfl
      rw [hp] at this ⊢
      simp only [this, ite_self]
    · have := key .field rfl
      rw [hp] at this ⊢
      simp only [this, ite_self]
    · exact key _ rfl
    · have := key .enumValue rfl
      rw [hp] at this ⊢
      exact this
    · exact key _ rfl
    · exact key _ rfl
    · exact key _ rfl
  | extension hs hx hp ho hn hds =>
    unfold findDefinition
    simp only [hs, hx, hp, Bool.true_eq_false, if_false, if_true]
    exact byProto_own hb ho hds (hn ▸ hr)
  | builtin hs hp hn =>
    have key : ∀ k, k = I.schema.sort d → declSort k = k → byFullName I R k d = .ok (src.path, r) := by
      intro k hk hkk
      obtain ⟨r', hr'⟩ := hn
      obtain ⟨d', h1, h2, h3⟩ := hb.named hr
      obtain ⟨p, r2, _, hd, _⟩ := hb.decl h2
      rw [h3] at hd
      have := (hb.unique hd hr').1
      unfold byFullName
      rw [h1]
      exact byProto_own hb h2 (by rw [← this, ← hk]) (h3 ▸ hr)
    unfold findDefinition
    rcases hs with ⟨hs, hx⟩ | hs
    · simp only [hs, hx, hp, if_true]
      exact key .field hs.symm (by decide)
    · simp only [hs, hp]
      exact key .enumValue hs.symm (by decide)

end Verif.Definition
