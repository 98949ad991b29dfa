import Verif.Spec.OptionValues
import Verif.Util.Decimal
import Mathlib.Data.Rat.Lemmas
import Mathlib.Tactic.FieldSimp
import Mathlib.Tactic.Ring
import Mathlib.Tactic.NormNum
import Mathlib.Tactic.Linarith
import Mathlib.Algebra.Order.Field.Rat
import Mathlib.Algebra.Order.Ring.Abs
/-!
# Lemmas for C100
-/
namespace Verif.OptionValues
set_option linter.unusedSectionVars false
open Verif.Printer (QName LName SVal Fl MLit Lit MLits LFields OVal OName Opt Opts)
open Verif.Decls Verif.Literal

variable {T : Type}

/-! ## Numbers -/

theorem dec_len (k : Nat) : ∀ n, n < 10 ^ (k + 1) → (dec n).length ≤ k + 1 := by
  induction k with
  | zero => intro n h; rw [dec, if_pos (by omega)]; simp
  | succ k ih =>
    intro n h
    rw [dec]
    split
    · simp
    · have := ih (n / 10) (by rw [Nat.div_lt_iff_lt_mul (by decide)]; rw [Nat.pow_succ] at h; exact h)
      simp; omega

theorem decVal_zeros (k : Nat) (s : Str) : decVal (List.replicate k '0' ++ s) = decVal s := by
  induction k with
  | zero => rfl
  | succ k ih => rw [List.replicate_succ]; simpa [decVal] using ih

theorem pad6_val (n : Nat) : decVal (pad6 n) = n := by rw [pad6, decVal_zeros, decVal_dec]

theorem pad6_len (n : Nat) (h : n < 1000000) : (pad6 n).length = 6 := by
  have := dec_len 5 n (by simpa using h)
  simp [pad6]; omega

theorem pad6_digits (n : Nat) : (pad6 n).all isDigit = true := by
  rw [List.all_eq_true]
  intro c hc
  rcases List.mem_append.mp hc with h | h
  · rw [(List.mem_replicate.mp h).2]; decide
  · exact dec_digits n c h

theorem micros_eq (n : Nat) : micros ((n : Rat) / 1000000) = n := by
  generalize hq : (n : Rat) / 1000000 = q
  have hd : (q.den : Rat) ≠ 0 := by exact_mod_cast q.den_nz
  have h1 : (q.num : Rat) * 1000000 = n * q.den := by
    have h2 : q * q.den = q.num := Rat.mul_den_eq_num q
    have h3 : q * 1000000 = n := by rw [← hq]; field_simp
    rw [← h2, ← h3]; ring
  have h4 : q.num * 1000000 = (n : Int) * q.den := by exact_mod_cast h1
  have h5 : q.num.natAbs * 1000000 = n * q.den := by
    have := congrArg Int.natAbs h4
    simpa [Int.natAbs_mul] using this
  have hp : 0 < q.den := q.den_pos
  simp only [micros, h5, Nat.mul_mod_left, Nat.mul_div_cancel _ hp]
  rw [if_neg]
  omega

/-- The nearest multiple, the even one of two. -/
theorem micros_nearest (q : Rat) (hq : 0 ≤ q) :
    |(micros q : Rat) - q * 1000000| ≤ 1 / 2 ∧ (|(micros q : Rat) - q * 1000000| = 1 / 2 → micros q % 2 = 0) := by
  have hp : 0 < q.den := q.den_pos
  have hd : (0 : Rat) < q.den := by exact_mod_cast hp
  have hnum : (q.num.natAbs : Rat) = q * q.den := by
    have h1 : (q.num.natAbs : Int) = q.num := Int.natAbs_of_nonneg (Rat.num_nonneg.mpr hq)
    have h2 : ((q.num.natAbs : Int) : Rat) = q.num := by rw [h1]
    rw [Rat.mul_den_eq_num, ← h2, Int.cast_natCast]
  generalize hd' : q.den = d at *
  generalize ha : q.num.natAbs * 1000000 = a
  have haq : (a : Rat) = q * 1000000 * d := by
    have : (a : Rat) = (q.num.natAbs : Rat) * 1000000 := by exact_mod_cast ha.symm
    rw [this, hnum]; ring
  have hdiv : (a : Rat) = d * (a / d : Nat) + (a % d : Nat) := by exact_mod_cast (Nat.div_add_mod a d).symm
  have hlt : a % d < d := Nat.mod_lt _ hp
  have hm : micros q = if d < 2 * (a % d) ∨ (2 * (a % d) = d ∧ (a / d) % 2 = 1) then a / d + 1 else a / d := by
    simp only [micros, hd', ha]
  generalize a / d = n at *
  generalize a % d = r at *
  have hqd : q * 1000000 = n + r / d := by
    field_simp
    rw [← haq, hdiv]; ring
  have hrd : (r : Rat) / d * d = r := by field_simp
  generalize (r : Rat) / d = x at *
  rw [hqd, hm]
  split
  · rename_i h
    have h1 : (d : Rat) ≤ 2 * r := by
      have : d ≤ 2 * r := by omega
      exact_mod_cast this
    have hx1 : 1 / 2 ≤ x := by
      by_contra hc
      have : x * d < 1 / 2 * d := mul_lt_mul_of_pos_right (not_le.mp hc) hd
      linarith
    have hx2 : x < 1 := by
      by_contra hc
      have : 1 * d ≤ x * d := mul_le_mul_of_nonneg_right (not_lt.mp hc) hd.le
      have : (r : Rat) < d := by exact_mod_cast hlt
      linarith
    have he : ((n + 1 : Nat) : Rat) - (n + x) = 1 - x := by push_cast; ring
    rw [he, abs_of_pos (by linarith)]
    refine ⟨by linarith, fun h2 => ?_⟩
    have hx : x = 1 / 2 := by linarith
    have h3 : 2 * (r : Rat) = d := by rw [← hrd, hx]; ring
    have h4 : 2 * r = d := by exact_mod_cast h3
    omega
  · rename_i h
    have h1 : 2 * (r : Rat) ≤ d := by
      have : 2 * r ≤ d := by omega
      exact_mod_cast this
    have hx1 : x ≤ 1 / 2 := by
      by_contra hc
      have : 1 / 2 * d < x * d := mul_lt_mul_of_pos_right (not_le.mp hc) hd
      linarith
    have hx2 : 0 ≤ x := by
      by_contra hc
      have : x * d < 0 * d := mul_lt_mul_of_pos_right (not_le.mp hc) hd
      have : (0 : Rat) ≤ r := by exact_mod_cast Nat.zero_le r
      linarith
    have he : (n : Rat) - (n + x) = -x := by ring
    rw [he, abs_neg, abs_of_nonneg hx2]
    refine ⟨hx1, fun h2 => ?_⟩
    have h3 : 2 * (r : Rat) = d := by rw [← hrd, h2]; ring
    have h4 : 2 * r = d := by exact_mod_cast h3
    omega

theorem decimal_fmtF (q : Rat) : decimal (fmtF q) = some ((micros q : Rat) / 1000000) := by
  generalize hn : micros q = n
  have hne : ∀ c ∈ dec (n / 1000000), (decide (c ≠ '.')) = true := by
    intro c hc
    have := dec_digits _ c hc
    simp only [decide_eq_true_eq]
    rintro rfl
    exact absurd this (by decide)
  have h1 : (fmtF q).takeWhile (fun c => decide (c ≠ '.')) = dec (n / 1000000) := by
    rw [fmtF, hn, List.takeWhile_append_of_pos hne]; simp
  have h2 : (fmtF q).dropWhile (fun c => decide (c ≠ '.')) = '.' :: pad6 (n % 1000000) := by
    rw [fmtF, hn, List.dropWhile_append_of_pos hne]; simp
  have hm : n % 1000000 < 1000000 := Nat.mod_lt _ (by decide)
  simp only [decimal, h1, h2, List.drop_succ_cons, List.drop_zero]
  rw [if_pos ⟨dec_ne_nil _, List.all_eq_true.mpr (dec_digits _), pad6_digits _⟩, decVal_dec, pad6_val, pad6_len _ hm]
  congr 1
  have : (n : Rat) = 1000000 * (n / 1000000 : Nat) + (n % 1000000 : Nat) := by exact_mod_cast (Nat.div_add_mod n 1000000).symm
  rw [eq_div_iff (by norm_num)]
  rw [this]
  have e1 : (1000000 * (n / 1000000) + n % 1000000) / 1000000 = n / 1000000 := by omega
  have e2 : (1000000 * (n / 1000000) + n % 1000000) % 1000000 = n % 1000000 := by omega
  norm_num
  ring

theorem integer_dec (z : Int) : integer (decide (z < 0)) (dec z.natAbs) = some z := by
  rw [integer, if_pos ⟨dec_ne_nil _, List.all_eq_true.mpr (dec_digits _)⟩, decVal_dec, signed]
  by_cases h : z < 0
  · simp only [h, decide_true, if_true]; congr 1; omega
  · simp only [h, decide_false]; rw [if_neg (by decide)]; congr 1; omega

theorem numberOf_nameOf (values : List (Str × Int)) (z : Int) (n : Str) (hn : (values.map Prod.fst).Nodup) (h : nameOf values z = some n) :
    numberOf values n = some z := by
  induction values with
  | nil => simp [nameOf] at h
  | cons v vs ih =>
    obtain ⟨m, y⟩ := v
    rw [List.map_cons, List.nodup_cons] at hn
    by_cases hy : y = z
    · subst hy
      simp [nameOf] at h
      simp [numberOf, h]
    · have h' : nameOf vs z = some n := by simpa [nameOf, List.find?_cons, hy] using h
      have hm : m ≠ n := by
        rintro rfl
        apply hn.1
        obtain ⟨w, hw, hw'⟩ := Option.map_eq_some_iff.mp h'
        exact List.mem_map.mpr ⟨w, List.mem_of_find?_eq_some hw, hw'⟩
      have := ih hn.2 h'
      simpa [numberOf, List.find?_cons, hm] using this

theorem nameOf_known (values : List (Str × Int)) (z : Int) (h : z ∈ values.map Prod.snd) : ∃ n, nameOf values z = some n := by
  obtain ⟨v, hv, rfl⟩ := List.mem_map.mp h
  cases hf : values.find? (fun w => decide (w.2 = v.2)) with
  | none => have := List.find?_eq_none.mp hf v hv; simp at this
  | some w => exact ⟨w.1, by rw [nameOf, hf]; rfl⟩

/-! ## Leaves -/

theorem inf_ne : ("inf".toList : Str) = ['i', 'n', 'f'] := by decide
theorem nan_ne : ("nan".toList : Str) = ['n', 'a', 'n'] := by decide
theorem true_ne : ("true".toList : Str) = ['t', 'r', 'u', 'e'] := by decide
theorem false_ne : ("false".toList : Str) = ['f', 'a', 'l', 's', 'e'] := by decide

theorem bool_word (b : Bool) :
    (if (if b then "true".toList else "false".toList) = "true".toList then some true
      else if (if b then "true".toList else "false".toList) = "false".toList then some false else none) = some b := by
  cases b <;> decide

theorem leaf_ok (ty : Ty T) (l : Leaf) (c : Const) (h : LeafOk ty l) (hc : (sval ty l).Means c) : leaf ty c = some l := by
  cases l with
  | int z =>
    cases ty <;> try exact absurd h id
    simp only [sval, SVal.Means] at hc
    subst hc
    simp [leaf, integer_dec]
  | float neg q =>
    cases ty <;> try exact absurd h id
    obtain ⟨n, rfl⟩ := h
    simp only [sval, SVal.Means] at hc
    subst hc
    simp [leaf, decimal_fmtF, micros_eq]
  | inf neg =>
    cases ty <;> try exact absurd h id
    simp only [sval, SVal.Means] at hc
    subst hc
    rw [leaf, if_pos inf_ne.symm]
  | nan =>
    cases ty <;> try exact absurd h id
    simp only [sval, SVal.Means] at hc
    subst hc
    rw [leaf, if_neg (by decide), if_pos ⟨nan_ne.symm, rfl⟩]
  | str b =>
    cases ty <;> try exact absurd h id
    obtain ⟨t, rfl, ht⟩ := hc
    have ht : value (t.map Char.toNat) = some b := ht
    simp [leaf, ht]
  | bytes b =>
    cases ty <;> try exact absurd h id
    obtain ⟨t, rfl, ht⟩ := hc
    have ht : value (t.map Char.toNat) = some b := ht
    simp [leaf, ht]
  | bool b =>
    cases ty <;> try exact absurd h id
    simp only [sval, SVal.Means] at hc
    subst hc
    cases b
    · rw [leaf, if_neg (by decide), if_pos (by decide)]
    · rw [leaf, if_pos (by decide)]
  | enum z =>
    cases ty with
    | enum values =>
      simp only [sval] at hc
      cases hn : nameOf values z with
      | none =>
        rw [hn] at hc
        simp only [SVal.Means] at hc
        subst hc
        simp [leaf, integer_dec]
      | some n =>
        rw [hn] at hc
        simp only [SVal.Means] at hc
        subst hc
        simp [leaf, numberOf_nameOf values z n h hn]
    | _ => exact absurd h id

theorem key_ok (kt : KeyTy) (k : Key) (c : Const) (h : KeyOk kt k) (hc : (keyVal k).Means c) : key kt c = some k := by
  cases k with
  | int z =>
    cases kt <;> try exact absurd h id
    simp only [keyVal, SVal.Means] at hc
    subst hc
    simp [key, integer_dec]
  | bool b =>
    cases kt <;> try exact absurd h id
    simp only [keyVal, SVal.Means] at hc
    subst hc
    cases b <;> decide
  | str b =>
    cases kt <;> try exact absurd h id
    obtain ⟨t, rfl, ht⟩ := hc
    have ht : value (t.map Char.toNat) = some b := ht
    simp [key, ht]

/-- What is left out is the default. -/
theorem keyZero_default (kt : KeyTy) (k : Key) (h : KeyOk kt k) (hz : keyZero k = true) : keyDefault kt = k := by
  cases k <;> cases kt <;> first | exact absurd h id | simp_all [keyZero, keyDefault]

theorem valZero_default (ty : Ty T) (v : Val T) (l : Leaf) (hv : v = .leaf l) (h : LeafOk ty l) (hf : ZeroFirst false ty) (hz : leafZero l = true) :
    default ty = v := by
  subst hv
  cases l <;> cases ty <;> try exact absurd h id
  all_goals try (simp_all [leafZero, default]; done)
  rename_i values
  cases values with
  | nil => exact absurd hf id
  | cons w ws =>
    rcases hf with hf | hf
    · cases hf
    · simp only [leafZero, decide_eq_true_eq] at hz; simp [default, hf, hz]

/-! ## Orders -/

theorem strLt_iff (a b : Bytes) : strLt a b = true ↔ a < b := by
  induction a generalizing b with
  | nil => cases b <;> simp [strLt]
  | cons x a ih =>
    cases b with
    | nil => simp [strLt]
    | cons y b =>
      rw [strLt, List.cons_lt_cons_iff]
      by_cases h1 : x < y
      · simp [h1]
      · by_cases h2 : y < x
        · simp [h1, h2]; omega
        · have : x = y := by omega
          subst this
          simp [ih]

theorem keyLt_iff (a b : Key) : keyLt a b = true ↔ a.Before b := by
  cases a <;> cases b <;> simp [keyLt, Key.Before, strLt_iff]

theorem before_irrefl (a : Key) : ¬a.Before a := by
  cases a <;> simp [Key.Before]

theorem before_trans (a b c : Key) (h1 : a.Before b) (h2 : b.Before c) : a.Before c := by
  cases a <;> cases b <;> cases c <;> simp [Key.Before] at h1 h2 ⊢
  · omega
  · exact absurd h1.2 (by simp [h2.1])
  · exact List.lt_trans h1 h2

theorem before_asymm (a b : Key) (h : a.Before b) : ¬b.Before a := fun h' => before_irrefl a (before_trans _ _ _ h h')

/-- A sorted permutation of a strictly sorted list is the list. -/
theorem eq_of_sorted {α : Type} {lt : α → α → Prop} (l l' : List α) (h : l'.Perm l) (hl : l.Pairwise lt)
    (hl' : l'.Pairwise (fun a b => ¬lt b a)) : l' = l := by
  induction l generalizing l' with
  | nil => exact h.eq_nil
  | cons a l ih =>
    rw [List.pairwise_cons] at hl
    cases l' with
    | nil => exact absurd h.symm.eq_nil (by simp)
    | cons b l' =>
      rw [List.pairwise_cons] at hl'
      by_cases hab : b = a
      · subst hab
        rw [ih l' (List.Perm.cons_inv h) hl.2 hl'.2]
      · have hb : b ∈ l := by
          have := h.subset (List.mem_cons_self)
          rcases List.mem_cons.mp this with h' | h'
          · exact absurd h' hab
          · exact h'
        have ha : a ∈ l' := by
          have := h.symm.subset (List.mem_cons_self)
          rcases List.mem_cons.mp this with h' | h'
          · exact absurd h'.symm hab
          · exact h'
        exact absurd (hl.1 b hb) (hl'.1 a ha)

theorem sortFields_eq (R : Ranging) (hR : R.Ok) (l : List (Int × LName × Lit)) (h : l.Pairwise (fun a b => a.1 < b.1)) : sortFields (R.fields l) = l := by
  apply eq_of_sorted (lt := fun a b => a.1 < b.1) l _ ((isort_perm _ _).trans (hR.fields l)) h
  apply List.Pairwise.imp _ (isort_pairwise (le := fun a b : Int × LName × Lit => decide (a.1 ≤ b.1)) _ _ (R.fields l))
  · intro a b hab; simp at hab; omega
  · intro a b; simp; omega
  · intro a b c; simp; omega

def Key.rank : Key → Nat
  | .int _ => 0
  | .bool _ => 1
  | .str _ => 2

/-- A total order of all keys. -/
def keyLt' (a b : Key) : Bool := if a.rank = b.rank then keyLt a b else decide (a.rank < b.rank)

theorem keyLt_trans (a b c : Key) (h1 : keyLt a b = true) (h2 : keyLt b c = true) : keyLt a c = true :=
  (keyLt_iff _ _).mpr (before_trans _ _ _ ((keyLt_iff _ _).mp h1) ((keyLt_iff _ _).mp h2))

theorem keyLt_asymm (a b : Key) (h : keyLt a b = true) : keyLt b a = false := by
  rw [Bool.eq_false_iff]; exact fun h' => before_asymm _ _ ((keyLt_iff _ _).mp h) ((keyLt_iff _ _).mp h')

theorem keyLt_conn (a b : Key) (hr : a.rank = b.rank) (h1 : keyLt a b = false) (h2 : keyLt b a = false) : a = b := by
  rw [Bool.eq_false_iff] at h1 h2
  rw [ne_eq, keyLt_iff] at h1 h2
  cases a <;> cases b <;> simp [Key.rank, Key.Before] at hr h1 h2 ⊢
  · omega
  · rename_i a b; cases a <;> cases b <;> simp_all
  · exact List.le_antisymm h2 h1

theorem isort_congr {α : Type} (le le' : α → α → Bool) (l : List α) (h : ∀ a ∈ l, ∀ b ∈ l, le a b = le' a b) : isort le l = isort le' l := by
  have hi : ∀ (a : α) (l : List α), (∀ b ∈ l, le a b = le' a b) → insertBy le a l = insertBy le' a l := by
    intro a l
    induction l with
    | nil => intro _; rfl
    | cons b l ih =>
      intro h
      rw [insertBy, insertBy, h b List.mem_cons_self, ih (fun c hc => h c (List.mem_cons_of_mem _ hc))]
  induction l with
  | nil => rfl
  | cons a l ih =>
    rw [isort, isort, ih (fun b hb c hc => h b (List.mem_cons_of_mem _ hb) c (List.mem_cons_of_mem _ hc))]
    apply hi
    intro b hb
    exact h a List.mem_cons_self b (List.mem_cons_of_mem _ ((isort_perm _ _).subset hb))

theorem sortKeys_eq {α : Type} (l l' : List (Key × α)) (hp : l'.Perm l) (r : Nat) (hr : ∀ x ∈ l, x.1.rank = r)
    (h : l.Pairwise (fun a b => a.1.Before b.1)) : sortKeys l' = l := by
  have hr' : ∀ x ∈ l', x.1.rank = r := fun x hx => hr x (hp.subset hx)
  have e : sortKeys l' = isort (fun a b => !keyLt' b.1 a.1) l' := by
    apply isort_congr
    intro a ha b hb
    simp [keyLt', hr' a ha, hr' b hb]
  rw [e]
  apply eq_of_sorted (lt := fun a b => keyLt' a.1 b.1 = true) l _ ((isort_perm _ _).trans hp)
  · apply List.Pairwise.imp_of_mem _ h
    intro a b ha hb hab
    simp [keyLt', hr a ha, hr b hb, (keyLt_iff _ _).mpr hab]
  · apply List.Pairwise.imp _ (isort_pairwise (le := fun a b : Key × α => !keyLt' b.1 a.1) _ _ l')
    · intro a b hab; simpa using hab
    · intro a b
      simp only [keyLt', Bool.not_eq_true']
      by_cases hab : a.1.rank = b.1.rank
      · simp only [hab, if_true]
        cases h1 : keyLt b.1 a.1
        · exact Or.inl rfl
        · exact Or.inr (keyLt_asymm _ _ h1)
      · rw [if_neg (fun h => hab h.symm), if_neg hab]
        simp only [decide_eq_false_iff_not]
        omega
    · intro a b c
      simp only [keyLt', Bool.not_eq_true']
      intro h1 h2
      by_cases hab : b.1.rank = a.1.rank <;> by_cases hbc : c.1.rank = b.1.rank
      · rw [if_pos hab] at h1
        rw [if_pos hbc] at h2
        rw [if_pos (hbc.trans hab)]
        rw [Bool.eq_false_iff]
        intro h3
        cases h4 : keyLt a.1 b.1
        · rw [keyLt_conn _ _ hab.symm h4 h1] at h3
          rw [h2] at h3; exact absurd h3 (by decide)
        · rw [keyLt_trans _ _ _ h3 h4] at h2; exact absurd h2 (by decide)
      · rw [if_neg hbc] at h2; rw [if_neg (by omega)]; simp at h2 ⊢; omega
      · rw [if_neg hab] at h1; rw [if_neg (by omega)]; simp at h1 ⊢; omega
      · rw [if_neg hab] at h1; rw [if_neg hbc] at h2; simp at h1 h2; rw [if_neg (by omega)]; simp; omega

/-! ## Messages -/

variable (S : Schema T) (pk : QName)

/-- The value of a field in a literal. -/
def fieldVal (fd : Fd T) (c : Const) : Option (FVal T) :=
  match fd.card with
  | .single => (single S fd.type c).map .one
  | .list =>
    match c with
    | .list cs => (elements S fd.type cs).map .list
    | c => (single S fd.type c).map fun v => .list (.cons v .nil)
  | .map k _ =>
    match c with
    | .list cs => (entries S k fd.type cs).map .map
    | .msg es => (entry S k fd.type es).map fun e => .map (.cons (e.1.getD (keyDefault k)) (e.2.getD (default fd.type)) .nil)
    | _ => none

theorem fields_cons (t : T) (n : CName) (c : Const) (fs : CFields) :
    fields S t (.cons n c fs) = (S.field t n).bind fun fd => (fieldVal S fd c).bind fun v => (fields S t fs).bind fun r => r.put fd v := by
  rw [fields]; rfl

theorem single_leaf (ty : Ty T) (l : Leaf) (c : Const) (h : LeafOk ty l) (hc : (sval ty l).Means c) : single S ty c = some (.leaf l) := by
  have hl := leaf_ok ty l c h hc
  cases c with
  | msg fs => cases ty <;> simp [leaf] at hl
  | list cs => cases ty <;> simp [leaf] at hl
  | num neg s => simp [single, hl]
  | word neg s => simp [single, hl]
  | str t => simp [single, hl]

theorem means_not_any (n : LName) (dom type : QName) : ¬n.Means pk (.any dom type) := by
  cases n with
  | plain s => intro h; cases h
  | ext q => rintro ⟨r, h, _⟩; cases h

theorem above_put (fd : Fd T) (v : FVal T) (fs : Flds T) (h : Flds.Above fd.number fs) : fs.put fd v = some (.cons fd v fs) := by
  cases fs with
  | nil => rfl
  | cons fd' v' fs => rw [Flds.put, if_pos h.1]

theorem above_add (k : Key) (v : Val T) (es : Ents T) (h : Ents.Above k es) : es.add k v = some (.cons k v es) := by
  cases es with
  | nil => rfl
  | cons k' v' es => rw [Ents.add, if_pos h.1]

theorem flds_above (R : Ranging) (n : Int) : ∀ fs : Flds T, Flds.Above n fs → ∀ x ∈ Flds.lits R fs, n < x.1
  | .nil, _, x, hx => by simp [Flds.lits] at hx
  | .cons fd v fs, h, x, hx => by
    rw [Flds.lits, List.mem_cons] at hx
    rcases hx with rfl | hx
    · exact h.1
    · exact flds_above R n fs h.2 x hx

theorem flds_sorted (R : Ranging) (t : T) : ∀ fs : Flds T, Flds.Ok S pk t fs → (Flds.lits R fs).Pairwise (fun a b => a.1 < b.1)
  | .nil, _ => by rw [Flds.lits]; exact .nil
  | .cons fd v fs, h => by
    rw [Flds.lits, List.pairwise_cons]
    rw [Flds.Ok] at h
    exact ⟨flds_above R _ fs h.2.2.1, flds_sorted R t fs h.2.2.2⟩

/-- The literal of the value of an entry. -/
def valLit (R : Ranging) (ty : Ty T) : Val T → Lit
  | .leaf l => .scalar (sval ty l)
  | v => .msg (Val.mlit R v)

theorem ents_lits_cons (R : Ranging) (ty : Ty T) (presence : Bool) (k : Key) (v : Val T) (es : Ents T) :
    Ents.lits R ty presence (.cons k v es) = (k, entryLit presence k v (valLit R ty v)) :: Ents.lits R ty presence es := by
  cases v <;> rw [Ents.lits] <;> first | rfl | simp

theorem ents_above (R : Ranging) (ty : Ty T) (presence : Bool) (k : Key) : ∀ es : Ents T, Ents.Above k es → ∀ x ∈ Ents.lits R ty presence es, k.Before x.1
  | .nil, _, x, hx => by simp [Ents.lits] at hx
  | .cons k' v es, h, x, hx => by
    rw [ents_lits_cons, List.mem_cons] at hx
    rcases hx with rfl | hx
    · exact h.1
    · exact ents_above R ty presence k es h.2 x hx

theorem ents_sorted (R : Ranging) (ty : Ty T) (presence : Bool) (kt : KeyTy) :
    ∀ es : Ents T, Ents.Ok S pk kt ty es → (Ents.lits R ty presence es).Pairwise (fun a b => a.1.Before b.1)
  | .nil, _ => by rw [Ents.lits]; exact .nil
  | .cons k v es, h => by
    rw [ents_lits_cons, List.pairwise_cons]
    rw [Ents.Ok] at h
    exact ⟨ents_above R ty presence k es h.2.2.1, ents_sorted R ty presence kt es h.2.2.2⟩

def KeyTy.rank : KeyTy → Nat
  | .int => 0
  | .bool => 1
  | .str => 2

theorem key_rank (kt : KeyTy) (k : Key) (h : KeyOk kt k) : k.rank = kt.rank := by
  cases k <;> cases kt <;> first | exact absurd h id | rfl

theorem ents_rank (R : Ranging) (ty : Ty T) (presence : Bool) (kt : KeyTy) :
    ∀ es : Ents T, Ents.Ok S pk kt ty es → ∀ x ∈ Ents.lits R ty presence es, x.1.rank = kt.rank
  | .nil, _, x, hx => by simp [Ents.lits] at hx
  | .cons k v es, h, x, hx => by
    rw [ents_lits_cons, List.mem_cons] at hx
    rw [Ents.Ok] at h
    rcases hx with rfl | hx
    · exact key_rank _ _ h.1
    · exact ents_rank R ty presence kt es h.2.2.2 x hx

theorem ents_order (R : Ranging) (hR : R.Ok) (ty : Ty T) (presence : Bool) (kt : KeyTy) (es : Ents T) (h : Ents.Ok S pk kt ty es) :
    sortKeys (R.keys (Ents.lits R ty presence es)) = Ents.lits R ty presence es :=
  sortKeys_eq _ _ (hR.keys _) kt.rank (ents_rank S pk R ty presence kt es h) (ents_sorted S pk R ty presence kt es h)

theorem key_ne_value : (CName.plain keyName) ≠ .plain "value".toList := by decide

theorem entry_ok (presence : Bool) (kt : KeyTy) (ty : Ty T) (k : Key) (v : Val T) (l : Lit) (hk : KeyOk kt k)
    (hz : valZero v = true → presence = false → default ty = v) (hl : ∀ c, l.Means pk c → single S ty c = some v) (c : Const)
    (hc : (entryLit presence k v l).Means pk c) :
    ∃ es e, c = .msg es ∧ entry S kt ty es = some e ∧ e.1.getD (keyDefault kt) = k ∧ e.2.getD (default ty) = v := by
  rw [entryLit, MLit.Means] at hc
  obtain ⟨es, rfl, hes⟩ := hc
  have hkd : presence = false → keyZero k = true → keyDefault kt = k := fun _ h => keyZero_default kt k hk h
  have hv : ∀ es : CFields, LFields.Means pk (lfields (if (presence || !valZero v) = true then [((2 : Int), LName.plain valueName, l)] else [])) es →
      ∃ o : Option (Val T), entry S kt ty es = some (none, o) ∧ o.getD (default ty) = v := by
    intro es hes
    by_cases hp : (presence || !valZero v) = true
    · rw [if_pos hp] at hes
      simp only [lfields, LFields.Means] at hes
      obtain ⟨n', c, cs', rfl, hn, hc, rfl⟩ := hes
      have hn : n' = .plain valueName := hn
      subst hn
      refine ⟨some v, ?_, rfl⟩
      rw [entry, entry]
      simp only [Option.bind_eq_bind, Option.bind_some]
      rw [if_neg (fun h => absurd h.1 (by decide)), if_pos ⟨by decide, rfl⟩, hl c hc]
      rfl
    · rw [if_neg hp] at hes
      simp only [lfields, LFields.Means] at hes
      subst hes
      simp at hp
      exact ⟨none, by rw [entry], hz hp.2 hp.1⟩
  by_cases hp : (presence || !keyZero k) = true
  · rw [if_pos hp] at hes
    simp only [List.cons_append, List.nil_append, lfields, LFields.Means] at hes
    obtain ⟨n', c, cs', rfl, hn, hc, hcs⟩ := hes
    have hn : n' = .plain keyName := hn
    subst hn
    obtain ⟨o, ho, ho'⟩ := hv cs' hcs
    have hc : (keyVal k).Means c := hc
    refine ⟨_, (some k, o), rfl, ?_, rfl, ho'⟩
    rw [entry, ho]
    simp only [Option.bind_eq_bind, Option.bind_some]
    rw [if_pos ⟨by decide, trivial⟩, key_ok kt k c hk hc]
    rfl
  · rw [if_neg hp, List.nil_append] at hes
    simp at hp
    obtain ⟨o, ho, ho'⟩ := hv es hes
    exact ⟨es, (none, o), rfl, ho, hkd hp.1 hp.2, ho'⟩

theorem svals_ok (ty : Ty T) (hm : isMsg ty = false) : ∀ (vs : Vals T), Vals.Ok S pk ty vs → ∀ cs, Printer.scalarsMean (vs.svals ty) cs → elements S ty cs = some vs
  | .nil, _, cs, hc => by
    simp only [Vals.svals, Printer.scalarsMean] at hc
    subst hc; rw [elements]
  | .cons (.leaf l) vs, h, cs, hc => by
    simp only [Vals.svals, Printer.scalarsMean] at hc
    obtain ⟨c, cs', rfl, hc, hcs⟩ := hc
    rw [Vals.Ok, Val.Ok] at h
    rw [elements, single_leaf S ty l c h.1 hc, svals_ok ty hm vs h.2 cs' hcs]
    rfl
  | .cons (.msg fs) vs, h, cs, hc => by
    rw [Vals.Ok, Val.Ok] at h
    obtain ⟨t, rfl, _⟩ := h.1
    simp [isMsg] at hm
  | .cons (.any _ _ v) vs, h, cs, hc => by
    rw [Vals.Ok, Val.Ok] at h
    obtain ⟨t, _, rfl, _⟩ := h.1
    simp [isMsg] at hm

theorem single_msg (t : T) (fs : LFields) (ds : CFields) (h : LFields.Means pk fs ds) : single S (.msg t) (.msg ds) = (fields S t ds).map .msg := by
  cases fs with
  | nil =>
    simp only [LFields.Means] at h
    subst h
    rw [single]
    simp
  | cons n v fs =>
    simp only [LFields.Means] at h
    obtain ⟨n', c, cs', rfl, hn, _⟩ := h
    rw [single]
    rintro dom type c' h
    cases h
    exact means_not_any pk n dom type hn

theorem ok_message (t : T) (v : Val T) (h : Val.Ok S pk (.msg t) v) : v.IsMessage := by
  cases v with
  | leaf l => rw [Val.Ok] at h; cases l <;> exact absurd h id
  | msg fs => trivial
  | any _ _ v => trivial

variable (R : Ranging) (hR : R.Ok)
include hR

mutual
theorem val_ok (ty : Ty T) : ∀ (v : Val T), v.IsMessage → Val.Ok S pk ty v → ∀ c, (v.mlit R).Means pk c → single S ty c = some v
  | .leaf _, hm, _, _, _ => absurd hm id
  | .msg fs, _, h, c, hc => by
    rw [Val.Ok] at h
    obtain ⟨t, rfl, h⟩ := h
    rw [Val.mlit, sortFields_eq R hR _ (flds_sorted S pk R t fs h), MLit.Means] at hc
    obtain ⟨ds, rfl, hds⟩ := hc
    rw [single_msg S pk t _ ds hds, flds_ok t fs h ds hds]
    rfl
  | .any dom type v, _, h, c, hc => by
    rw [Val.Ok] at h
    obtain ⟨t, t', rfl, ha, hm, h⟩ := h
    rw [Val.mlit, MLit.Means] at hc
    obtain ⟨d, rfl, hd⟩ := hc
    rw [single, ha, Option.bind_some, val_ok (.msg t') v hm h d hd]
    rfl
theorem flds_ok (t : T) : ∀ (fs : Flds T), Flds.Ok S pk t fs → ∀ ds, LFields.Means pk (lfields (Flds.lits R fs)) ds → fields S t ds = some fs
  | .nil, _, ds, hc => by
    simp only [Flds.lits, lfields, LFields.Means] at hc
    subst hc; rw [fields]
  | .cons fd v fs, h, ds, hc => by
    rw [Flds.Ok] at h
    rw [Flds.lits, lfields, LFields.Means] at hc
    obtain ⟨n, c, cs, rfl, hn, hc, hcs⟩ := hc
    rw [fields_cons, h.1 n hn, Option.bind_some, fval_ok fd v h.2.1 c hc, Option.bind_some, flds_ok t fs h.2.2.2 cs hcs, Option.bind_some]
    exact above_put fd v fs h.2.2.1
theorem fval_ok (fd : Fd T) : ∀ (v : FVal T), FVal.Ok S pk fd v → ∀ c, (FVal.lit R fd v).Means pk c → fieldVal S fd c = some v
  | .one (.leaf l), h, c, hc => by
    rw [FVal.Ok, Val.Ok] at h
    rw [FVal.lit, Lit.Means] at hc
    unfold fieldVal; simp only [h.1, single_leaf S fd.type l c h.2 hc]
    rfl
  | .one (.msg fs), h, c, hc => by
    rw [FVal.Ok] at h
    rw [FVal.lit, Lit.Means] at hc
    · unfold fieldVal; simp only [h.1, val_ok fd.type (.msg fs) trivial h.2 c hc]
      rfl
    · intro l hl; cases hl
  | .one (.any dom type v), h, c, hc => by
    rw [FVal.Ok] at h
    rw [FVal.lit, Lit.Means] at hc
    · unfold fieldVal; simp only [h.1, val_ok fd.type (.any dom type v) trivial h.2 c hc]
      rfl
    · intro l hl; cases hl
  | .list vs, h, c, hc => by
    rw [FVal.Ok] at h
    rw [FVal.lit] at hc
    by_cases hm : isMsg fd.type = true
    · rw [if_pos hm, Lit.Means] at hc
      obtain ⟨cs, rfl, hcs⟩ := hc
      have ht : ∃ t, fd.type = .msg t := by
        generalize fd.type = y at hm
        cases y <;> first | exact ⟨_, rfl⟩ | simp [isMsg] at hm
      obtain ⟨t, ht⟩ := ht
      have h2 := h.2.2
      rw [ht] at h2
      unfold fieldVal; simp only [h.1, ht, vals_ok t vs h2 cs hcs]
      rfl
    · rw [if_neg hm, Lit.Means] at hc
      obtain ⟨cs, rfl, hcs⟩ := hc
      unfold fieldVal; simp only [h.1, svals_ok S pk fd.type (by simpa using hm) vs h.2.2 cs hcs]
      rfl
  | .map es, h, c, hc => by
    rw [FVal.Ok] at h
    obtain ⟨kt, presence, hcard, _, hz, h⟩ := h
    rw [FVal.lit, hcard] at hc
    simp only [ents_order S pk R hR fd.type presence kt es h, Lit.Means] at hc
    obtain ⟨cs, rfl, hcs⟩ := hc
    unfold fieldVal; simp only [hcard, ents_ok fd.type presence kt hz es h cs hcs]
    rfl
theorem vals_ok (t : T) : ∀ (vs : Vals T), Vals.Ok S pk (.msg t) vs → ∀ cs, MLits.Means pk (mlits (Vals.lits R vs)) cs → elements S (.msg t) cs = some vs
  | .nil, _, cs, hc => by
    simp only [Vals.lits, mlits, MLits.Means] at hc
    subst hc; rw [elements]
  | .cons v vs, h, cs, hc => by
    rw [Vals.Ok] at h
    rw [Vals.lits, mlits, MLits.Means] at hc
    obtain ⟨c, cs', rfl, hc, hcs⟩ := hc
    rw [elements, val_ok (.msg t) v (ok_message S pk t v h.1) h.1 c hc, vals_ok t vs h.2 cs' hcs]
    rfl
theorem ents_ok (ty : Ty T) (presence : Bool) (kt : KeyTy) (hz : ZeroFirst presence ty) :
    ∀ (es : Ents T), Ents.Ok S pk kt ty es → ∀ cs, MLits.Means pk (mlits ((Ents.lits R ty presence es).map Prod.snd)) cs → entries S kt ty cs = some es
  | .nil, _, cs, hc => by
    simp only [Ents.lits, List.map_nil, mlits, MLits.Means] at hc
    subst hc; rw [entries]
  | .cons k v es, h, cs, hc => by
    rw [Ents.Ok] at h
    rw [ents_lits_cons, List.map_cons, mlits, MLits.Means] at hc
    obtain ⟨c, cs', rfl, hc, hcs⟩ := hc
    have hl : ∀ c, (valLit R ty v).Means pk c → single S ty c = some v := by
      intro c hc
      have hs := fun (hm : v.IsMessage) => val_ok ty v hm h.2.1 c
      cases v with
      | leaf l => rw [valLit, Lit.Means] at hc; rw [Val.Ok] at h; exact single_leaf S ty l c h.2.1 hc
      | msg fs => exact hs trivial (by rw [valLit, Lit.Means] at hc; exact hc; intro l hl; cases hl)
      | any dom type v => exact hs trivial (by rw [valLit, Lit.Means] at hc; exact hc; intro l hl; cases hl)
    have hz' : valZero v = true → presence = false → default ty = v := by
      intro hv hp
      cases v with
      | leaf l =>
        rw [Val.Ok] at h
        subst hp
        exact valZero_default ty _ l rfl h.2.1 hz hv
      | msg fs => cases hv
      | any dom type v => cases hv
    obtain ⟨es', e, rfl, he, hk, hv⟩ := entry_ok S pk presence kt ty k v _ h.1 hz' hl c hc
    rw [entries, ents_ok ty presence kt hz es h.2.2.2 cs' hcs]
    simp only [he, Option.bind_eq_bind, Option.bind_some, hk, hv]
    exact above_add k v es h.2.2.1
end

theorem entry_means (ty : Ty T) (presence : Bool) (kt : KeyTy) (hz : ZeroFirst presence ty) (k : Key) (v : Val T) (hk : KeyOk kt k)
    (h : Val.Ok S pk ty v) (c : Const) (hc : (entryLit presence k v (valLit R ty v)).Means pk c) :
    ∃ es e, c = .msg es ∧ entry S kt ty es = some e ∧ e.1.getD (keyDefault kt) = k ∧ e.2.getD (default ty) = v := by
  have hl : ∀ c, (valLit R ty v).Means pk c → single S ty c = some v := by
    intro c hc
    have hs := fun (hm : v.IsMessage) => val_ok S pk R hR ty v hm h c
    cases v with
    | leaf l => rw [valLit, Lit.Means] at hc; rw [Val.Ok] at h; exact single_leaf S ty l c h hc
    | msg fs => exact hs trivial (by rw [valLit, Lit.Means] at hc; exact hc; intro l hl; cases hl)
    | any dom type v => exact hs trivial (by rw [valLit, Lit.Means] at hc; exact hc; intro l hl; cases hl)
  have hz' : valZero v = true → presence = false → default ty = v := by
    intro hv hp
    cases v with
    | leaf l =>
      rw [Val.Ok] at h
      subst hp
      exact valZero_default ty _ l rfl h hz hv
    | msg fs => cases hv
    | any dom type v => cases hv
  exact entry_ok S pk presence kt ty k v _ hk hz' hl c hc

omit hR

/-! ## Settings -/

/-- The value that a setting gives. -/
def settingVal (fd : Fd T) (c : Const) : Option (FVal T) :=
  match fd.card with
  | .single => (setting S fd.type c).map .one
  | .list => (setting S fd.type c).map fun v => .list (.cons v .nil)
  | .map k _ =>
    match c with
    | .msg es => (entry S k fd.type es).map fun e => .map (.cons (e.1.getD (keyDefault k)) (e.2.getD (default fd.type)) .nil)
    | _ => none

theorem interpret_cons (d : Setting) (ds : List Setting) :
    interpret S (d :: ds) = (S.option d.name).bind fun fd => (settingVal S fd d.val).bind fun v => (interpret S ds).bind fun r => r.put fd v := by
  rw [interpret]; rfl

def Flds.toList : Flds T → List (Fd T × FVal T)
  | .nil => []
  | .cons fd v fs => (fd, v) :: fs.toList

theorem toList_inj : ∀ fs gs : Flds T, fs.toList = gs.toList → fs = gs
  | .nil, .nil, _ => rfl
  | .nil, .cons .., h => by simp [Flds.toList] at h
  | .cons .., .nil, h => by simp [Flds.toList] at h
  | .cons fd v fs, .cons fd' v' gs, h => by
    simp only [Flds.toList, List.cons.injEq, Prod.mk.injEq] at h
    rw [h.1.1, h.1.2, toList_inj fs gs h.2]

/-- Put into a message without the field. -/
def Flds.ins (fd : Fd T) (v : FVal T) : Flds T → Flds T
  | .nil => .cons fd v .nil
  | .cons fd' v' fs => if fd.number < fd'.number then .cons fd v (.cons fd' v' fs) else .cons fd' v' (Flds.ins fd v fs)

theorem put_ins (fd : Fd T) (v : FVal T) : ∀ fs : Flds T, (∀ x ∈ fs.toList, x.1.number ≠ fd.number) → fs.put fd v = some (fs.ins fd v)
  | .nil, _ => rfl
  | .cons fd' v' fs, h => by
    simp only [Flds.toList, List.mem_cons, forall_eq_or_imp] at h
    rw [Flds.put, Flds.ins]
    by_cases h1 : fd.number < fd'.number
    · rw [if_pos h1, if_pos h1]
    · rw [if_neg h1, if_neg h1, if_neg (Ne.symm h.1), put_ins fd v fs h.2]; rfl

theorem put_put (fd : Fd T) (v w : FVal T) : ∀ fs : Flds T, (∀ x ∈ fs.toList, x.1.number ≠ fd.number) →
    (fs.ins fd w).put fd v = (v.merge w).map fun u => fs.ins fd u
  | .nil, _ => by
    rw [Flds.ins, Flds.put, if_neg (by omega), if_pos rfl]; rfl
  | .cons fd' v' fs, h => by
    simp only [Flds.toList, List.mem_cons, forall_eq_or_imp] at h
    rw [Flds.ins]
    by_cases h1 : fd.number < fd'.number
    · rw [if_pos h1, Flds.put, if_neg (by omega), if_pos rfl]
      simp only [Flds.ins, if_pos h1]
    · rw [if_neg h1, Flds.put, if_neg h1, if_neg (Ne.symm h.1), put_put fd v w fs h.2]
      cases v.merge w with
      | none => rfl
      | some u => simp [Flds.ins, if_neg h1]

theorem ins_perm (fd : Fd T) (v : FVal T) : ∀ fs : Flds T, (fs.ins fd v).toList.Perm ((fd, v) :: fs.toList)
  | .nil => .refl _
  | .cons fd' v' fs => by
    rw [Flds.ins]
    split
    · exact .refl _
    · rw [Flds.toList]
      exact ((ins_perm fd v fs).cons _).trans (.swap _ _ _)

theorem ins_sorted (fd : Fd T) (v : FVal T) : ∀ fs : Flds T, (∀ x ∈ fs.toList, x.1.number ≠ fd.number) →
    fs.toList.Pairwise (fun a b => a.1.number < b.1.number) → (fs.ins fd v).toList.Pairwise (fun a b => a.1.number < b.1.number)
  | .nil, _, _ => by simp [Flds.ins, Flds.toList]
  | .cons fd' v' fs, h, hp => by
    simp only [Flds.toList, List.mem_cons, forall_eq_or_imp] at h
    rw [Flds.toList, List.pairwise_cons] at hp
    rw [Flds.ins]
    split
    · rename_i h1
      rw [Flds.toList, List.pairwise_cons]
      refine ⟨?_, ?_⟩
      · intro x hx
        rw [Flds.toList, List.mem_cons] at hx
        rcases hx with rfl | hx
        · exact h1
        · have := hp.1 x hx
          simp only at this ⊢
          omega
      · rw [Flds.toList, List.pairwise_cons]; exact hp
    · rename_i h1
      rw [Flds.toList, List.pairwise_cons]
      refine ⟨?_, ins_sorted fd v fs h.2 hp.2⟩
      intro x hx
      have := (ins_perm fd v fs).subset hx
      rcases List.mem_cons.mp this with rfl | hx
      · have := h.1; simp only at this ⊢; omega
      · exact hp.1 x hx

theorem setting_ok (fd : Fd T) (v : Val T) (h : Val.Ok S pk fd.type v) (hk : v.Known fd.type) (hR : R.Ok) :
    ∃ o, valueForOption R fd v = some o ∧ ∀ c, o.Means pk c → setting S fd.type c = some v := by
  have hset : ∀ (v : Val T) (c : Const), Val.Ok S pk fd.type v → (∀ z, v ≠ .leaf (.enum z)) → single S fd.type c = some v → setting S fd.type c = some v := by
    intro v c hv hne hs
    unfold setting
    split
    · rename_i values neg s hty
      exfalso
      rw [hty] at hv hs
      simp only [single, leaf, Option.map_eq_some_iff] at hs
      obtain ⟨l, ⟨z, _, rfl⟩, rfl⟩ := hs
      exact hne z rfl
    · exact hs
  have hleaf : ∀ l, v = .leaf l → (∀ z, l ≠ .enum z) → valueForOption R fd v = some (.scalar (sval fd.type l)) →
      ∃ o, valueForOption R fd v = some o ∧ ∀ c, o.Means pk c → setting S fd.type c = some v := by
    rintro l rfl hne hv
    refine ⟨_, hv, fun c hc => hset _ c h (fun z hz => hne z (by cases hz; rfl)) ?_⟩
    rw [Val.Ok] at h
    exact single_leaf S fd.type l c h hc
  cases v with
  | msg fs =>
    exact ⟨.msg (Val.mlit R (.msg fs)), rfl, fun c hc => hset _ c h (by intro z hz; cases hz) (val_ok S pk R hR fd.type (.msg fs) trivial h c hc)⟩
  | any dom type v =>
    exact ⟨.msg (Val.mlit R (.any dom type v)), rfl, fun c hc => hset _ c h (by intro z hz; cases hz)
      (val_ok S pk R hR fd.type (.any dom type v) trivial h c hc)⟩
  | leaf l =>
    cases l with
    | enum z =>
      obtain ⟨values, hty, hz⟩ := hk
      obtain ⟨n, hn⟩ := nameOf_known values z hz
      refine ⟨.scalar (.enum (some n) z), by simp [valueForOption, hty, hn], ?_⟩
      intro c hc
      have hc : c = .word false n := hc
      rw [Val.Ok] at h
      have h2 := single_leaf S fd.type (.enum z) c h (by simp only [sval, hty, hn, SVal.Means]; exact hc)
      subst hc
      unfold setting
      split
      · rename_i h3; cases h3
      · exact h2
    | _ => exact hleaf _ rfl (by intro z hz; cases hz) rfl

theorem forall₂_append_left {α β : Type} {P : α → β → Prop} {l1 l2 : List α} {l : List β} (h : List.Forall₂ P (l1 ++ l2) l) :
    ∃ k1 k2, List.Forall₂ P l1 k1 ∧ List.Forall₂ P l2 k2 ∧ l = k1 ++ k2 := by
  induction l1 generalizing l with
  | nil => exact ⟨[], l, .nil, h, rfl⟩
  | cons x l1 ih =>
    obtain ⟨y, l', hy, hl, rfl⟩ := List.forall₂_cons_left_iff.mp h
    obtain ⟨k1, k2, h1, h2, rfl⟩ := ih hl
    exact ⟨y :: k1, k2, .cons hy h1, h2, rfl⟩

/-- The settings of a field add it to the message of the settings after them. -/
theorem group_ok (a : Printer.At) (hR : R.Ok) (fd : Fd T) (hn : ∀ ps, (oname fd.name).Means a ps → S.option ps = some fd) (v : FVal T)
    (h : FVal.Ok S a.pk fd v) (hk : v.Known fd.type) (ds ds' : List Setting) (hds : List.Forall₂ (Opt.Means a) (valueToOptions R fd v) ds)
    (m : Flds T) (hm : ∀ x ∈ m.toList, x.1.number ≠ fd.number) (hi : interpret S ds' = some m) :
    interpret S (ds ++ ds') = some (m.ins fd v) := by
  cases v with
  | one v =>
    rw [FVal.Ok] at h
    obtain ⟨o, ho, hoc⟩ := setting_ok S a.pk R fd v h.2 hk hR
    rw [valueToOptions, ho] at hds
    obtain ⟨d, ds, hd, hds', rfl⟩ := List.forall₂_cons_left_iff.mp hds
    obtain rfl := List.forall₂_nil_left_iff.mp hds'
    obtain ⟨hd1, w, hw, hd2⟩ := hd
    cases hw
    rw [List.cons_append, interpret_cons, hn _ hd1, Option.bind_some]
    unfold settingVal
    simp only [h.1, hoc _ hd2]
    simp [hi, put_ins fd _ m hm]
  | list vs =>
    rw [FVal.Ok] at h
    rw [FVal.Known] at hk
    rw [valueToOptions] at hds
    obtain ⟨hc, hne, hvs⟩ := h
    have main : ∀ (vs : Vals T) (ds : List Setting), vs ≠ .nil → Vals.Ok S a.pk fd.type vs → (∀ v ∈ vs.toList, v.Known fd.type) →
        List.Forall₂ (Opt.Means a) ((vs.toList.filterMap (valueForOption R fd)).map fun x => ⟨oname fd.name, some x⟩) ds →
        interpret S (ds ++ ds') = some (m.ins fd (.list vs)) := by
      intro vs
      induction hl : vs.toList generalizing vs with
      | nil => intro ds hne; cases vs <;> simp_all [Vals.toList]
      | cons v vl ih =>
        intro ds _ hvs hk hds
        cases vs with
        | nil => simp [Vals.toList] at hl
        | cons v' vs =>
          simp only [Vals.toList, List.cons.injEq] at hl
          obtain ⟨rfl, hl⟩ := hl
          rw [Vals.Ok] at hvs
          obtain ⟨o, ho, hoc⟩ := setting_ok S a.pk R fd v' hvs.1 (hk v' List.mem_cons_self) hR
          rw [List.filterMap_cons, ho] at hds
          obtain ⟨d, ds, hd, hds', rfl⟩ := List.forall₂_cons_left_iff.mp hds
          obtain ⟨hd1, w, hw, hd2⟩ := hd
          cases hw
          rw [List.cons_append, interpret_cons, hn _ hd1, Option.bind_some]
          unfold settingVal
          simp only [hc, hoc _ hd2]
          by_cases hnil : vs = .nil
          · subst hnil
            simp only [Vals.toList] at hl
            subst hl
            obtain rfl := List.forall₂_nil_left_iff.mp hds'
            simp [hi, put_ins fd _ m hm]
          · have hr := ih vs hl ds hnil hvs.2 (fun x hx => hk x (List.mem_cons_of_mem _ hx)) hds'
            simp [hr, put_put fd _ _ m hm, FVal.merge, Vals.append]
    exact main vs ds hne hvs hk hds
  | map es =>
    rw [FVal.Ok] at h
    obtain ⟨kt, presence, hc, hne, hz, hes⟩ := h
    rw [FVal.Known] at hk
    have hkn : ∀ es : Ents T, (∀ e ∈ es.toList, e.2.Known fd.type) → knownEnts fd.type es = es := by
      intro es
      induction hl : es.toList generalizing es with
      | nil => intro _; cases es <;> simp_all [Ents.toList, knownEnts]
      | cons e el ih =>
        intro hk
        cases es with
        | nil => simp [Ents.toList] at hl
        | cons k v es =>
          simp only [Ents.toList, List.cons.injEq] at hl
          obtain ⟨rfl, hl⟩ := hl
          have hr := ih es hl (fun x hx => hk x (List.mem_cons_of_mem _ hx))
          have h1 := hk _ List.mem_cons_self
          simp only at h1
          unfold knownEnts
          split
          · rename_i values z hty
            obtain ⟨values', hty', hz⟩ := h1
            rw [hty] at hty'
            cases hty'
            obtain ⟨n, hn⟩ := nameOf_known values z hz
            rw [if_neg (by simp [hn]), hr]
          · rw [hr]
    rw [valueToOptions, hc] at hds
    simp only [hkn es hk, ents_order S a.pk R hR fd.type presence kt es hes] at hds
    have main : ∀ (es : Ents T) (ds : List Setting), es ≠ .nil → Ents.Ok S a.pk kt fd.type es →
        List.Forall₂ (Opt.Means a) ((Ents.lits R fd.type presence es).map fun x => ⟨oname fd.name, some (.msg x.2)⟩) ds →
        interpret S (ds ++ ds') = some (m.ins fd (.map es)) := by
      intro es
      induction hl : es.toList generalizing es with
      | nil => intro ds hne; cases es <;> simp_all [Ents.toList]
      | cons e el ih =>
        intro ds _ hes hds
        cases es with
        | nil => simp [Ents.toList] at hl
        | cons k v es =>
          simp only [Ents.toList, List.cons.injEq] at hl
          obtain ⟨rfl, hl⟩ := hl
          rw [Ents.Ok] at hes
          rw [ents_lits_cons, List.map_cons] at hds
          obtain ⟨d, ds, hd, hds', rfl⟩ := List.forall₂_cons_left_iff.mp hds
          obtain ⟨hd1, w, hw, hd2⟩ := hd
          cases hw
          obtain ⟨es', e, he, hee, hek, hev⟩ := entry_means S a.pk R hR fd.type presence kt hz k v hes.1 hes.2.1 _ hd2
          rw [List.cons_append, interpret_cons, hn _ hd1, Option.bind_some, he]
          unfold settingVal
          simp only [hc, hee, Option.map_some, hek, hev]
          by_cases hnil : es = .nil
          · subst hnil
            simp only [Ents.lits, List.map_nil] at hds'
            obtain rfl := List.forall₂_nil_left_iff.mp hds'
            simp [hi, put_ins fd _ m hm]
          · have hr := ih es hl ds hnil hes.2.2.2 hds'
            simp [hr, put_put fd _ _ m hm, FVal.merge, Ents.addAll, above_add k v es hes.2.2.1]
    exact main es ds hne hes hds

theorem perm_map {α β : Type} (f : α → β) (l l' : List β) (h : l.Perm l') : ∀ xs, l' = xs.map f → ∃ ys : List α, ys.Perm xs ∧ l = ys.map f := by
  induction h with
  | nil => intro xs h; exact ⟨xs, .refl _, h⟩
  | cons x _ ih =>
    intro xs h
    cases xs with
    | nil => cases h
    | cons y xs =>
      simp only [List.map_cons, List.cons.injEq] at h
      obtain ⟨ys, hp, rfl⟩ := ih xs h.2
      exact ⟨y :: ys, hp.cons y, by simp [h.1]⟩
  | swap x y l =>
    intro xs h
    match xs, h with
    | a :: b :: xs, h =>
      simp only [List.map_cons, List.cons.injEq] at h
      exact ⟨b :: a :: xs, .swap _ _ _, by simp [h]⟩
  | trans _ _ ih1 ih2 =>
    intro xs h
    obtain ⟨ys, hp, h'⟩ := ih2 xs h
    obtain ⟨zs, hq, h''⟩ := ih1 ys h'
    exact ⟨zs, hq.trans hp, h''⟩

theorem options_nonempty (a : Printer.At) (hR : R.Ok) (fd : Fd T) (v : FVal T) (h : FVal.Ok S a.pk fd v) (hk : v.Known fd.type) :
    (valueToOptions R fd v).length > 0 := by
  cases v with
  | one v =>
    rw [FVal.Ok] at h
    obtain ⟨o, ho, _⟩ := setting_ok S a.pk R fd v h.2 hk hR
    simp [valueToOptions, ho]
  | list vs =>
    rw [FVal.Ok] at h
    cases vs with
    | nil => exact absurd rfl h.2.1
    | cons v vs =>
      rw [Vals.Ok] at h
      obtain ⟨o, ho, _⟩ := setting_ok S a.pk R fd v h.2.2.1 (hk v List.mem_cons_self) hR
      simp [valueToOptions, Vals.toList, ho]
  | map es =>
    rw [FVal.Ok] at h
    obtain ⟨kt, presence, hc, hne, hz, hes⟩ := h
    cases es with
    | nil => exact absurd rfl hne
    | cons k v es =>
      have h1 := hk (k, v) List.mem_cons_self
      have : ∃ es', knownEnts fd.type (.cons k v es) = .cons k v es' := by
        unfold knownEnts
        split
        · rename_i values z hty
          obtain ⟨values', hty', hz⟩ := h1
          rw [hty] at hty'
          cases hty'
          obtain ⟨n, hn⟩ := nameOf_known values z hz
          exact ⟨_, by rw [if_neg (by simp [hn])]⟩
        · exact ⟨_, rfl⟩
      obtain ⟨es', he⟩ := this
      rw [valueToOptions, hc]
      simp only [he, ents_lits_cons, List.length_map]
      unfold sortKeys
      rw [((isort_perm _ _).trans (hR.keys _)).length_eq]
      simp

theorem optionsOk_mem (a : Printer.At) : ∀ m : Flds T, OptionsOk S a m → ∀ x ∈ m.toList,
    (∀ ps, (oname x.1.name).Means a ps → S.option ps = some x.1) ∧ FVal.Ok S a.pk x.1 x.2 ∧ x.2.Known x.1.type
  | .nil, _, x, hx => by simp [Flds.toList] at hx
  | .cons fd v fs, h, x, hx => by
    rw [Flds.toList, List.mem_cons] at hx
    rcases hx with rfl | hx
    · exact ⟨h.1, h.2.1, h.2.2.1⟩
    · exact optionsOk_mem a fs h.2.2.2.2 x hx

theorem above_toList (n : Int) : ∀ m : Flds T, Flds.Above n m → ∀ x ∈ m.toList, n < x.1.number
  | .nil, _, x, hx => by simp [Flds.toList] at hx
  | .cons fd v fs, h, x, hx => by
    rw [Flds.toList, List.mem_cons] at hx
    rcases hx with rfl | hx
    · exact h.1
    · exact above_toList n fs h.2 x hx

theorem optionsOk_sorted (a : Printer.At) : ∀ m : Flds T, OptionsOk S a m → m.toList.Pairwise (fun a b => a.1.number < b.1.number)
  | .nil, _ => .nil
  | .cons fd v fs, h => by
    rw [Flds.toList, List.pairwise_cons]
    exact ⟨fun x hx => above_toList _ fs h.2.2.2.1 x hx, optionsOk_sorted a fs h.2.2.2.2⟩

theorem extract_map (a : Printer.At) (hR : R.Ok) : ∀ m : Flds T, OptionsOk S a m →
    extractOptions R m = m.toList.map fun x => (x.1.number, valueToOptions R x.1 x.2)
  | .nil, _ => rfl
  | .cons fd v fs, h => by
    rw [extractOptions, if_pos (options_nonempty S R a hR fd v h.2.1 h.2.2.1), extract_map a hR fs h.2.2.2.2, Flds.toList, List.map_cons]

theorem interpret_groups (a : Printer.At) (hR : R.Ok) (xs : List (Fd T × FVal T)) (hnd : (xs.map (fun x => x.1.number)).Nodup)
    (hx : ∀ x ∈ xs, (∀ ps, (oname x.1.name).Means a ps → S.option ps = some x.1) ∧ FVal.Ok S a.pk x.1 x.2 ∧ x.2.Known x.1.type) :
    ∀ ds, List.Forall₂ (Opt.Means a) ((xs.map fun x => (x.1.number, valueToOptions R x.1 x.2)).flatMap Prod.snd) ds →
      ∃ m : Flds T, interpret S ds = some m ∧ m.toList.Perm xs ∧ m.toList.Pairwise (fun a b => a.1.number < b.1.number) := by
  induction xs with
  | nil =>
    intro ds h
    obtain rfl := List.forall₂_nil_left_iff.mp h
    exact ⟨.nil, rfl, .refl _, .nil⟩
  | cons x xs ih =>
    intro ds h
    rw [List.map_cons, List.flatMap_cons] at h
    obtain ⟨ds1, ds2, h1, h2, rfl⟩ := forall₂_append_left h
    rw [List.map_cons, List.nodup_cons] at hnd
    obtain ⟨m, hm, hp, hs⟩ := ih hnd.2 (fun y hy => hx y (List.mem_cons_of_mem _ hy)) ds2 h2
    have hx' := hx x List.mem_cons_self
    have hne : ∀ y ∈ m.toList, y.1.number ≠ x.1.number := fun y hy he => hnd.1 (List.mem_map.mpr ⟨y, hp.subset hy, he⟩)
    refine ⟨m.ins x.1 x.2, group_ok S R a hR x.1 hx'.1 x.2 hx'.2.1 hx'.2.2 ds1 ds2 h1 m hne hm, (ins_perm _ _ _).trans (hp.cons _), ?_⟩
    exact ins_sorted _ _ _ hne hs

theorem interpret_ok (a : Printer.At) (hR : R.Ok) (m : Flds T) (h : OptionsOk S a m) (ds : List Setting) (hd : Opts.Mean a (extractOptions R m) ds) :
    interpret S ds = some m := by
  obtain ⟨l, hp, hds⟩ := hd
  obtain ⟨xs, hxs, rfl⟩ := perm_map _ _ _ hp _ (extract_map S R a hR m h)
  have hs := optionsOk_sorted S a m h
  have hnd : (xs.map (fun x => x.1.number)).Nodup := by
    rw [(hxs.map _).nodup_iff, List.Nodup, List.pairwise_map]
    exact hs.imp (fun h => ne_of_lt h)
  obtain ⟨m', hm', hp', hs'⟩ := interpret_groups S R a hR xs hnd (fun x hx => optionsOk_mem S a m h x (hxs.subset hx)) ds hds
  rw [hm']
  congr 1
  apply toList_inj
  apply eq_of_sorted (lt := fun a b : Fd T × FVal T => a.1.number < b.1.number) _ _ (hp'.trans hxs) hs
  exact hs'.imp (fun h => by omega)

end Verif.OptionValues
