import Verif.Model.Decode
import Mathlib.Data.List.Nodup
/-!
# Properties of the decode command: C53, C54
-/
namespace Verif.Decode

/-! ### Specification of base64 (RFC 4648) -/

/-- Specification: the character for a value below 64. -/
def letter (url : Bool) (n : Nat) : Nat :=
  if n < 26 then 65 + n else if n < 52 then 97 + (n - 26) else if n < 62 then 48 + (n - 52)
  else if n = 62 then (if url then 45 else 43) else (if url then 95 else 47)

/-- Specification: the encoding of a sequence of bytes. -/
def encode (url padded : Bool) : List Nat → List Nat
  | [] => []
  | [a] => [letter url (a / 4), letter url (a % 4 * 16)] ++ if padded then [61, 61] else []
  | [a, b] => [letter url (a / 4), letter url (a % 4 * 16 + b / 16), letter url (b % 16 * 4)] ++ if padded then [61] else []
  | a :: b :: c :: rest =>
    [letter url (a / 4), letter url (a % 4 * 16 + b / 16), letter url (b % 16 * 4 + c / 64), letter url (c % 64)] ++
      encode url padded rest

/-- Specification: a sequence of bytes. -/
def Bytes (s : List Nat) : Prop := ∀ b ∈ s, b < 256

/-- Specification: white space of one byte. -/
def IsSpaceByte (b : Nat) : Prop := (9 ≤ b ∧ b ≤ 13) ∨ b = 32

/-- Specification: the input starts (or ends) with a character of white space. -/
def StartsBlank (s : List Nat) : Prop := ∃ w ∈ spaceSeqs, w <+: s
def EndsBlank (s : List Nat) : Prop := ∃ w ∈ spaceSeqs, w <:+ s

/-- Specification: a text in base64: characters of one alphabet, with the right padding or without
padding. -/
def Grammar (url padded : Bool) (s : List Nat) : Prop :=
  ∃ cs k, s = cs ++ List.replicate k 61 ∧ (∀ c ∈ cs, ∃ n, n < 64 ∧ c = letter url n) ∧
    if padded = true then (cs.length + k) % 4 = 0 ∧ k ≤ 2 else k = 0 ∧ cs.length % 4 ≠ 1

def IsBase64 (s : List Nat) : Prop := ∃ url padded, Grammar url padded s

/-! ### Trimming -/

theorem seqs_ne (rev : Bool) : ∀ w ∈ spaceSeqs, (if rev then w.reverse else w) ≠ [] := by
  cases rev <;> decide

theorem seqs_head (rev : Bool) : ∀ w ∈ spaceSeqs, ∀ c, (if rev then w.reverse else w).head? = some c →
    IsSpaceByte c ∨ 128 ≤ c := by
  have key : ∀ w ∈ spaceSeqs, (((if rev then w.reverse else w).headD 0 = 32 ∨ (9 ≤ (if rev then w.reverse else w).headD 0 ∧
      (if rev then w.reverse else w).headD 0 ≤ 13)) ∨ 128 ≤ (if rev then w.reverse else w).headD 0) := by
    cases rev <;> decide
  intro w hw c hc
  have h := key w hw
  generalize (if rev = true then w.reverse else w) = v at h hc
  cases v with
  | nil => cases hc
  | cons d v =>
    cases hc
    rcases h with (h | h) | h
    · exact .inl (.inr h)
    · exact .inl (.inl h)
    · exact .inr h

theorem dropSeq_space (rev : Bool) (b : Nat) (s : List Nat) (h : IsSpaceByte b) : dropSeq rev (b :: s) = some s := by
  rcases h with ⟨h1, h2⟩ | rfl
  · obtain rfl | rfl | rfl | rfl | rfl : b = 9 ∨ b = 10 ∨ b = 11 ∨ b = 12 ∨ b = 13 := by omega
    all_goals cases rev <;> rfl
  · cases rev <;> rfl

theorem dropSeq_none (rev : Bool) (s : List Nat) :
    dropSeq rev s = none ↔ ∀ w ∈ spaceSeqs, ¬ (if rev then w.reverse else w) <+: s := by
  unfold dropSeq
  rw [List.findSome?_eq_none_iff]
  constructor
  · intro h w hw hp
    have := h w hw
    simp only at this
    rw [if_pos (List.isPrefixOf_iff_prefix.2 hp)] at this
    cases this
  · intro h w hw
    simp only
    rw [if_neg (fun hp => h w hw (List.isPrefixOf_iff_prefix.1 hp))]

theorem dropSeq_other (rev : Bool) (b : Nat) (s : List Nat) (h1 : b < 128) (h2 : ¬ IsSpaceByte b) :
    dropSeq rev (b :: s) = none := by
  rw [dropSeq_none]
  intro w hw hp
  have hn := seqs_ne rev w hw
  have hh := seqs_head rev w hw
  generalize (if rev = true then w.reverse else w) = v at hp hn hh
  cases v with
  | nil => exact hn rfl
  | cons d v =>
    obtain ⟨t, ht⟩ := hp
    have : d = b := (List.cons.inj ht).1
    subst this
    rcases hh d rfl with h | h
    · exact h2 h
    · omega

theorem dropSeq_some {rev : Bool} {s t : List Nat} (h : dropSeq rev s = some t) : t.length < s.length := by
  unfold dropSeq at h
  obtain ⟨w, hw, h'⟩ := List.exists_of_findSome?_eq_some h
  simp only at h'
  have hn := seqs_ne rev w hw
  generalize (if rev = true then w.reverse else w) = v at h' hn
  split at h'
  · rename_i hp
    cases h'
    have := (List.isPrefixOf_iff_prefix.1 hp).length_le
    have : 0 < v.length := List.length_pos_iff.2 hn
    rw [List.length_drop]
    omega
  · cases h'

theorem dropSpaces_le (rev : Bool) : ∀ n s, (dropSpaces rev n s).length ≤ s.length := by
  intro n
  induction n with
  | zero => intro s; exact Nat.le_refl _
  | succ n ih =>
    intro s
    unfold dropSpaces
    split
    · rename_i t ht
      have := dropSeq_some ht
      have := ih t
      omega
    · exact Nat.le_refl _

theorem dropSpaces_none (rev : Bool) (n : Nat) (s : List Nat) (h : dropSeq rev s = none) : dropSpaces rev n s = s := by
  cases n with
  | zero => rfl
  | succ n => unfold dropSpaces; rw [h]

theorem dropSpaces_blank (rev : Bool) (pre : List Nat) (hp : ∀ b ∈ pre, IsSpaceByte b) (t : List Nat) (ht : dropSeq rev t = none) :
    ∀ n, pre.length ≤ n → dropSpaces rev n (pre ++ t) = t := by
  induction pre with
  | nil => intro n _; exact dropSpaces_none rev n t ht
  | cons b pre ih =>
    intro n hn
    cases n with
    | zero => simp at hn
    | succ n =>
      rw [List.cons_append]
      unfold dropSpaces
      rw [dropSeq_space rev b _ (hp b (by simp))]
      exact ih (fun x hx => hp x (List.mem_cons_of_mem _ hx)) n (by simpa using hn)

theorem trimSpace_eq_self (s : List Nat) : trimSpace s = s ↔ ¬ StartsBlank s ∧ ¬ EndsBlank s := by
  have hs : (dropSeq false s = none) ↔ ¬ StartsBlank s := by
    rw [dropSeq_none]
    constructor
    · rintro h ⟨w, hw, hp⟩; exact h w hw hp
    · intro h w hw hp; exact h ⟨w, hw, hp⟩
  have he : (dropSeq true s.reverse = none) ↔ ¬ EndsBlank s := by
    rw [dropSeq_none]
    constructor
    · rintro h ⟨w, hw, hp⟩; exact h w hw (List.reverse_prefix.2 hp)
    · intro h w hw hp; exact h ⟨w, hw, List.reverse_prefix.1 hp⟩
  rw [← hs, ← he]
  unfold trimSpace
  simp only
  constructor
  · intro h
    have hl := congrArg List.length h
    rw [List.length_reverse] at hl
    have h1 := dropSpaces_le true (dropSpaces false s.length s).length (dropSpaces false s.length s).reverse
    rw [List.length_reverse] at h1
    have h2 := dropSpaces_le false s.length s
    have k1 : dropSeq false s = none := by
      cases hd : dropSeq false s with
      | none => rfl
      | some t =>
        exfalso
        have hlt := dropSeq_some hd
        have : (dropSpaces false s.length s).length < s.length := by
          cases hn : s.length with
          | zero => omega
          | succ n =>
            have := dropSpaces_le false n t
            unfold dropSpaces
            rw [hd]
            simp only
            omega
        omega
    refine ⟨k1, ?_⟩
    rw [dropSpaces_none false _ _ k1] at hl
    cases hd : dropSeq true s.reverse with
    | none => rfl
    | some t =>
      exfalso
      have hlt := dropSeq_some hd
      rw [List.length_reverse] at hlt
      have : (dropSpaces true s.length s.reverse).length < s.length := by
        cases hn : s.length with
        | zero => omega
        | succ n =>
          have := dropSpaces_le true n t
          unfold dropSpaces
          rw [hd]
          simp only
          omega
      omega
  · rintro ⟨h1, h2⟩
    rw [dropSpaces_none false _ _ h1, dropSpaces_none true _ _ h2, List.reverse_reverse]

theorem trimSpace_surround (pre t post : List Nat) (h1 : ∀ b ∈ pre, IsSpaceByte b) (h2 : ∀ b ∈ post, IsSpaceByte b) (hne : t ≠ [])
    (ht : ∀ b ∈ t, b < 128 ∧ ¬ IsSpaceByte b) : trimSpace (pre ++ t ++ post) = t := by
  unfold trimSpace
  simp only
  have e1 : dropSpaces false (pre ++ t ++ post).length (pre ++ t ++ post) = t ++ post := by
    rw [List.append_assoc]
    refine dropSpaces_blank false pre h1 (t ++ post) ?_ _ (by simp)
    obtain ⟨b, t', rfl⟩ := List.exists_cons_of_ne_nil hne
    exact dropSeq_other false b _ (ht b (by simp)).1 (ht b (by simp)).2
  rw [e1, List.reverse_append]
  have e2 : dropSpaces true (t ++ post).length (post.reverse ++ t.reverse) = t.reverse := by
    refine dropSpaces_blank true post.reverse (fun b hb => h2 b (List.mem_reverse.1 hb)) t.reverse ?_ _ (by simp)
    obtain ⟨b, t', hbt⟩ := List.exists_cons_of_ne_nil (fun h => hne (List.reverse_eq_nil_iff.1 h) : t.reverse ≠ [])
    rw [hbt]
    have hb : b ∈ t := List.mem_reverse.1 (by rw [hbt]; simp)
    exact dropSeq_other true b _ (ht b hb).1 (ht b hb).2
  rw [e2, List.reverse_reverse]

/-! ### Base64 -/

theorem value_letter (url : Bool) : ∀ n, n < 64 → value url (letter url n) = some n := by
  cases url <;> decide

theorem letter_range (url : Bool) : ∀ n, n < 64 → 43 ≤ letter url n ∧ letter url n < 123 ∧ letter url n ≠ 61 := by
  cases url <;> decide

theorem value_some {url : Bool} {c n : Nat} (h : value url c = some n) : n < 64 ∧ c = letter url n := by
  unfold value alnum at h
  unfold letter
  by_cases h1 : 65 ≤ c ∧ c ≤ 90
  · rw [if_pos h1] at h
    cases h
    rw [if_pos (by omega)]
    omega
  · rw [if_neg h1] at h
    by_cases h2 : 97 ≤ c ∧ c ≤ 122
    · rw [if_pos h2] at h
      cases h
      rw [if_neg (by omega), if_pos (by omega)]
      omega
    · rw [if_neg h2] at h
      by_cases h3 : 48 ≤ c ∧ c ≤ 57
      · rw [if_pos h3] at h
        cases h
        rw [if_neg (by omega), if_neg (by omega), if_pos (by omega)]
        omega
      · rw [if_neg h3] at h
        simp only at h
        by_cases h4 : c = (if url = true then 45 else 43)
        · rw [if_pos h4] at h
          cases h
          exact ⟨by omega, h4⟩
        · rw [if_neg h4] at h
          by_cases h5 : c = (if url = true then 95 else 47)
          · rw [if_pos h5] at h
            cases h
            exact ⟨by omega, h5⟩
          · rw [if_neg h5] at h
            cases h

theorem letter_agree (u u' : Bool) : ∀ n, n < 64 → ∀ n', n' < 64 → letter u n = letter u' n' → n = n' := by
  cases u <;> cases u' <;> decide +kernel

theorem value_agree {c n n' : Nat} {u u' : Bool} (h : value u c = some n) (h' : value u' c = some n') : n = n' := by
  obtain ⟨h1, h2⟩ := value_some h
  obtain ⟨h3, h4⟩ := value_some h'
  exact letter_agree u u' n h1 n' h3 (h2.symm.trans h4)

theorem value_pad (url : Bool) : value url 61 = none := by cases url <;> rfl

theorem decode_encode (url padded : Bool) : ∀ (k : Nat) (bs : List Nat), bs.length ≤ k → Bytes bs →
    decode url padded (encode url padded bs) = some bs := by
  intro k
  induction k with
  | zero =>
    intro bs hl _
    have : bs = [] := List.length_eq_zero_iff.1 (by omega)
    subst this
    rfl
  | succ k ih =>
    intro bs hl hb
    match bs, hl, hb with
    | [], _, _ => rfl
    | [a], _, hb =>
      have ha := hb a (by simp)
      have v1 := value_letter url (a / 4) (by omega)
      have v2 := value_letter url (a % 4 * 16) (by omega)
      cases padded
      · simp only [encode, decode, List.append_nil, if_neg Bool.false_ne_true, v1, v2]
        rw [show a / 4 * 4 + a % 4 * 16 / 16 = a by omega]
      · simp only [encode, decode, if_true, List.cons_append, List.nil_append, v1, v2, value_pad, pad]
        simp only [and_self, if_true]
        rw [show a / 4 * 4 + a % 4 * 16 / 16 = a by omega]
    | [a, b], _, hb =>
      have ha := hb a (by simp)
      have hb' := hb b (by simp)
      have v1 := value_letter url (a / 4) (by omega)
      have v2 := value_letter url (a % 4 * 16 + b / 16) (by omega)
      have v3 := value_letter url (b % 16 * 4) (by omega)
      cases padded
      · simp only [encode, decode, List.append_nil, if_neg Bool.false_ne_true, v1, v2, v3]
        rw [show a / 4 * 4 + (a % 4 * 16 + b / 16) / 16 = a by omega,
          show (a % 4 * 16 + b / 16) % 16 * 16 + b % 16 * 4 / 4 = b by omega]
      · simp only [encode, decode, if_true, List.cons_append, List.nil_append, v1, v2, v3, value_pad, pad]
        simp only [and_self, if_true]
        rw [show a / 4 * 4 + (a % 4 * 16 + b / 16) / 16 = a by omega,
          show (a % 4 * 16 + b / 16) % 16 * 16 + b % 16 * 4 / 4 = b by omega]
    | a :: b :: c :: rest, hl, hb =>
      have ha := hb a (by simp)
      have hb' := hb b (by simp)
      have hc := hb c (by simp)
      have v1 := value_letter url (a / 4) (by omega)
      have v2 := value_letter url (a % 4 * 16 + b / 16) (by omega)
      have v3 := value_letter url (b % 16 * 4 + c / 64) (by omega)
      have v4 := value_letter url (c % 64) (by omega)
      have hr := ih rest (by simp at hl; omega) (fun x hx => hb x (by simp [hx]))
      simp only [encode, decode, List.cons_append, List.nil_append, v1, v2, v3, v4, hr]
      rw [show a / 4 * 4 + (a % 4 * 16 + b / 16) / 16 = a by omega,
        show (a % 4 * 16 + b / 16) % 16 * 16 + (b % 16 * 4 + c / 64) / 4 = b by omega,
        show (b % 16 * 4 + c / 64) % 4 * 64 + c % 64 = c by omega]

/-- A group of four characters in a successful decoding. -/
theorem decode_group {url padded : Bool} {a b c d : Nat} {rest t : List Nat} (h : decode url padded (a :: b :: c :: d :: rest) = some t) :
    ∃ x y, value url a = some x ∧ value url b = some y ∧
      ((∃ z w t', value url c = some z ∧ value url d = some w ∧ decode url padded rest = some t' ∧
          t = [x * 4 + y / 16, y % 16 * 16 + z / 4, z % 4 * 64 + w] ++ t') ∨
       (∃ z, value url c = some z ∧ padded = true ∧ d = 61 ∧ rest = [] ∧ t = [x * 4 + y / 16, y % 16 * 16 + z / 4]) ∨
       (padded = true ∧ c = 61 ∧ d = 61 ∧ rest = [] ∧ t = [x * 4 + y / 16])) := by
  rw [decode] at h
  cases ha : value url a with
  | none => rw [ha] at h; simp at h
  | some x =>
    cases hb : value url b with
    | none => rw [ha, hb] at h; simp at h
    | some y =>
      refine ⟨x, y, rfl, rfl, ?_⟩
      cases hc : value url c with
      | none =>
        cases hd : value url d with
        | some w => rw [ha, hb, hc, hd] at h; simp at h
        | none =>
          rw [ha, hb, hc, hd] at h
          simp only at h
          split at h
          · rename_i hp
            cases h
            exact .inr (.inr ⟨hp.1, hp.2.1, hp.2.2.1, hp.2.2.2, rfl⟩)
          · cases h
      | some z =>
        cases hd : value url d with
        | some w =>
          rw [ha, hb, hc, hd] at h
          simp only at h
          split at h
          · rename_i t' ht'
            cases h
            exact .inl ⟨z, w, t', rfl, rfl, ht', rfl⟩
          · cases h
        | none =>
          rw [ha, hb, hc, hd] at h
          simp only at h
          split at h
          · rename_i hp
            cases h
            exact .inr (.inl ⟨z, rfl, hp.1, hp.2.1, hp.2.2, rfl⟩)
          · cases h

theorem decode_two {url padded : Bool} {a b : Nat} {t : List Nat} (h : decode url padded [a, b] = some t) :
    padded = false ∧ ∃ x y, value url a = some x ∧ value url b = some y ∧ t = [x * 4 + y / 16] := by
  rw [decode] at h
  cases padded
  · rw [if_neg Bool.false_ne_true] at h
    cases ha : value url a <;> cases hb : value url b <;> rw [ha, hb] at h <;> simp at h
    exact ⟨rfl, _, _, rfl, rfl, h.symm⟩
  · simp at h

theorem decode_three {url padded : Bool} {a b c : Nat} {t : List Nat} (h : decode url padded [a, b, c] = some t) :
    padded = false ∧ ∃ x y z, value url a = some x ∧ value url b = some y ∧ value url c = some z ∧
      t = [x * 4 + y / 16, y % 16 * 16 + z / 4] := by
  rw [decode] at h
  cases padded
  · rw [if_neg Bool.false_ne_true] at h
    cases ha : value url a <;> cases hb : value url b <;> cases hc : value url c <;> rw [ha, hb, hc] at h <;> simp at h
    exact ⟨rfl, _, _, _, rfl, rfl, rfl, h.symm⟩
  · simp at h

theorem decode_one {url padded : Bool} {a : Nat} {t : List Nat} : decode url padded [a] ≠ some t := by
  rw [decode]; simp

/-- Two encodings that both accept a text give the same bytes. -/
theorem decode_agree {u p u' p' : Bool} : ∀ (k : Nat) (s t t' : List Nat), s.length ≤ k → decode u p s = some t → decode u' p' s = some t' →
    t = t' := by
  intro k
  induction k with
  | zero =>
    intro s t t' hl h h'
    have : s = [] := List.length_eq_zero_iff.1 (by omega)
    subst this
    rw [decode] at h h'
    cases h; cases h'; rfl
  | succ k ih =>
    intro s t t' hl h h'
    match s, hl, h, h' with
    | [], _, h, h' => rw [decode] at h h'; cases h; cases h'; rfl
    | [a], _, h, _ => exact absurd h decode_one
    | [a, b], _, h, h' =>
      obtain ⟨_, x, y, h1, h2, rfl⟩ := decode_two h
      obtain ⟨_, x', y', h1', h2', rfl⟩ := decode_two h'
      rw [value_agree h1 h1', value_agree h2 h2']
    | [a, b, c], _, h, h' =>
      obtain ⟨_, x, y, z, h1, h2, h3, rfl⟩ := decode_three h
      obtain ⟨_, x', y', z', h1', h2', h3', rfl⟩ := decode_three h'
      rw [value_agree h1 h1', value_agree h2 h2', value_agree h3 h3']
    | a :: b :: c :: d :: rest, hl, h, h' =>
      obtain ⟨x, y, h1, h2, h3⟩ := decode_group h
      obtain ⟨x', y', h1', h2', h3'⟩ := decode_group h'
      have ex := value_agree h1 h1'
      have ey := value_agree h2 h2'
      subst ex ey
      have np : ∀ {u : Bool} {n : Nat}, value u 61 ≠ some n := fun h => by rw [value_pad] at h; cases h
      rcases h3 with ⟨z, w, r, k1, k2, k3, rfl⟩ | ⟨z, k1, _, k2, k3, rfl⟩ | ⟨_, k1, k2, k3, rfl⟩ <;>
        rcases h3' with ⟨z', w', r', l1, l2, l3, rfl⟩ | ⟨z', l1, _, l2, l3, rfl⟩ | ⟨_, l1, l2, l3, rfl⟩
      · rw [value_agree k1 l1, value_agree k2 l2, ih rest r r' (by simp at hl; omega) k3 l3]
      · subst l2; exact absurd k2 np
      · subst l2; exact absurd k2 np
      · subst k2; exact absurd l2 np
      · rw [value_agree k1 l1]
      · subst l1; exact absurd k1 np
      · subst k2; exact absurd l2 np
      · subst k1; exact absurd l1 np
      · rfl

/-- A decoding is shorter than its text. -/
theorem decode_length {u p : Bool} : ∀ (k : Nat) (s t : List Nat), s.length ≤ k → decode u p s = some t → s ≠ [] → t.length < s.length := by
  intro k
  induction k with
  | zero =>
    intro s t hl h hn
    exact absurd (List.length_eq_zero_iff.1 (by omega)) hn
  | succ k ih =>
    intro s t hl h hn
    match s, hl, h with
    | [a], _, h => exact absurd h decode_one
    | [a, b], _, h => obtain ⟨_, x, y, h1, h2, rfl⟩ := decode_two h; simp
    | [a, b, c], _, h => obtain ⟨_, x, y, z, h1, h2, h3, rfl⟩ := decode_three h; simp
    | a :: b :: c :: d :: rest, hl, h =>
      obtain ⟨x, y, h1, h2, h3⟩ := decode_group h
      rcases h3 with ⟨z, w, r, k1, k2, k3, rfl⟩ | ⟨z, k1, _, k2, k3, rfl⟩ | ⟨_, k1, k2, k3, rfl⟩
      · by_cases hr : rest = []
        · subst hr
          rw [decode] at k3
          cases k3
          simp
        · have := ih rest r (by simp at hl; omega) k3 hr
          simp only [List.length_append, List.length_cons, List.length_nil]
          omega
      · subst k3; simp
      · subst k3; simp

theorem grammar_of_decode {u p : Bool} : ∀ (k : Nat) (s t : List Nat), s.length ≤ k → decode u p s = some t → Grammar u p s := by
  have lv : ∀ {c n : Nat}, value u c = some n → ∃ n, n < 64 ∧ c = letter u n := fun h => ⟨_, value_some h⟩
  have nilCase : Grammar u p [] := ⟨[], 0, rfl, by simp, by cases p <;> simp⟩
  intro k
  induction k with
  | zero =>
    intro s t hl h
    have : s = [] := List.length_eq_zero_iff.1 (by omega)
    subst this
    exact nilCase
  | succ k ih =>
    intro s t hl h
    match s, hl, h with
    | [], _, _ => exact nilCase
    | [a], _, h => exact absurd h decode_one
    | [a, b], _, h =>
      obtain ⟨rfl, x, y, h1, h2, rfl⟩ := decode_two h
      refine ⟨[a, b], 0, rfl, ?_, by simp⟩
      intro c hc
      rcases List.mem_cons.1 hc with rfl | hc
      · exact lv h1
      · rw [List.mem_singleton.1 hc]; exact lv h2
    | [a, b, c], _, h =>
      obtain ⟨rfl, x, y, z, h1, h2, h3, rfl⟩ := decode_three h
      refine ⟨[a, b, c], 0, rfl, ?_, by simp⟩
      intro c' hc
      simp only [List.mem_cons, List.not_mem_nil, or_false] at hc
      rcases hc with rfl | rfl | rfl
      · exact lv h1
      · exact lv h2
      · exact lv h3
    | a :: b :: c :: d :: rest, hl, h =>
      obtain ⟨x, y, h1, h2, h3⟩ := decode_group h
      rcases h3 with ⟨z, w, r, k1, k2, k3, rfl⟩ | ⟨z, k1, rfl, rfl, rfl, rfl⟩ | ⟨rfl, rfl, rfl, rfl, rfl⟩
      · obtain ⟨cs, n, e, g1, g2⟩ := ih rest r (by simp at hl; omega) k3
        refine ⟨a :: b :: c :: d :: cs, n, by rw [e]; rfl, ?_, ?_⟩
        · intro c' hc
          simp only [List.mem_cons] at hc
          rcases hc with rfl | rfl | rfl | rfl | hc
          · exact lv h1
          · exact lv h2
          · exact lv k1
          · exact lv k2
          · exact g1 c' hc
        · simp only [List.length_cons]
          cases p
          · simp only [Bool.false_eq_true, if_false] at g2 ⊢; omega
          · simp only [if_true] at g2 ⊢; omega
      · refine ⟨[a, b, c], 1, rfl, ?_, by simp⟩
        intro c' hc
        simp only [List.mem_cons, List.not_mem_nil, or_false] at hc
        rcases hc with rfl | rfl | rfl
        · exact lv h1
        · exact lv h2
        · exact lv k1
      · refine ⟨[a, b], 2, rfl, ?_, by simp⟩
        intro c hc
        rcases List.mem_cons.1 hc with rfl | hc
        · exact lv h1
        · rw [List.mem_singleton.1 hc]; exact lv h2

theorem decode_of_grammar {u p : Bool} : ∀ (k : Nat) (cs : List Nat) (n : Nat), cs.length ≤ k →
    (∀ c ∈ cs, ∃ n, n < 64 ∧ c = letter u n) →
    (if p = true then (cs.length + n) % 4 = 0 ∧ n ≤ 2 else n = 0 ∧ cs.length % 4 ≠ 1) →
    ∃ t, decode u p (cs ++ List.replicate n 61) = some t := by
  intro k
  have val : ∀ {c : Nat}, (∃ n, n < 64 ∧ c = letter u n) → ∃ n, value u c = some n := by
    rintro c ⟨n, hn, rfl⟩
    exact ⟨n, value_letter u n hn⟩
  induction k with
  | zero =>
    intro cs n hl _ hp
    have : cs = [] := List.length_eq_zero_iff.1 (by omega)
    subst this
    have : n = 0 := by
      cases p
      · simp only [Bool.false_eq_true, if_false] at hp; exact hp.1
      · simp only [if_true, List.length_nil] at hp; omega
    subst this
    exact ⟨[], by rw [List.nil_append, List.replicate_zero, decode]⟩
  | succ k ih =>
    intro cs n hl hc hp
    match cs, hl, hc, hp with
    | [], _, _, hp =>
      have : n = 0 := by
        cases p
        · simp only [Bool.false_eq_true, if_false] at hp; exact hp.1
        · simp only [if_true, List.length_nil] at hp; omega
      subst this
      exact ⟨[], by rw [List.nil_append, List.replicate_zero, decode]⟩
    | [a], _, _, hp =>
      exfalso
      cases p
      · simp at hp
      · simp only [if_true, List.length_cons, List.length_nil] at hp; omega
    | [a, b], _, hc, hp =>
      obtain ⟨x, hx⟩ := val (hc a (by simp))
      obtain ⟨y, hy⟩ := val (hc b (by simp))
      cases p
      · simp only [Bool.false_eq_true, if_false] at hp
        rw [hp.1]
        exact ⟨_, by simp only [List.replicate_zero, List.append_nil, decode, hx, hy]; rfl⟩
      · simp only [if_true, List.length_cons, List.length_nil] at hp
        have : n = 2 := by omega
        subst this
        exact ⟨[x * 4 + y / 16], by simp [decode, hx, hy, value_pad, List.replicate, pad]⟩
    | [a, b, c], _, hc, hp =>
      obtain ⟨x, hx⟩ := val (hc a (by simp))
      obtain ⟨y, hy⟩ := val (hc b (by simp))
      obtain ⟨z, hz⟩ := val (hc c (by simp))
      cases p
      · simp only [Bool.false_eq_true, if_false] at hp
        rw [hp.1]
        exact ⟨_, by simp only [List.replicate_zero, List.append_nil, decode, hx, hy, hz]; rfl⟩
      · simp only [if_true, List.length_cons, List.length_nil] at hp
        have : n = 1 := by omega
        subst this
        exact ⟨[x * 4 + y / 16, y % 16 * 16 + z / 4], by simp [decode, hx, hy, hz, value_pad, List.replicate, pad]⟩
    | a :: b :: c :: d :: rest, hl, hc, hp =>
      obtain ⟨x, hx⟩ := val (hc a (by simp))
      obtain ⟨y, hy⟩ := val (hc b (by simp))
      obtain ⟨z, hz⟩ := val (hc c (by simp))
      obtain ⟨w, hw⟩ := val (hc d (by simp))
      obtain ⟨t, ht⟩ := ih rest n (by simp at hl; omega) (fun c' hc' => hc c' (by simp [hc'])) (by
        simp only [List.length_cons] at hp
        cases p
        · simp only [Bool.false_eq_true, if_false] at hp ⊢; omega
        · simp only [if_true] at hp ⊢; omega)
      exact ⟨_, by simp only [List.cons_append, decode, hx, hy, hz, hw, ht]; rfl⟩

/-- An encoding accepts exactly the texts of its grammar. -/
theorem decode_iff (u p : Bool) (s : List Nat) : (∃ t, decode u p s = some t) ↔ Grammar u p s := by
  constructor
  · rintro ⟨t, h⟩; exact grammar_of_decode s.length s t (Nat.le_refl _) h
  · rintro ⟨cs, n, rfl, h1, h2⟩; exact decode_of_grammar cs.length cs n (Nat.le_refl _) h1 h2

theorem looks_of_grammar {u p : Bool} {s : List Nat} (h : Grammar u p s) : looksLikeBase64 s = true := by
  obtain ⟨cs, n, rfl, h1, h2⟩ := h
  unfold looksLikeBase64
  rw [List.all_eq_true]
  intro c hc
  rcases List.mem_append.1 hc with hc | hc
  · obtain ⟨k, hk, rfl⟩ := h1 c hc
    have := value_letter u k hk
    cases u <;> rw [this] <;> simp
  · rw [List.eq_of_mem_replicate hc]; rfl

theorem mem_codecs {u p : Bool} {s : List Nat} (h : Grammar u p s) : (u, p) ∈ codecs s := by
  unfold codecs
  cases p
  · rw [if_neg]
    · cases u <;> simp
    · intro hl
      obtain ⟨cs, n, rfl, h1, h2⟩ := h
      simp only [Bool.false_eq_true, if_false] at h2
      rw [h2.1, List.replicate_zero, List.append_nil] at hl
      obtain ⟨k, hk, e⟩ := h1 pad (List.mem_of_getLast? hl)
      exact (letter_range u k hk).2.2 e.symm
  · split <;> cases u <;> simp

theorem findSome_unique {α β : Type} (f : α → Option β) (b : β) (l : List α) (h1 : ∃ x ∈ l, f x = some b)
    (h2 : ∀ x ∈ l, ∀ t, f x = some t → t = b) : l.findSome? f = some b := by
  induction l with
  | nil => obtain ⟨x, hx, _⟩ := h1; cases hx
  | cons a l ih =>
    rw [List.findSome?_cons]
    cases ha : f a with
    | some t => simp only; rw [h2 a (by simp) t ha]
    | none =>
      simp only
      refine ih ?_ (fun x hx => h2 x (List.mem_cons_of_mem _ hx))
      obtain ⟨x, hx, e⟩ := h1
      rcases List.mem_cons.1 hx with rfl | hx
      · rw [ha] at e; cases e
      · exact ⟨x, hx, e⟩

theorem codecs_of_decode {u p : Bool} {s t : List Nat} (h : decode u p s = some t) :
    (codecs s).findSome? (fun e => decode e.1 e.2 s) = some t :=
  findSome_unique _ t _ ⟨(u, p), mem_codecs ((decode_iff u p s).1 ⟨t, h⟩), h⟩
    (fun _ _ _ h' => decode_agree s.length s _ _ (Nat.le_refl _) h' h)

/-! ### C53 -/

theorem encode_ne_nil (url padded : Bool) {bs : List Nat} (h : bs ≠ []) : encode url padded bs ≠ [] := by
  match bs, h with
  | [a], _ => simp [encode]
  | [a, b], _ => simp [encode]
  | a :: b :: c :: rest, _ => simp [encode]

theorem grammar_chars {u p : Bool} {s : List Nat} (h : Grammar u p s) : ∀ c ∈ s, c < 128 ∧ ¬ IsSpaceByte c := by
  obtain ⟨cs, n, rfl, h1, h2⟩ := h
  intro c hc
  rcases List.mem_append.1 hc with hc | hc
  · obtain ⟨k, hk, rfl⟩ := h1 c hc
    have := letter_range u k hk
    unfold IsSpaceByte
    omega
  · rw [List.eq_of_mem_replicate hc]
    unfold IsSpaceByte
    omega

/-- C53: the base64 encoding of a byte string, in the standard or the URL alphabet, with or without
padding, surrounded by any white space, is read as that byte string. -/
theorem C53_base64 (url padded : Bool) (bs pre post : List Nat) (hb : Bytes bs) (hn : bs ≠ []) (h1 : ∀ b ∈ pre, IsSpaceByte b)
    (h2 : ∀ b ∈ post, IsSpaceByte b) : readInput (pre ++ encode url padded bs ++ post) = some bs := by
  have hd := decode_encode url padded bs.length bs (Nat.le_refl _) hb
  have hg := (decode_iff url padded _).1 ⟨bs, hd⟩
  unfold readInput
  simp only
  rw [trimSpace_surround pre _ post h1 h2 (encode_ne_nil url padded hn) (grammar_chars hg), if_neg (encode_ne_nil url padded hn),
    if_pos (looks_of_grammar hg), codecs_of_decode hd]
  rfl

/-- C53 (partial): an input is decoded byte for byte exactly when it does not start or end with white space
and is not itself a text in base64. Missing: binary input which starts or ends with white space or has the
form of base64, see `C53_violated`. -/
theorem C53_partial (s : List Nat) (hn : s ≠ []) :
    readInput s = some s ↔ ¬ StartsBlank s ∧ ¬ EndsBlank s ∧ ¬ IsBase64 s := by
  constructor
  · intro h
    unfold readInput at h
    simp only at h
    have hle : (trimSpace s).length ≤ s.length := by
      unfold trimSpace
      simp only
      rw [List.length_reverse]
      have h1 := dropSpaces_le true (dropSpaces false s.length s).length (dropSpaces false s.length s).reverse
      rw [List.length_reverse] at h1
      have h2 := dropSpaces_le false s.length s
      omega
    split at h
    · cases h
    · rename_i hne
      split at h
      · cases hf : (codecs (trimSpace s)).findSome? fun e => decode e.1 e.2 (trimSpace s) with
        | some t =>
          exfalso
          rw [hf] at h
          obtain ⟨e, _, he⟩ := List.exists_of_findSome?_eq_some hf
          have := decode_length _ _ _ (Nat.le_refl _) he hne
          have hl : t = s := Option.some.inj h
          subst hl
          omega
        | none =>
          rw [hf] at h
          have ht : trimSpace s = s := Option.some.inj h
          obtain ⟨k1, k2⟩ := (trimSpace_eq_self s).1 ht
          refine ⟨k1, k2, ?_⟩
          rintro ⟨u, p, hg⟩
          obtain ⟨t, hd⟩ := (decode_iff u p s).2 hg
          rw [ht, codecs_of_decode hd] at hf
          cases hf
      · rename_i hl
        have ht : trimSpace s = s := Option.some.inj h
        obtain ⟨k1, k2⟩ := (trimSpace_eq_self s).1 ht
        refine ⟨k1, k2, ?_⟩
        rintro ⟨u, p, hg⟩
        rw [ht] at hl
        exact hl (looks_of_grammar hg)
  · rintro ⟨h1, h2, h3⟩
    unfold readInput
    simp only
    rw [(trimSpace_eq_self s).2 ⟨h1, h2⟩, if_neg hn]
    split
    · have : (codecs s).findSome? (fun e => decode e.1 e.2 s) = none := by
        rw [List.findSome?_eq_none_iff]
        intro e _
        cases hd : decode e.1 e.2 s with
        | none => rfl
        | some t => exact absurd ⟨e.1, e.2, (decode_iff e.1 e.2 s).1 ⟨t, hd⟩⟩ h3
      rw [this]
      rfl
    · rfl

/-- C53 fails: a message that starts with the byte 0x0A, the tag of a first field of type string, bytes or
message, is never read as given. -/
theorem C53_violated : ∀ rest : List Nat, readInput (0x0A :: rest) ≠ some (0x0A :: rest) := by
  intro rest h
  exact ((C53_partial (0x0A :: rest) (by simp)).1 h).1 ⟨[10], by decide, ⟨rest, rfl⟩⟩

/-- The message with field 1 equal to 10 is read as a truncated message. -/
example : readInput [0x08, 0x0A] = some [0x08] := by decide
/-- The message with field 9 equal to 48 has the form of base64. -/
example : readInput [0x48, 0x30] = some [0x1F] := by decide
example : readInput [0x12, 0x03, 0x61, 0x62, 0x63] = some [0x12, 0x03, 0x61, 0x62, 0x63] := by decide
example : readInput ([10, 32] ++ encode true false [0xFB, 0xFF, 1, 2] ++ [13, 10]) = some [0xFB, 0xFF, 1, 2] := by decide

/-! ### C54 -/

/-- Specification: the classes of messages for a query. -/
def ByFull (q : Str) (m : Msg) : Prop := m.fullName = q
def ByName (q : Str) (m : Msg) : Prop := m.fullName ≠ q ∧ m.name = q
def ByPart (lower : Str → Str) (q : Str) (m : Msg) : Prop :=
  m.fullName ≠ q ∧ m.name ≠ q ∧ lower q <:+: lower m.fullName

/-- Specification: a choice is right. The first class with a message decides: its message if there is only
one, else the user is asked to choose among all messages of the class. -/
def Right (lower : Str → Str) (q : Str) (msgs : List Msg) (c : Choice) : Prop :=
  let decides (P : Msg → Prop) : Prop :=
    (∃ m, c = .use m ∧ m ∈ msgs ∧ P m ∧ ∀ m' ∈ msgs, P m' → m' = m) ∨
    (∃ ms, c = .ask ms ∧ 2 ≤ ms.length ∧ ms.Nodup ∧ ∀ m, m ∈ ms ↔ m ∈ msgs ∧ P m)
  ((∃ m ∈ msgs, ByFull q m) ∧ decides (ByFull q)) ∨
  ((¬ ∃ m ∈ msgs, ByFull q m) ∧ (∃ m ∈ msgs, ByName q m) ∧ decides (ByName q)) ∨
  ((¬ ∃ m ∈ msgs, ByFull q m) ∧ (¬ ∃ m ∈ msgs, ByName q m) ∧ (∃ m ∈ msgs, ByPart lower q m) ∧ decides (ByPart lower q)) ∨
  ((¬ ∃ m ∈ msgs, ByFull q m) ∧ (¬ ∃ m ∈ msgs, ByName q m) ∧ (¬ ∃ m ∈ msgs, ByPart lower q m) ∧ c = .fail)

theorem contains_iff (s sub : Str) : contains s sub = true ↔ sub <:+: s := by
  unfold contains
  rw [List.any_eq_true]
  constructor
  · rintro ⟨i, _, h⟩
    obtain ⟨t, ht⟩ := List.isPrefixOf_iff_prefix.1 h
    exact ⟨s.take i, t, by rw [List.append_assoc, ht, List.take_append_drop]⟩
  · rintro ⟨a, b, rfl⟩
    refine ⟨a.length, List.mem_range.2 (by simp; omega), ?_⟩
    rw [List.isPrefixOf_iff_prefix, List.append_assoc, List.drop_left]
    exact ⟨b, rfl⟩

theorem scan_some {lower : Str → Str} {q : Str} {msgs names parts : List Msg} (h : ∃ m ∈ msgs, m.fullName = q) :
    ∃ m ∈ msgs, m.fullName = q ∧ (scan lower q names parts msgs).1 = some m := by
  induction msgs generalizing names parts with
  | nil => obtain ⟨m, hm, _⟩ := h; cases hm
  | cons a msgs ih =>
    unfold scan
    by_cases ha : a.fullName = q
    · rw [if_pos ha]; exact ⟨a, by simp, ha, rfl⟩
    · rw [if_neg ha]
      have h' : ∃ m ∈ msgs, m.fullName = q := by
        obtain ⟨m, hm, e⟩ := h
        rcases List.mem_cons.1 hm with rfl | hm
        · exact absurd e ha
        · exact ⟨m, hm, e⟩
      split
      · obtain ⟨m, hm, e1, e2⟩ := ih (names := names ++ [a]) (parts := parts) h'; exact ⟨m, List.mem_cons_of_mem _ hm, e1, e2⟩
      · split
        · obtain ⟨m, hm, e1, e2⟩ := ih (names := names) (parts := parts ++ [a]) h'; exact ⟨m, List.mem_cons_of_mem _ hm, e1, e2⟩
        · obtain ⟨m, hm, e1, e2⟩ := ih (names := names) (parts := parts) h'; exact ⟨m, List.mem_cons_of_mem _ hm, e1, e2⟩

theorem scan_none {lower : Str → Str} {q : Str} {msgs : List Msg} (h : ¬ ∃ m ∈ msgs, m.fullName = q) (names parts : List Msg) :
    scan lower q names parts msgs = (none, names ++ msgs.filter (fun m => m.name = q),
      parts ++ msgs.filter (fun m => ¬ m.name = q ∧ contains (lower m.fullName) (lower q) = true)) := by
  induction msgs generalizing names parts with
  | nil => simp [scan]
  | cons a msgs ih =>
    have ha : a.fullName ≠ q := fun e => h ⟨a, by simp, e⟩
    have h' : ¬ ∃ m ∈ msgs, m.fullName = q := fun ⟨m, hm, e⟩ => h ⟨m, List.mem_cons_of_mem _ hm, e⟩
    unfold scan
    rw [if_neg ha]
    by_cases hn : a.name = q
    · rw [if_pos hn, ih h']; simp [hn]
    · rw [if_neg hn]
      by_cases hc : contains (lower a.fullName) (lower q) = true
      · rw [if_pos hc, ih h']; simp [hn, hc]
      · rw [if_neg hc, ih h']; simp [hn, hc]

/-- C54: the choice is right: the exact full name, else the short name, else the containing names. -/
theorem C54_select (lower : Str → Str) (q : Str) (msgs : List Msg) (hd : (msgs.map Msg.fullName).Nodup) :
    Right lower q msgs (select lower q msgs) := by
  have hinj : ∀ m ∈ msgs, ∀ m' ∈ msgs, m.fullName = m'.fullName → m = m' := List.inj_on_of_nodup_map hd
  have hnd : msgs.Nodup := List.Nodup.of_map _ hd
  unfold Right
  simp only
  by_cases hf : ∃ m ∈ msgs, m.fullName = q
  · left
    obtain ⟨m, hm, e1, e2⟩ := scan_some (lower := lower) (names := []) (parts := []) hf
    refine ⟨hf, .inl ⟨m, ?_, hm, e1, fun m' hm' e' => hinj m' hm' m hm (e'.trans e1.symm)⟩⟩
    unfold select
    generalize scan lower q [] [] msgs = r at e2
    obtain ⟨r1, r2, r3⟩ := r
    simp only at e2
    subst e2
    rfl
  · right
    have hs := scan_none (lower := lower) hf [] []
    rw [List.nil_append, List.nil_append] at hs
    have hN : ∀ m, m ∈ msgs.filter (fun m => m.name = q) ↔ m ∈ msgs ∧ ByName q m := by
      intro m
      rw [List.mem_filter]
      constructor
      · rintro ⟨h1, h2⟩; exact ⟨h1, fun e => hf ⟨m, h1, e⟩, by simpa using h2⟩
      · rintro ⟨h1, _, h2⟩; exact ⟨h1, by simpa using h2⟩
    have hP : ∀ m, m ∈ msgs.filter (fun m => ¬ m.name = q ∧ contains (lower m.fullName) (lower q) = true) ↔ m ∈ msgs ∧ ByPart lower q m := by
      intro m
      rw [List.mem_filter]
      simp only [contains_iff, decide_eq_true_eq]
      constructor
      · rintro ⟨h1, h2, h3⟩; exact ⟨h1, fun e => hf ⟨m, h1, e⟩, h2, h3⟩
      · rintro ⟨h1, _, h2, h3⟩; exact ⟨h1, h2, h3⟩
    have dN : (msgs.filter (fun m => decide (m.name = q))).Nodup := hnd.filter _
    have dP : (msgs.filter (fun m => decide (¬ m.name = q ∧ contains (lower m.fullName) (lower q) = true))).Nodup := hnd.filter _
    unfold select
    rw [hs]
    generalize msgs.filter (fun m => decide (m.name = q)) = N at hN dN
    generalize msgs.filter (fun m => decide (¬ m.name = q ∧ contains (lower m.fullName) (lower q) = true)) = P at hP dP
    match N, hN, dN with
    | [m], hN, _ =>
      left
      have h1 := (hN m).1 (by simp)
      exact ⟨hf, ⟨m, h1⟩, .inl ⟨m, rfl, h1.1, h1.2, fun m' hm' hp => by simpa using (hN m').2 ⟨hm', hp⟩⟩⟩
    | m :: m' :: ms, hN, dN =>
      left
      exact ⟨hf, ⟨m, (hN m).1 (by simp)⟩, .inr ⟨m :: m' :: ms, rfl, by simp, dN, hN⟩⟩
    | [], hN, _ =>
      right
      have hno : ¬ ∃ m ∈ msgs, ByName q m := fun ⟨m, h1, h2⟩ => by simpa using (hN m).2 ⟨h1, h2⟩
      match P, hP, dP with
      | [m], hP, _ =>
        left
        have h1 := (hP m).1 (by simp)
        exact ⟨hf, hno, ⟨m, h1⟩, .inl ⟨m, rfl, h1.1, h1.2, fun m' hm' hp => by simpa using (hP m').2 ⟨hm', hp⟩⟩⟩
      | m :: m' :: ms, hP, dP =>
        left
        exact ⟨hf, hno, ⟨m, (hP m).1 (by simp)⟩, .inr ⟨m :: m' :: ms, rfl, by simp, dP, hP⟩⟩
      | [], hP, _ =>
        right
        exact ⟨hf, hno, fun ⟨m, h1, h2⟩ => by simpa using (hP m).2 ⟨h1, h2⟩, rfl⟩

/-- Specification: two choices are the same up to the order in which the user sees them. -/
def SameChoice : Choice → Choice → Prop
  | .use m, .use m' => m = m'
  | .ask ms, .ask ms' => ms.Perm ms'
  | .fail, .fail => True
  | _, _ => False

theorem Right.unique {lower : Str → Str} {q : Str} {msgs msgs' : List Msg} (hm : ∀ m, m ∈ msgs ↔ m ∈ msgs') {c c' : Choice}
    (h : Right lower q msgs c) (h' : Right lower q msgs' c') : SameChoice c c' := by
  have two : ∀ {P : Msg → Prop} {m : Msg} {ms : List Msg}, 2 ≤ ms.length → ms.Nodup → (∀ x ∈ ms, P x) → (∀ x, P x → x = m) → False := by
    intro P m ms h1 h2 h3 h4
    match ms, h1, h2, h3 with
    | a :: b :: ms, _, h2, h3 =>
      have ea := h4 a (h3 a (by simp))
      have eb := h4 b (h3 b (by simp))
      simp [ea, eb] at h2
  have dec : ∀ {P : Msg → Prop},
      ((∃ m, c = .use m ∧ m ∈ msgs ∧ P m ∧ ∀ m' ∈ msgs, P m' → m' = m) ∨
       (∃ ms, c = .ask ms ∧ 2 ≤ ms.length ∧ ms.Nodup ∧ ∀ m, m ∈ ms ↔ m ∈ msgs ∧ P m)) →
      ((∃ m, c' = .use m ∧ m ∈ msgs' ∧ P m ∧ ∀ m' ∈ msgs', P m' → m' = m) ∨
       (∃ ms, c' = .ask ms ∧ 2 ≤ ms.length ∧ ms.Nodup ∧ ∀ m, m ∈ ms ↔ m ∈ msgs' ∧ P m)) → SameChoice c c' := by
    intro P h h'
    rcases h with ⟨m, rfl, a1, a2, a3⟩ | ⟨ms, rfl, a1, a2, a3⟩ <;>
      rcases h' with ⟨m', rfl, b1, b2, b3⟩ | ⟨ms', rfl, b1, b2, b3⟩
    · exact b3 m ((hm m).1 a1) a2
    · exact (two (P := fun x => x ∈ msgs ∧ P x) b1 b2 (fun x hx => ⟨(hm x).2 ((b3 x).1 hx).1, ((b3 x).1 hx).2⟩)
        (fun x hx => a3 x hx.1 hx.2)).elim
    · exact (two (P := fun x => x ∈ msgs' ∧ P x) a1 a2 (fun x hx => ⟨(hm x).1 ((a3 x).1 hx).1, ((a3 x).1 hx).2⟩)
        (fun x hx => b3 x hx.1 hx.2)).elim
    · refine (List.perm_ext_iff_of_nodup a2 b2).2 fun x => ?_
      rw [a3, b3, hm]
  have tr : ∀ {P : Msg → Prop}, (∃ m ∈ msgs, P m) ↔ ∃ m ∈ msgs', P m :=
    ⟨fun ⟨m, h1, h2⟩ => ⟨m, (hm m).1 h1, h2⟩, fun ⟨m, h1, h2⟩ => ⟨m, (hm m).2 h1, h2⟩⟩
  unfold Right at h h'
  simp only at h h'
  rw [← tr, ← tr, ← tr] at h'
  rcases h with ⟨a1, a2⟩ | ⟨a1, a2, a3⟩ | ⟨a1, a2, a3, a4⟩ | ⟨a1, a2, a3, a4⟩ <;>
    rcases h' with ⟨b1, b2⟩ | ⟨b1, b2, b3⟩ | ⟨b1, b2, b3, b4⟩ | ⟨b1, b2, b3, b4⟩ <;>
    first
      | exact dec a2 b2
      | exact dec a3 b3
      | exact dec a4 b4
      | (subst a4; subst b4; trivial)
      | contradiction

/-- C54: the choice does not depend on the order in which the messages are listed. -/
theorem C54_order (lower : Str → Str) (q : Str) (msgs msgs' : List Msg) (hd : (msgs.map Msg.fullName).Nodup) (hp : msgs.Perm msgs') :
    SameChoice (select lower q msgs) (select lower q msgs') :=
  Right.unique (fun _ => hp.mem_iff) (C54_select lower q msgs hd) (C54_select lower q msgs' ((hp.map _).nodup_iff.1 hd))

private def exMsgs : List Msg := [⟨['a', '.', 'F'], ['F']⟩, ⟨['b', '.', 'F'], ['F']⟩, ⟨['c', '.', 'F', 'o'], ['F', 'o']⟩, ⟨['F'], ['F']⟩]
example : (exMsgs.map Msg.fullName).Nodup := by decide
example : select id ['F'] exMsgs = .use ⟨['F'], ['F']⟩ := by decide
example : select id ['F'] (exMsgs.take 3) = .ask (exMsgs.take 2) := by decide
example : select id ['o'] exMsgs = .use ⟨['c', '.', 'F', 'o'], ['F', 'o']⟩ := by decide
example : select id ['z'] exMsgs = .fail := by decide

end Verif.Decode
