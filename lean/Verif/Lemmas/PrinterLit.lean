import Verif.Lemmas.PrinterEmits
import Verif.Props.Quote
import Verif.Props.Qualify
/-! The tokens of the names and values that the descriptor printer writes. -/
namespace Verif.Printer
open Verif.Lexer Verif.PrintWriter Verif.Decls Verif.Literal

/-! ### Texts -/

/-- A text with the tokens `ts`, after which anything but a part of a word may follow. -/
structure Txt (s : Str) (ts : List Str) : Prop where
  lex : ∃ m, Lx .idle s ts m ∧ Clean m
  ne : s ≠ []
  last : s.getLast? ≠ some ' '
  head : s.head? ≠ some ';' ∧ s.head? ≠ some ','

theorem Txt.emits {s : Str} {ts : List Str} (h : Txt s ts) {k : K} (hk : k ≠ .any) : Emits (put s) k ts .any := by
  obtain ⟨m, hx, hm⟩ := h.lex
  exact Emits.put_any hx h.ne h.last hm (.inr ⟨hk, h.head⟩)

theorem Txt.emits_sep {s : Str} {ts : List Str} (h : Txt s ts) {k : K} (hk : k ≠ .any) : Emits (put (s ++ [' '])) k ts .sep := by
  obtain ⟨m, hx, hm⟩ := h.lex
  exact Emits.put_sep hx h.ne h.last hm (.inr ⟨hk, h.head⟩)

/-- The text followed by a punctuation mark. -/
theorem Txt.lx_punct {s : Str} {ts : List Str} (h : Txt s ts) {c : Char} (hc : punctChar c = true) :
    Lx .idle (s ++ [c]) (ts ++ [[c]]) .idle := by
  obtain ⟨m, hx, hm⟩ := h.lex
  exact hx.append (Lx.punct hm hc)

theorem letter_head {c : Char} (h : letter c = true) : c ≠ ';' ∧ c ≠ ',' ∧ c ≠ ' ' := by
  refine ⟨?_, ?_, ?_⟩ <;> rintro rfl <;> revert h <;> decide

theorem digit_head {c : Char} (h : digit c = true) : c ≠ ';' ∧ c ≠ ',' ∧ c ≠ ' ' := by
  refine ⟨?_, ?_, ?_⟩ <;> rintro rfl <;> revert h <;> decide

theorem last_mem {s : Str} {c : Char} (h : s.getLast? = some c) : c ∈ s := List.mem_of_getLast? h

theorem ident_last {s : Str} (h : Ident s) : s.getLast? ≠ some ' ' := by
  cases s with
  | nil => cases h
  | cons c s =>
    intro hl
    have := last_mem hl
    rcases List.mem_cons.1 this with e | e
    · exact (letter_head h.1).2.2 e.symm
    · rcases h.2 _ e with h | h
      · exact (letter_head h).2.2 rfl
      · exact (digit_head h).2.2 rfl

theorem Txt.ident {s : Str} (h : Ident s) : Txt s [s] := by
  refine ⟨⟨_, Lx.ident h, trivial⟩, ?_, ident_last h, ?_⟩
  · rintro rfl; cases h
  · cases s with
    | nil => cases h
    | cons c s => simpa using ⟨(letter_head h.1).1, (letter_head h.1).2.1⟩

theorem number_last {s : Str} (h : Number s) : s.getLast? ≠ some ' ' := by
  cases s with
  | nil => cases h
  | cons c s =>
    intro hl
    have := last_mem hl
    rcases List.mem_cons.1 this with e | e
    · exact (digit_head h.1).2.2 e.symm
    · rcases h.2 _ e with h | h
      · exact (digit_head h).2.2 rfl
      · cases h

theorem Txt.number {s : Str} (h : Number s) : Txt s [s] := by
  refine ⟨⟨_, Lx.number h, trivial⟩, ?_, number_last h, ?_⟩
  · rintro rfl; cases h
  · cases s with
    | nil => cases h
    | cons c s => simpa using ⟨(digit_head h.1).1, (digit_head h.1).2.1⟩

theorem digit_of_isDigit {c : Char} (h : Verif.isDigit c = true) : digit c = true := by
  unfold Verif.isDigit at h
  unfold digit Char.isDigit
  simp only [Bool.and_eq_true, decide_eq_true_eq] at h ⊢
  exact ⟨UInt32.le_iff_toNat_le.2 h.1, UInt32.le_iff_toNat_le.2 h.2⟩

theorem number_dec (n : Nat) : Number (dec n) := by
  have h := dec_digits n
  have hne := dec_ne_nil n
  cases hd : dec n with
  | nil => exact absurd hd hne
  | cons c s =>
    rw [hd] at h
    exact ⟨digit_of_isDigit (h c List.mem_cons_self), fun d hd => .inl (digit_of_isDigit (h d (List.mem_cons_of_mem _ hd)))⟩

/-- A sign before a number. -/
theorem Txt.signed {s : Str} {ts : List Str} (h : Txt s ts) (neg : Bool) : Txt (if neg then '-' :: s else s) (sign neg ++ ts) := by
  cases neg
  · simpa [sign] using h
  · obtain ⟨m, hx, hm⟩ := h.lex
    simp only [if_true]
    refine ⟨⟨m, (Lx.minus.cons hx).toks rfl, hm⟩, by simp, ?_, by simp⟩
    rw [← List.singleton_append, List.getLast?_append]
    cases hl : s.getLast? with
    | none => exact absurd (List.getLast?_eq_none_iff.1 hl) h.ne
    | some x => have := h.last; rw [hl] at this; simpa using this

theorem showInt_eq (z : Int) : Ranges.showInt z = if decide (z < 0) = true then '-' :: dec z.natAbs else dec z.natAbs := by
  unfold Ranges.showInt; simp

theorem Txt.int (z : Int) : Txt (Ranges.showInt z) (intToks z) := by
  rw [showInt_eq]
  exact (Txt.number (number_dec _)).signed _

/-! ### References -/

theorem lx_dotted (segs : List Str) (hne : segs ≠ []) (h : Idents segs) {m : Mode} (hm : m = .idle ∨ m = .dot) :
    ∃ a, Lx m (dotted segs) (segToks segs) (.ident a) := by
  induction segs generalizing m with
  | nil => exact absurd rfl hne
  | cons s ss ih =>
    have hs := h s List.mem_cons_self
    have h1 : Lx m s [s] (.ident s) := by
      rcases hm with rfl | rfl
      · exact Lx.ident hs
      · exact Lx.dot_ident hs
    cases ss with
    | nil => exact ⟨s, h1⟩
    | cons t ts =>
      obtain ⟨a, h2⟩ := ih (by simp) (fun x hx => h x (List.mem_cons_of_mem _ hx)) (.inr rfl)
      refine ⟨a, ?_⟩
      rw [show dotted (s :: t :: ts) = s ++ ('.' :: dotted (t :: ts)) from joinWith_cons _ _ _ (by simp)]
      exact (h1.append ((Lx.ident_dot s).cons h2)).toks rfl

theorem dotted_last (segs : List Str) (hne : segs ≠ []) (h : Idents segs) : (dotted segs).getLast? ≠ some ' ' := by
  induction segs with
  | nil => exact absurd rfl hne
  | cons s ss ih =>
    cases ss with
    | nil => exact ident_last (h s List.mem_cons_self)
    | cons t ts =>
      rw [show dotted (s :: t :: ts) = s ++ ('.' :: dotted (t :: ts)) from joinWith_cons _ _ _ (by simp)]
      have := ih (by simp) (fun x hx => h x (List.mem_cons_of_mem _ hx))
      rw [List.getLast?_append]
      rw [show ('.' :: dotted (t :: ts)) = ['.'] ++ dotted (t :: ts) from rfl, List.getLast?_append]
      cases hl : (dotted (t :: ts)).getLast? with
      | none => simp
      | some x => rw [hl] at this; simpa using this

theorem dotted_cons (segs : List Str) (hne : segs ≠ []) (h : Idents segs) : ∃ c s, dotted segs = c :: s ∧ letter c = true := by
  cases segs with
  | nil => exact absurd rfl hne
  | cons s ss =>
    have hs := h s List.mem_cons_self
    cases s with
    | nil => cases hs
    | cons c s =>
      cases ss with
      | nil => exact ⟨c, s, rfl, hs.1⟩
      | cons t ts =>
        exact ⟨c, s ++ ('.' :: dotted (t :: ts)), by
          rw [show dotted ((c :: s) :: t :: ts) = (c :: s) ++ ('.' :: dotted (t :: ts)) from joinWith_cons _ _ _ (by simp)]
          rfl, hs.1⟩

/-- The text of a reference. -/
def refText (r : Ref) : Str := (if r.rooted then ['.'] else []) ++ dotted r.segs

structure RefOk (r : Ref) : Prop where
  ne : r.segs ≠ []
  idents : Idents r.segs

theorem lx_ref {r : Ref} (h : RefOk r) : ∃ a, Lx .idle (refText r) r.toks (.ident a) := by
  unfold refText Ref.toks
  cases hr : r.rooted
  · simpa using lx_dotted r.segs h.ne h.idents (.inl rfl)
  · obtain ⟨a, ha⟩ := lx_dotted r.segs h.ne h.idents (m := .dot) (.inr rfl)
    exact ⟨a, by simpa [Decls.dot] using Lx.idle_dot.append ha⟩

theorem Txt.dotted {q : List Str} (h : QOk q) : Txt (dotted q) (segToks q) := by
  obtain ⟨a, ha⟩ := lx_dotted q h.ne h.idents (.inl rfl)
  obtain ⟨c, s, e, hc⟩ := dotted_cons q h.ne h.idents
  refine ⟨⟨_, ha, trivial⟩, by rw [e]; simp, dotted_last q h.ne h.idents, ?_⟩
  rw [e]
  simpa using ⟨(letter_head hc).1, (letter_head hc).2.1⟩

theorem Txt.ref {r : Ref} (h : RefOk r) : Txt (refText r) r.toks := by
  obtain ⟨a, ha⟩ := lx_ref h
  obtain ⟨c, s, e, hc⟩ := dotted_cons r.segs h.ne h.idents
  refine ⟨⟨_, ha, trivial⟩, ?_, ?_, ?_⟩
  · unfold refText; rw [e]; simp
  · unfold refText
    have := dotted_last r.segs h.ne h.idents
    rw [List.getLast?_append]
    cases hl : (Verif.dotted r.segs).getLast? with
    | none => rw [e] at hl; simp at hl
    | some x => rw [hl] at this; simpa using this
  · unfold refText
    cases r.rooted
    · rw [e]; simpa using ⟨(letter_head hc).1, (letter_head hc).2.1⟩
    · simp

theorem ident_wf {q : QName} (h : Idents q) : Wf q := by
  intro p hp
  have := h p hp
  constructor
  · rintro rfl; cases this
  · intro hd
    cases p with
    | nil => cases hd
    | cons c s =>
      rcases List.mem_cons.1 hd with e | e
      · have := this.1; rw [← e] at this; revert this; decide
      · rcases this.2 _ e with h | h <;> revert h <;> decide

variable {c : Cfg}

theorem qual_ref {pk sc q : QName} (hpk : Idents pk) (hsc : Idents sc) (hpre : pk <+: sc) (hq : QOk q) (required : Int) :
    ∃ r : Ref, qual c pk sc q required = refText r ∧ RefOk r ∧
      ((r.rooted = true ∧ r.segs = q) ∨
        (r.rooted = false ∧ ∃ e, Qualify.Short pk (Qualify.effScope pk sc required) q required e r.segs)) := by
  unfold qual
  cases hf : c.force
  · obtain ⟨e, nm, h1, h2⟩ := Qualify.C19_enclosing_scope pk sc q required (ident_wf hpk) (ident_wf hsc) (ident_wf hq.idents) hq.ne
      hpre (dotted q) (.inl rfl)
    rw [h1]
    refine ⟨⟨false, nm⟩, by simp [refText], ⟨h2.nonempty, ?_⟩, .inr ⟨rfl, e, h2⟩⟩
    intro s hs
    refine hq.idents s ?_
    rw [h2.whole]
    exact List.mem_append_right _ hs
  · rw [Qualify.C19_forced _ _ q required (ident_wf hq.idents) hq.ne (dotted q) (.inl rfl)]
    exact ⟨⟨true, q⟩, by simp [refText], ⟨hq.ne, hq.idents⟩, .inl ⟨rfl, rfl⟩⟩

theorem effScope_nonneg (pk sc : QName) {required : Int} (h : 0 ≤ required) : Qualify.effScope pk sc required = sc := by
  unfold Qualify.effScope
  rw [if_neg (by omega)]

/-- The name of a type. -/
theorem qual_type {pk sc q : QName} (hpk : Idents pk) (hsc : Idents sc) (hpre : pk <+: sc) (hq : QOk q) :
    ∃ r : Ref, qual c pk sc q 0 = refText r ∧ RefOk r ∧ RefMeans sc r q := by
  obtain ⟨r, h1, h2, h3⟩ := qual_ref (c := c) hpk hsc hpre hq 0
  refine ⟨r, h1, h2, ?_⟩
  rcases h3 with h3 | ⟨h3, e, h4⟩
  · exact .inl h3
  · rw [effScope_nonneg _ _ (by omega)] at h4
    exact .inr ⟨h3, h4.nonempty, e, h4.enclosing, h4.whole⟩

/-- The name of an option of a message. -/
theorem qual_option {pk sc q : QName} (hpk : Idents pk) (hsc : Idents sc) (hpre : pk <+: sc) (hq : QOk q) (inMsg : Bool) :
    ∃ r : Ref, qual c pk sc q (if inMsg then 1 else 0) = refText r ∧ RefOk r ∧
      RefMeans (if inMsg then sc.dropLast else sc) r q := by
  cases inMsg
  · exact qual_type hpk hsc hpre hq
  · obtain ⟨r, h1, h2, h3⟩ := qual_ref (c := c) hpk hsc hpre hq 1
    refine ⟨r, h1, h2, ?_⟩
    rcases h3 with h3 | ⟨h3, e, h4⟩
    · exact .inl h3
    · rw [effScope_nonneg _ _ (by omega)] at h4
      refine .inr ⟨h3, h4.nonempty, e, ?_, h4.whole⟩
      simp only [if_true]
      rcases h4.kept with h | h
      · rw [h]; exact List.nil_prefix
      · rw [List.dropLast_eq_take]
        have hl : e.length ≤ sc.length - 1 := by omega
        rw [List.prefix_iff_eq_take.1 h4.enclosing]
        rw [List.prefix_iff_eq_take, List.take_take]
        simp
        omega

/-- The name of an extension in a message literal. -/
theorem qual_lit {pk sc q : QName} (hpk : Idents pk) (hsc : Idents sc) (hpre : pk <+: sc) (hq : QOk q) :
    ∃ r : Ref, qual c pk sc q (-1) = refText r ∧ RefOk r ∧ LitRefMeans pk r q := by
  obtain ⟨r, h1, h2, h3⟩ := qual_ref (c := c) hpk hsc hpre hq (-1)
  refine ⟨r, h1, h2, ?_⟩
  rcases h3 with h3 | ⟨h3, e, h4⟩
  · exact .inl h3
  · rw [show Qualify.effScope pk sc (-1) = pk from rfl] at h4
    refine .inr ⟨h3, h4.nonempty, ?_⟩
    rcases h4.beyond with he | he
    · left; rw [h4.whole, he]; rfl
    · right
      have : e = pk := h4.enclosing.eq_of_length (Nat.le_antisymm h4.enclosing.length_le he.length_le)
      rw [h4.whole, this]

/-! ### String literals -/

theorem char_toNat {n : Nat} (h : n < 256) : (Char.ofNat n).toNat = n := by
  have : n.isValidChar := .inl (by omega)
  rw [Char.ofNat, dif_pos this]
  rfl

theorem chars_toNat {b : Bytes} (h : ∀ x ∈ b, x < 256) : (chars b).map Char.toNat = b := by
  unfold chars
  rw [List.map_map]
  conv => rhs; rw [← List.map_id b]
  exact List.map_congr_left (fun x hx => char_toNat (h x hx))

theorem digits_plain (val : Nat → Option Nat) (h34 : val 34 = none) (h92 : val 92 = none) (base : Nat) :
    ∀ (max acc : Nat) (s : Bytes), ∀ x ∈ s.take (digits val base max acc s).2, x ≠ 34 ∧ x ≠ 92 := by
  intro max
  induction max with
  | zero => intro acc s x hx; simp [digits] at hx
  | succ max ih =>
    intro acc s x hx
    cases s with
    | nil => simp at hx
    | cons c s =>
      simp only [digits] at hx
      cases hv : val c with
      | none => simp [hv] at hx
      | some d =>
        simp only [hv, List.take_succ_cons, List.mem_cons] at hx
        rcases hx with rfl | hx
        · constructor <;> rintro rfl
          · rw [h34] at hv; cases hv
          · rw [h92] at hv; cases hv
        · exact ih _ s x hx

theorem escape_plain {s b : Bytes} {n : Nat} (h : escape s = some (b, n)) : ∃ c t, s = c :: t ∧ 0 < n ∧
    ∀ x ∈ t.take (n - 1), x ≠ 34 ∧ x ≠ 92 := by
  cases s with
  | nil => cases h
  | cons c t =>
    refine ⟨c, t, rfl, ?_⟩
    simp only [escape] at h
    split at h
    · cases h; simp
    · split at h
      · split at h
        · rename_i ho _
          simp only [Option.some.injEq, Prod.mk.injEq] at h
          have hd := digits_plain octVal (by decide) (by decide) 8 3 0 (c :: t)
          rw [h.2] at hd
          have hn : 0 < n := by
            rw [← h.2]
            simp only [digits]
            cases hv : octVal c with
            | none => rw [hv] at ho; cases ho
            | some d => simp
          refine ⟨hn, fun x hx => hd x ?_⟩
          obtain ⟨k, rfl⟩ : ∃ k, n = k + 1 := ⟨n - 1, by omega⟩
          simp only [List.take_succ_cons, List.mem_cons]
          exact .inr (by simpa using hx)
        · cases h
      · split at h
        · split at h
          · cases h
          · simp only [Option.some.injEq, Prod.mk.injEq] at h
            refine ⟨by omega, fun x hx => ?_⟩
            rw [← h.2] at hx
            exact digits_plain hexVal (by decide) (by decide) 16 2 0 t x (by simpa using hx)
        · split at h
          · split at h
            · rename_i h4
              simp only [Option.some.injEq, Prod.mk.injEq] at h
              refine ⟨by omega, fun x hx => ?_⟩
              have := digits_plain hexVal (by decide) (by decide) 16 4 0 t x
              rw [h4] at this
              rw [← h.2] at hx
              exact this (by simpa using hx)
            · cases h
          · split at h
            · split at h
              · rename_i h8
                simp only [Option.some.injEq, Prod.mk.injEq] at h
                refine ⟨by omega, fun x hx => ?_⟩
                have := digits_plain hexVal (by decide) (by decide) 16 8 0 t x
                rw [h8.1] at this
                rw [← h.2] at hx
                exact this (by simpa using hx)
              · cases h
            · cases h

theorem ofNat_ne {n : Nat} (hn : n < 256) {d : Char} (h : n ≠ d.toNat) : Char.ofNat n ≠ d := fun e => by
  apply h; rw [← e, char_toNat hn]

/-- Characters of a string that are neither a quote nor a backslash. -/
theorem lexFrom_str_plain (a : Str) (s : Bytes) (h : ∀ x ∈ s, x < 256 ∧ x ≠ 34 ∧ x ≠ 92) :
    lexFrom (.str '"' a) (chars s) = ([], .str '"' (a ++ chars s)) := by
  induction s generalizing a with
  | nil => simp [chars, lexFrom]
  | cons x s ih =>
    obtain ⟨h1, h2, h3⟩ := h x List.mem_cons_self
    have e1 : Char.ofNat x ≠ '\\' := ofNat_ne h1 h3
    have e2 : Char.ofNat x ≠ '"' := ofNat_ne h1 h2
    have e : chars (x :: s) = Char.ofNat x :: chars s := rfl
    rw [e]
    simp only [lexFrom, step, e1, e2, if_false]
    rw [ih _ (fun y hy => h y (List.mem_cons_of_mem _ hy))]
    simp

theorem lexFrom_literal : ∀ (n : Nat) (s b : Bytes) (a : Str), s.length ≤ n → (∀ x ∈ s, x < 256) → body 34 s = some b →
    lexFrom (.str '"' a) (chars s) = ([a ++ chars s], .idle) := by
  intro n
  induction n with
  | zero =>
    intro s b a hn _ h
    have : s = [] := List.length_eq_zero_iff.1 (by omega)
    subst this
    rw [body] at h; cases h
  | succ n ih =>
    intro s b a hn hs h
    cases s with
    | nil => rw [body] at h; cases h
    | cons x s =>
      have hx := hs x List.mem_cons_self
      have hs' : ∀ y ∈ s, y < 256 := fun y hy => hs y (List.mem_cons_of_mem _ hy)
      have e : chars (x :: s) = Char.ofNat x :: chars s := rfl
      rw [body] at h
      split at h
      · rename_i hq
        split at h
        · rename_i h0
          subst hq h0
          rw [e]
          simp [chars, lexFrom, step]
        · cases h
      · rename_i hq
        split at h
        · cases h
        · split at h
          · rename_i h92
            obtain ⟨b', hb', _⟩ := Option.map_eq_some_iff.1 h
            have e1 : Char.ofNat x ≠ '\\' := ofNat_ne hx h92
            have e2 : Char.ofNat x ≠ '"' := ofNat_ne hx hq
            rw [e]
            simp only [lexFrom, step, e1, e2, if_false]
            rw [ih s b' _ (by simp at hn; omega) hs' hb']
            simp
          · rename_i h92
            have h92 : x = 92 := by simpa using h92
            subst h92
            cases hesc : escape s with
            | none => rw [hesc] at h; cases h
            | some p =>
              obtain ⟨eb, en⟩ := p
              rw [hesc] at h
              simp only at h
              obtain ⟨b', hb', _⟩ := Option.map_eq_some_iff.1 h
              obtain ⟨y, t, rfl, hpos, hpl⟩ := escape_plain hesc
              obtain ⟨k, rfl⟩ : ∃ k, en = k + 1 := ⟨en - 1, by omega⟩
              simp only [List.drop_succ_cons] at hb'
              simp only [Nat.add_sub_cancel] at hpl
              have e1 : Char.ofNat 92 = '\\' := by decide
              have ht : chars t = chars (t.take k) ++ chars (t.drop k) := by
                unfold chars; rw [← List.map_append, List.take_append_drop]
              rw [e, e1]
              have e3 : chars (y :: t) = Char.ofNat y :: chars t := rfl
              rw [e3]
              simp only [lexFrom, step, if_true, List.nil_append]
              conv_lhs => rw [ht]
              rw [lexFrom_append, lexFrom_str_plain _ _ (fun z hz =>
                ⟨hs' z (List.mem_cons_of_mem _ (List.take_subset _ _ hz)), hpl z hz⟩)]
              simp only
              have hlen : (t.drop k).length ≤ n := by simp at hn ⊢; omega
              rw [ih (t.drop k) b' _ hlen (fun z hz => hs' z (List.mem_cons_of_mem _ (List.drop_subset _ _ hz))) hb']
              rw [ht]
              simp

/-- A string literal is a token. -/
theorem txt_literal {s b : Bytes} (h : value (34 :: s) = some b) (hs : ∀ x ∈ s, x < 256) :
    Lx .idle (chars (34 :: s)) [chars (34 :: s)] .idle := by
  have hb : body 34 s = some b := by simpa [value] using h
  have h1 := lexFrom_literal s.length s b ['"'] (Nat.le_refl _) hs hb
  have e : chars (34 :: s) = '"' :: chars s := rfl
  have h2 : lexFrom .idle ('"' :: chars s) = ([['"'] ++ chars s], .idle) := by
    simp only [lexFrom]
    rw [show step .idle '"' = ([], .str '"' ['"']) by decide]
    simp only [List.nil_append]
    rw [h1]
  rw [e]
  exact ⟨by rw [h2]; rfl, by rw [h2]⟩

theorem chars_last {s : Bytes} : (chars (34 :: s ++ [34])).getLast? ≠ some ' ' := by
  unfold chars
  rw [List.map_append, List.getLast?_append]
  simp

theorem Txt.literal {s b : Bytes} (h : value (34 :: s ++ [34]) = some b) (hs : ∀ x ∈ s, x < 256) :
    Txt (chars (34 :: s ++ [34])) [chars (34 :: s ++ [34])] ∧ StrMeans (chars (34 :: s ++ [34])) b := by
  have hs' : ∀ x ∈ s ++ [34], x < 256 := fun x hx => by
    rcases List.mem_append.1 hx with hx | hx
    · exact hs x hx
    · rw [List.mem_singleton] at hx; omega
  refine ⟨⟨⟨_, txt_literal h hs', trivial⟩, by simp [chars], chars_last, ?_⟩, ?_⟩
  · simp [chars]
  · unfold StrMeans
    rw [chars_toNat]
    · exact h
    · intro x hx
      simp only [List.cons_append, List.mem_cons] at hx
      rcases hx with rfl | hx
      · omega
      · exact hs' x hx

theorem utf8_small {r : Nat} (h : r < 0x110000) : ∀ x ∈ utf8 r, x < 256 := by
  unfold utf8
  intro x hx
  split at hx
  · simp at hx; omega
  · split at hx
    · simp at hx; omega
    · split at hx
      · simp at hx; omega
      · simp at hx; omega

theorem decodeRune_small {b0 : Nat} {s : Bytes} {r n : Nat} (h : Quote.decodeRune b0 s = some (r, n)) : r < 0x110000 := by
  unfold Quote.decodeRune at h
  by_cases h0 : b0 < 0x80
  · rw [if_pos h0] at h; simp only [Option.some.injEq, Prod.mk.injEq] at h; omega
  rw [if_neg h0] at h
  by_cases h1 : Quote.within 0xC2 0xDF b0 = true
  · rw [if_pos h1] at h
    match s, h with
    | b1 :: _, h =>
      simp only at h
      by_cases h2 : Quote.within 0x80 0xBF b1 = true
      · rw [if_pos h2] at h
        simp only [Option.some.injEq, Prod.mk.injEq, Quote.within, Bool.and_eq_true, decide_eq_true_eq] at *
        omega
      · rw [if_neg h2] at h; cases h
    | [], h => cases h
  rw [if_neg h1] at h
  by_cases h2 : Quote.within 0xE0 0xEF b0 = true
  · rw [if_pos h2] at h
    match s, h with
    | b1 :: b2 :: _, h =>
      dsimp only at h
      generalize (if b0 = 0xE0 then 0xA0 else 0x80) = lo at h
      have hhi : (if b0 = 0xED then 0x9F else 0xBF) ≤ 0xBF := by split <;> omega
      generalize (if b0 = 0xED then 0x9F else 0xBF) = hi at h hhi
      by_cases h3 : (Quote.within lo hi b1 && Quote.within 0x80 0xBF b2) = true
      · rw [if_pos h3] at h
        simp only [Option.some.injEq, Prod.mk.injEq, Quote.within, Bool.and_eq_true, decide_eq_true_eq] at *
        omega
      · rw [if_neg h3] at h; cases h
    | [_], h => cases h
    | [], h => cases h
  rw [if_neg h2] at h
  by_cases h3 : Quote.within 0xF0 0xF4 b0 = true
  · rw [if_pos h3] at h
    match s, h with
    | b1 :: b2 :: b3 :: _, h =>
      dsimp only at h
      generalize (if b0 = 0xF0 then 0x90 else 0x80) = lo at h
      have hhi : (if b0 = 0xF4 then 0x8F else 0xBF) ≤ 0xBF ∧ (b0 = 0xF4 → (if b0 = 0xF4 then 0x8F else 0xBF) = 0x8F) := by
        split <;> omega
      generalize (if b0 = 0xF4 then 0x8F else 0xBF) = hi at h hhi
      by_cases h4 : (Quote.within lo hi b1 && Quote.within 0x80 0xBF b2 && Quote.within 0x80 0xBF b3) = true
      · rw [if_pos h4] at h
        simp only [Option.some.injEq, Prod.mk.injEq, Quote.within, Bool.and_eq_true, decide_eq_true_eq] at *
        omega
      · rw [if_neg h4] at h; cases h
    | [_, _], h => cases h
    | [_], h => cases h
    | [], h => cases h
  rw [if_neg h3] at h
  cases h

theorem hexDigit_small {d : Nat} (h : d < 16) : Quote.hexDigit d < 256 := by unfold Quote.hexDigit; split <;> omega

theorem hex4_small {n : Nat} (h : n < 65536) : ∀ x ∈ Quote.hex4 n, x < 256 := by
  intro x hx
  unfold Quote.hex4 at hx
  simp only [List.mem_cons, List.not_mem_nil, or_false] at hx
  rcases hx with rfl | rfl | rfl | rfl <;> exact hexDigit_small (by omega)

theorem octEscape_small {x : Nat} (h : x < 256) : ∀ y ∈ Quote.octEscape x, y < 256 := by
  intro y hy
  unfold Quote.octEscape at hy
  simp only [List.mem_cons, List.not_mem_nil, or_false] at hy
  omega

theorem special_small {x : Nat} {b : Bytes} (h : Quote.special x = some b) : ∀ y ∈ b, y < 256 := by
  unfold Quote.special at h
  repeat' split at h
  all_goals first | (cases h; done) | (cases h; simp)

theorem quoteRune_small (isPrint : Nat → Bool) {r : Nat} (h : r < 0x110000) : ∀ x ∈ Quote.quoteRune isPrint r, x < 256 := by
  intro x hx
  unfold Quote.quoteRune at hx
  split at hx
  · rename_i hs; exact special_small hs x hx
  · split at hx
    · exact utf8_small h x hx
    · split at hx
      · simp only [List.mem_cons, Quote.hex8, List.mem_append] at hx
        rcases hx with rfl | rfl | hx | hx
        · omega
        · omega
        · exact hex4_small (by omega) x hx
        · exact hex4_small (by omega) x hx
      · split at hx
        · simp only [List.mem_cons] at hx
          rcases hx with rfl | rfl | hx
          · omega
          · omega
          · exact hex4_small (by omega) x hx
        · exact octEscape_small (by omega) x hx

theorem quoteRunes_small (isPrint : Nat → Bool) : ∀ (n : Nat) (s : Bytes), s.length ≤ n → (∀ x ∈ s, x < 256) →
    ∀ x ∈ Quote.quoteRunes isPrint s, x < 256 := by
  intro n
  induction n with
  | zero =>
    intro s hn _ x hx
    have : s = [] := List.length_eq_zero_iff.1 (by omega)
    subst this
    rw [Quote.quoteRunes] at hx; cases hx
  | succ n ih =>
    intro s hn hs x hx
    cases s with
    | nil => rw [Quote.quoteRunes] at hx; cases hx
    | cons b0 s =>
      have hs' : ∀ y ∈ s, y < 256 := fun y hy => hs y (List.mem_cons_of_mem _ hy)
      have hn' : s.length ≤ n := by simp at hn; omega
      rw [Quote.quoteRunes] at hx
      cases hd : Quote.decodeRune b0 s with
      | none =>
        rw [hd] at hx
        rcases List.mem_append.1 hx with hx | hx
        · exact octEscape_small (hs b0 List.mem_cons_self) x hx
        · exact ih s hn' hs' x hx
      | some p =>
        obtain ⟨r, k⟩ := p
        rw [hd] at hx
        simp only at hx
        rcases List.mem_append.1 hx with hx | hx
        · exact quoteRune_small isPrint (decodeRune_small hd) x hx
        · refine ih _ ?_ (fun y hy => hs' y (List.drop_subset _ _ hy)) x hx
          simp; omega

theorem Txt.quotedString {b : Bytes} (h0 : c.isPrint 0 = false) (hb : StrOk b) :
    Txt (chars (Quote.quotedString c.isPrint b)) [chars (Quote.quotedString c.isPrint b)] ∧
      StrMeans (chars (Quote.quotedString c.isPrint b)) b :=
  Txt.literal (s := Quote.quoteRunes c.isPrint b) (Quote.C32_string_partial c.isPrint h0 b hb.1 hb.2)
    (quoteRunes_small c.isPrint _ b (Nat.le_refl _) hb.1)

theorem Txt.quotedBytes {b : Bytes} (hb : StrOk b) :
    Txt (chars (Quote.quotedBytes b)) [chars (Quote.quotedBytes b)] ∧ StrMeans (chars (Quote.quotedBytes b)) b := by
  refine Txt.literal (s := b.flatMap Quote.quoteByte) (Quote.C32_bytes_partial b hb.1 hb.2) ?_
  intro x hx
  have := (Quote.C32_printable b hb.1).1 x (by unfold Quote.quotedBytes; simp [hx])
  omega

/-! ### Values -/

theorem ident_true : Ident "true".toList := by simp [Ident]; decide
theorem ident_false : Ident "false".toList := by simp [Ident]; decide

theorem txt_sval (h0 : c.isPrint 0 = false) {v : SVal} (h : v.Ok) : ∃ d : Const, Txt (v.text c) d.toks ∧ v.Means d := by
  match v, h with
  | .int z, _ => exact ⟨.num (decide (z < 0)) (dec z.natAbs), by simpa [SVal.text, Const.toks, intToks] using Txt.int z, rfl⟩
  | .float (.finite neg t), h => exact ⟨.num neg t, by simpa [SVal.text, Fl.text, Const.toks] using (Txt.number h).signed neg, rfl⟩
  | .str b, h => exact ⟨.str _, by simpa [SVal.text, Const.toks] using (Txt.quotedString h0 h).1, _, rfl, (Txt.quotedString h0 h).2⟩
  | .bytes b, h => exact ⟨.str _, by simpa [SVal.text, Const.toks] using (Txt.quotedBytes h).1, _, rfl, (Txt.quotedBytes h).2⟩
  | .bool true, _ => exact ⟨.word false "true".toList, Txt.ident ident_true, rfl⟩
  | .bool false, _ => exact ⟨.word false "false".toList, Txt.ident ident_false, rfl⟩
  | .enum (some n) _, h => exact ⟨.word false n, by simpa [SVal.text, Const.toks, sign] using Txt.ident h, rfl⟩
  | .enum none z, _ => exact ⟨.num (decide (z < 0)) (dec z.natAbs), by simpa [SVal.text, Const.toks, intToks] using Txt.int z, rfl⟩

theorem replicate_blank (hi : IndentOk c) (n : Nat) : ∀ x ∈ (List.replicate n c.indent).flatten, isSpace x = true := by
  intro x hx
  obtain ⟨l, hl, hx⟩ := List.mem_flatten.1 hx
  rw [List.eq_of_mem_replicate hl] at hx
  rcases hi x hx with h | h <;> subst h <;> decide

theorem litBreak_blank (hi : IndentOk c) (ind : Int) : ∀ x ∈ litBreak c ind, isSpace x = true := by
  unfold litBreak
  split
  · simp
  · intro x hx
    rcases List.mem_cons.1 hx with h | h
    · subst h; decide
    · exact replicate_blank hi _ x h

theorem lx_litBreak (hi : IndentOk c) (ind : Int) {m : Mode} (hm : Clean m) : ∃ m', Lx m (litBreak c ind) [] m' ∧ Clean m' := by
  by_cases h : litBreak c ind = []
  · rw [h]; exact ⟨m, Lx.nil m, hm⟩
  · exact ⟨.idle, Lx.blank hm (litBreak_blank hi ind) h, trivial⟩

theorem lx_litBreak_idle (hi : IndentOk c) (ind : Int) : Lx .idle (litBreak c ind) [] .idle := Lx.blank_idle (litBreak_blank hi ind)

/-- A text in brackets. -/
theorem Txt.bracket {s : Str} {ts : List Str} {o e : Char} (h : Lx .idle (o :: s ++ [e]) ts .idle) (ho : o ≠ ';' ∧ o ≠ ',')
    (he : e ≠ ' ') : Txt (o :: s ++ [e]) ts := by
  refine ⟨⟨_, h, trivial⟩, by simp, ?_, by simpa using ho⟩
  rw [List.getLast?_append]
  simpa using he

theorem Txt.toks {s : Str} {ts us : List Str} (h : Txt s ts) (e : ts = us) : Txt s us := e ▸ h

/-- A comma or the start of a list. -/
theorem lx_first (first : Bool) {m : Mode} (hm : if first then m = .idle else Clean m) :
    Lx m (if first then [] else [',']) (if first then [] else [[',']]) .idle := by
  cases first
  · exact Lx.punct hm (by decide)
  · have : m = .idle := hm
    subst this
    exact Lx.nil _

/-- What holds of a text at every indentation holds of the one that is chosen. -/
theorem maybeCompact_cases (text : Int → Str) (ind : Int) : ∃ i, maybeCompact c text ind = text i := by
  unfold maybeCompact
  split
  · exact ⟨_, rfl⟩
  · exact ⟨_, rfl⟩

theorem maybeCompactMap_cases (text : Int → Str) (ind : Int) : ∃ i, maybeCompactMap c text ind = text i := by
  unfold maybeCompactMap
  split
  · exact ⟨_, rfl⟩
  · exact ⟨_, rfl⟩

theorem lx_scalars (h0 : c.isPrint 0 = false) (vs : List SVal) (h : ∀ v ∈ vs, v.Ok) :
    ∃ cs m, Lx .idle (scalarsText c vs) (Consts.toks true cs) m ∧ Clean m ∧ scalarsMean vs cs := by
  -- the elements after the first have a comma before them
  have rest : ∀ vs : List SVal, (∀ v ∈ vs, v.Ok) → ∃ cs, scalarsMean vs cs ∧
      (vs ≠ [] → ∃ m, Lx .idle (scalarsText c vs) (Consts.toks true cs) m ∧ Clean m) := by
    intro vs
    induction vs with
    | nil => exact fun _ => ⟨.nil, rfl, fun h => absurd rfl h⟩
    | cons v vs ih =>
      intro h
      obtain ⟨d, hd, hm⟩ := txt_sval h0 (h v List.mem_cons_self)
      obtain ⟨cs, hcs, hx⟩ := ih (fun x hx => h x (List.mem_cons_of_mem _ hx))
      refine ⟨.cons d cs, ⟨d, cs, rfl, hm, hcs⟩, fun _ => ?_⟩
      obtain ⟨m, hl, hcl⟩ := hd.lex
      cases vs with
      | nil =>
        have : cs = .nil := hcs
        subst this
        exact ⟨m, hl.toks (by simp [Consts.toks]), hcl⟩
      | cons v' vs =>
        obtain ⟨m2, hx2, hcl2⟩ := hx (by simp)
        refine ⟨m2, ?_, hcl2⟩
        have hp := hl.append ((Lx.punct hcl (c := ',') (by decide)).append ((Lx.space (m := .idle) trivial).append hx2))
        obtain ⟨d', cs', rfl, _, _⟩ := hcs
        exact (hp.toks (by simp [Consts.toks])).text (by simp [scalarsText])
  obtain ⟨cs, h1, h2⟩ := rest vs h
  cases vs with
  | nil =>
    have : cs = .nil := h1
    subst this
    exact ⟨.nil, .idle, Lx.nil _, trivial, rfl⟩
  | cons v vs =>
    obtain ⟨m, h2, h3⟩ := h2 (by simp)
    exact ⟨cs, m, h2, h3, h1⟩

/-- What is needed of the printer and the scope. -/
structure ScOk (pk sc : QName) : Prop where
  idp : Idents pk
  ids : Idents sc
  pre : pk <+: sc

theorem lx_slash {m : Mode} (hm : Clean m) : Lx m ['/'] [['/']] .slash := Lx.hard hm (by decide) (by constructor <;> decide)

/-- An identifier after a slash. -/
theorem lx_after_slash {s : Str} {ts : List Str} {m' : Mode} {x : Char} (hx : letter x = true) (h : Lx .idle (x :: s) ts m') :
    Lx .slash (x :: s) ts m' := by
  have h1 : x ≠ '/' := by rintro rfl; revert hx; decide
  have h2 : x ≠ '*' := by rintro rfl; revert hx; decide
  obtain ⟨h3, h4⟩ := h
  simp only [lexFrom, step] at h3 h4
  refine ⟨?_, ?_⟩
  · simp only [lexFrom, step, h1, h2, if_false, emit, List.cons_append]
    rw [h3]; rfl
  · simp only [lexFrom, step, h1, h2, if_false, emit]
    exact h4

theorem txt_lname {pk sc : QName} (hs : ScOk pk sc) {n : LName} (h : n.Ok) : ∃ n' : CName, Txt (n.text c pk sc) n'.toks ∧ n.Means pk n' := by
  match n, h with
  | .plain s, h => exact ⟨.plain s, Txt.ident h, rfl⟩
  | .ext q, h =>
    obtain ⟨r, h1, h2, h3⟩ := qual_lit (c := c) hs.idp hs.ids hs.pre h
    refine ⟨.ext r, ?_, r, rfl, h3⟩
    show Txt ('[' :: qual c pk sc q (-1) ++ [']']) _
    rw [h1]
    have := ((Lx.punct (m := .idle) trivial (c := '[') (by decide)).cons ((Txt.ref h2).lx_punct (c := ']') (by decide)))
    exact Txt.bracket (this.toks (by simp [CName.toks])) (by decide) (by decide)

section
set_option linter.unusedSectionVars false
variable (hi : IndentOk c) (h0 : c.isPrint 0 = false) {pk sc : QName} (hs : ScOk pk sc)
include hi h0 hs

mutual
theorem txt_mlit (m : MLit) (h : m.Ok) : ∃ d, m.Means pk d ∧ ∀ ind, Txt (m.text c pk sc ind) d.toks := by
  match m, h with
  | .fields fs, h =>
    rw [MLit.Ok] at h
    obtain ⟨ds, hm, hx⟩ := lx_fields fs h
    refine ⟨.msg ds, ⟨ds, rfl, hm⟩, fun ind => ?_⟩
    obtain ⟨m1, h1, hc1⟩ := hx (deeper ind) true .idle rfl
    obtain ⟨m2, h2, hc2⟩ := lx_litBreak hi ind hc1
    rw [MLit.text]
    have := (Lx.punct (m := .idle) trivial (c := '{') (by decide)).append ((h1.append h2).append (Lx.punct hc2 (c := '}') (by decide)))
    rw [List.cons_append]
    exact Txt.bracket ((this.toks (by simp [Const.toks])).text (by simp)) (by decide) (by decide)
  | .any dom ty m, h =>
    rw [MLit.Ok] at h
    obtain ⟨hd, ht, h⟩ := h
    obtain ⟨d, hm, hx⟩ := txt_mlit m h
    refine ⟨.msg (.cons (.any dom ty) d .nil), ⟨d, rfl, hm⟩, fun ind => ?_⟩
    obtain ⟨i, hi'⟩ := maybeCompact_cases (c := c) (MLit.text c pk sc m) (deeper ind)
    rw [MLit.text, hi']
    obtain ⟨m1, h1, hc1⟩ := (hx i).lex
    obtain ⟨m2, h2, hc2⟩ := lx_litBreak hi ind hc1
    obtain ⟨md, hd1, hd2⟩ := (Txt.dotted hd).lex
    have hdom := hd1.append (lx_slash hd2)
    have htyp := (Txt.dotted ht).lx_punct (c := ']') (by decide)
    obtain ⟨x, s, e, hl⟩ := dotted_cons ty ht.ne ht.idents
    rw [e, List.cons_append] at htyp
    have htyp := lx_after_slash hl htyp
    rw [← List.cons_append, ← e] at htyp
    have hbr := Lx.punct (m := .idle) trivial (c := '{') (by decide)
    have hbk := Lx.punct (m := .idle) trivial (c := '[') (by decide)
    have hcl := (Lx.punct (m := .idle) trivial (c := ':') (by decide)).append (Lx.space (m := .idle) trivial)
    have := hbr.append (((lx_litBreak_idle hi (deeper ind)).append (hbk.append (hdom.append (htyp.append (hcl.append h1))))).append
      (h2.append (Lx.punct hc2 (c := '}') (by decide))))
    rw [List.cons_append, List.cons_append, List.cons_append, List.cons_append]
    exact Txt.bracket ((this.toks (by simp [Const.toks, CFields.toks, CName.toks])).text (by simp)) (by decide) (by decide)
theorem txt_lit (v : Lit) (h : v.Ok) : ∃ d, v.Means pk d ∧ ∀ ind, Txt (v.text c pk sc ind) d.toks := by
  match v, h with
  | .scalar v, h =>
    obtain ⟨d, h1, h2⟩ := txt_sval h0 (v := v) h
    exact ⟨d, h2, fun _ => h1⟩
  | .scalars vs, h =>
    obtain ⟨cs, m, h1, h2, h3⟩ := lx_scalars h0 vs h
    refine ⟨.list cs, ⟨cs, rfl, h3⟩, fun ind => ?_⟩
    rw [Lit.text]
    obtain ⟨i, e⟩ := maybeCompact_cases (c := c) (fun _ => '[' :: scalarsText c vs ++ [']']) ind
    rw [e]
    have := (Lx.punct (m := .idle) trivial (c := '[') (by decide)).append (h1.append (Lx.punct h2 (c := ']') (by decide)))
    exact Txt.bracket ((this.toks (by simp [Const.toks])).text (by simp)) (by decide) (by decide)
  | .msg m, h =>
    rw [Lit.Ok] at h
    obtain ⟨d, h1, h2⟩ := txt_mlit m h
    refine ⟨d, h1, fun ind => ?_⟩
    rw [Lit.text]
    obtain ⟨i, e⟩ := maybeCompact_cases (c := c) (MLit.text c pk sc m) ind
    rw [e]
    exact h2 i
  | .msgs isMap ms, h =>
    rw [Lit.Ok] at h
    obtain ⟨ds, hm, hx⟩ := lx_mlits ms h
    refine ⟨.list ds, ⟨ds, rfl, hm⟩, fun ind => ?_⟩
    have key : ∀ i, Txt ('[' :: MLits.text c pk sc true ms (deeper i) ++ litBreak c i ++ [']']) (Const.list ds).toks := by
      intro i
      obtain ⟨m1, h1, hc1⟩ := hx (deeper i) true .idle rfl
      obtain ⟨m2, h2, hc2⟩ := lx_litBreak hi i hc1
      have := (Lx.punct (m := .idle) trivial (c := '[') (by decide)).append ((h1.append h2).append (Lx.punct hc2 (c := ']') (by decide)))
      rw [List.cons_append]
      exact Txt.bracket ((this.toks (by simp [Const.toks])).text (by simp)) (by decide) (by decide)
    rw [Lit.text]
    split
    · obtain ⟨i, e⟩ := maybeCompactMap_cases (c := c) (fun i => '[' :: MLits.text c pk sc true ms (deeper i) ++ litBreak c i ++ [']']) ind
      rw [e]; exact key i
    · obtain ⟨i, e⟩ := maybeCompact_cases (c := c) (fun i => '[' :: MLits.text c pk sc true ms (deeper i) ++ litBreak c i ++ [']']) ind
      rw [e]; exact key i
theorem lx_mlits (ms : MLits) (h : ms.Ok) : ∃ ds, ms.Means pk ds ∧ ∀ ind first m, (if first then m = .idle else Clean m) →
    ∃ m', Lx m (ms.text c pk sc first ind) (Consts.toks first ds) m' ∧ Clean m' := by
  match ms, h with
  | .nil, _ =>
    refine ⟨.nil, rfl, fun ind first m hm => ⟨m, Lx.nil m, ?_⟩⟩
    cases first
    · exact hm
    · have : m = .idle := hm
      subst this; trivial
  | .cons a ms, h =>
    rw [MLits.Ok] at h
    obtain ⟨d, h2, h1⟩ := txt_mlit a h.1
    obtain ⟨ds, h3, h4⟩ := lx_mlits ms h.2
    refine ⟨.cons d ds, ⟨d, ds, rfl, h2, h3⟩, fun ind first m hm => ?_⟩
    obtain ⟨i, e⟩ := maybeCompact_cases (c := c) (MLit.text c pk sc a) ind
    obtain ⟨m1, h5, h6⟩ := (h1 i).lex
    obtain ⟨m2, h7, h8⟩ := h4 ind false m1 h6
    refine ⟨m2, ?_, h8⟩
    rw [MLits.text, e]
    exact ((((lx_first first hm).append (lx_litBreak_idle hi ind)).append h5).append h7).toks (by simp [Consts.toks])
theorem lx_fields (fs : LFields) (h : fs.Ok) : ∃ ds, fs.Means pk ds ∧ ∀ ind first m, (if first then m = .idle else Clean m) →
    ∃ m', Lx m (fs.text c pk sc first ind) (CFields.toks first ds) m' ∧ Clean m' := by
  match fs, h with
  | .nil, _ =>
    refine ⟨.nil, rfl, fun ind first m hm => ⟨m, Lx.nil m, ?_⟩⟩
    cases first
    · exact hm
    · have : m = .idle := hm
      subst this; trivial
  | .cons n v fs, h =>
    rw [LFields.Ok] at h
    obtain ⟨n', hn, hnm⟩ := txt_lname (c := c) hs h.1
    obtain ⟨d, h2, h1⟩ := txt_lit v h.2.1
    obtain ⟨ds, h3, h4⟩ := lx_fields fs h.2.2
    refine ⟨.cons n' d ds, ⟨n', d, ds, rfl, hnm, h2, h3⟩, fun ind first m hm => ?_⟩
    obtain ⟨m1, h5, h6⟩ := (h1 ind).lex
    obtain ⟨m2, h7, h8⟩ := h4 ind false m1 h6
    refine ⟨m2, ?_, h8⟩
    rw [LFields.text]
    have hname := (hn.lx_punct (c := ':') (by decide)).append (Lx.space (m := .idle) trivial)
    exact (((((lx_first first hm).append (lx_litBreak_idle hi ind)).append hname).append h5).append h7 |>.toks
      (by simp [CFields.toks])).text (by simp)
end

/-- The value of an option. -/
theorem txt_oval (v : OVal) (h : v.Ok) : ∃ d, v.Means pk d ∧ ∀ ind,
    Txt (match v with | .scalar v => v.text c | .msg m => maybeCompact c (m.text c pk sc) ind) d.toks := by
  match v, h with
  | .scalar v, h =>
    obtain ⟨d, h1, h2⟩ := txt_sval h0 (v := v) h
    exact ⟨d, h2, fun _ => h1⟩
  | .msg m, h =>
    obtain ⟨d, h1, h2⟩ := txt_mlit hi h0 hs m h
    refine ⟨d, h1, fun ind => ?_⟩
    obtain ⟨i, e⟩ := maybeCompact_cases (c := c) (MLit.text c pk sc m) ind
    simp only [e]
    exact h2 i
end

/-! ### The names of options -/

/-- Between tokens or after a word. -/
def Wordy (m : Mode) : Prop := m = .idle ∨ ∃ a, m = .ident a

theorem Wordy.clean {m : Mode} (h : Wordy m) : Clean m := by
  rcases h with rfl | ⟨a, rfl⟩ <;> trivial

theorem lx_dot {m : Mode} (h : Wordy m) : Lx m ['.'] [['.']] .dot := by
  rcases h with rfl | ⟨a, rfl⟩
  · exact Lx.idle_dot
  · exact Lx.ident_dot a

/-- The reference of a part of an uninterpreted option. -/
theorem lx_part {p : NamePart} (h : p.Ok) {m : Mode} (hm : m = .idle ∨ m = .dot) :
    ∃ d, p.Means d ∧ ∃ m', Lx m p.text d.toks m' ∧ Wordy m' := by
  match p, h with
  | .plain s, h =>
    refine ⟨.plain s, rfl, .ident s, ?_, .inr ⟨s, rfl⟩⟩
    rcases hm with rfl | rfl
    · exact Lx.ident h
    · exact Lx.dot_ident h
  | .ext rooted q, h =>
    refine ⟨.ext ⟨rooted, q⟩, rfl, .idle, ?_, .inl rfl⟩
    have hr : RefOk ⟨rooted, q⟩ := ⟨h.ne, h.idents⟩
    have hcl : Clean m := by rcases hm with rfl | rfl <;> trivial
    have := (Lx.punct hcl (c := '(') (by decide)).append ((Txt.ref hr).lx_punct (c := ')') (by decide))
    exact (this.toks (by simp [Part.toks])).text (by simp [NamePart.text, refText])

theorem lx_rawName (ps : List NamePart) (hne : ps ≠ []) (h : ∀ p ∈ ps, p.Ok) {m : Mode} (hm : m = .idle ∨ m = .dot) :
    ∃ ds, List.Forall₂ NamePart.Means ps ds ∧ ∃ m', Lx m (rawName ps) (nameToks ds) m' ∧ Wordy m' := by
  induction ps generalizing m with
  | nil => exact absurd rfl hne
  | cons p ps ih =>
    obtain ⟨d, h1, m1, h2, h3⟩ := lx_part (h p List.mem_cons_self) hm
    cases ps with
    | nil => exact ⟨[d], .cons h1 .nil, m1, h2, h3⟩
    | cons q ps =>
      obtain ⟨ds, h4, m2, h5, h6⟩ := ih (by simp) (fun x hx => h x (List.mem_cons_of_mem _ hx)) (m := .dot) (.inr rfl)
      refine ⟨d :: ds, .cons h1 h4, m2, ?_, h6⟩
      cases h4 with
      | cons _ _ => exact ((h2.append ((lx_dot h3).append h5)).toks (by simp [nameToks, Decls.dot])).text (by simp [rawName])

theorem rawName_head (ps : List NamePart) (hne : ps ≠ []) (h : ∀ p ∈ ps, p.Ok) : ∃ x s, rawName ps = x :: s ∧ x ≠ ';' ∧ x ≠ ',' := by
  have one : ∀ p : NamePart, p.Ok → ∃ x s, p.text = x :: s ∧ x ≠ ';' ∧ x ≠ ',' := by
    intro p hp
    match p, hp with
    | .plain (x :: s), hp => exact ⟨x, s, rfl, (letter_head hp.1).1, (letter_head hp.1).2.1⟩
    | .ext rooted q, hp => exact ⟨'(', _, rfl, by decide, by decide⟩
  cases ps with
  | nil => exact absurd rfl hne
  | cons p ps =>
    obtain ⟨x, s, e, hx⟩ := one p (h p List.mem_cons_self)
    cases ps with
    | nil => exact ⟨x, s, e, hx⟩
    | cons q ps => exact ⟨x, s ++ '.' :: rawName (q :: ps), by simp [rawName, e], hx⟩

/-- The name of an option: it is followed by a blank. -/
theorem lx_oname {a : At} (hs : ScOk a.pk a.sc) {n : OName} (h : n.Ok) : ∃ ps, n.Means a ps ∧
    ∃ m, Lx .idle (n.text c a.pk a.sc a.inMsg) (nameToks ps) m ∧ Clean m ∧
      ∃ x s, n.text c a.pk a.sc a.inMsg = x :: s ∧ x ≠ ';' ∧ x ≠ ',' := by
  match n, h with
  | .plain (x :: s), h =>
    exact ⟨[.plain (x :: s)], rfl, _, Lx.ident h, trivial, x, s, rfl, (letter_head h.1).1, (letter_head h.1).2.1⟩
  | .ext q, h =>
    obtain ⟨r, h1, h2, h3⟩ := qual_option (c := c) hs.idp hs.ids hs.pre h a.inMsg
    refine ⟨[.ext r], ⟨r, rfl, h3⟩, .idle, ?_, trivial, '(', _, rfl, by decide, by decide⟩
    have := (Lx.punct (m := .idle) trivial (c := '(') (by decide)).append ((Txt.ref h2).lx_punct (c := ')') (by decide))
    rw [OName.text, h1]
    exact (this.toks (by simp [nameToks, Part.toks])).text (by simp)
  | .raw ps, h =>
    obtain ⟨ds, h1, m, h2, h3⟩ := lx_rawName ps h.1 h.2 (m := .idle) (.inl rfl)
    exact ⟨ds, h1, m, h2, h3.clean, rawName_head ps h.1 h.2⟩

end Verif.Printer
