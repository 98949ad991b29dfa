import Verif.Model.Ranges
/-!
# Properties of printed ranges: C35
-/
namespace Verif.Ranges
open Verif.PrintWriter

/-! ## Specification: reading a statement -/

/-- A decimal literal without leading zeros. -/
def Decimal (s : Str) : Prop := s ≠ [] ∧ s.all isDigit ∧ (s.head? = some '0' → s = ['0'])

instance (s : Str) : Decidable (Decimal s) := by unfold Decimal; infer_instance

/-- A decimal literal with an optional sign; zero has none. -/
def parseInt : Str → Option Int
  | '-' :: s => if Decimal s ∧ s ≠ ['0'] then some (-(decVal s : Int)) else none
  | s => if Decimal s then some (decVal s : Int) else none

/-- The largest number of a field: 2^29 - 1, for message sets 2^31 - 2. -/
def maxTag (messageSet : Bool) : Int := if messageSet then 2 ^ 31 - 2 else 2 ^ 29 - 1

theorem getMaxTag_eq (b : Bool) : getMaxTag b = maxTag b := by cases b <;> decide

/-- One range: `a`, `a to b` or `a to max`; the first and the last number. -/
def parseItem (max : Int) (s : Str) : Option (Int × Int) :=
  match fieldsBy (fun c => decide (c = ' ')) s with
  | [a] => (parseInt a).map fun x => (x, x)
  | [a, t, b] =>
    if t = ['t', 'o'] then
      match parseInt a, (if b = kwMax then some max else parseInt b) with
      | some x, some y => some (x, y)
      | _, _ => none
    else none
  | _ => none

/-- All items have a value. -/
def allSome {α β} (f : α → Option β) : List α → Option (List β)
  | [] => some []
  | x :: xs => match f x, allSome f xs with
    | some y, some ys => some (y :: ys)
    | _, _ => none

/-- A statement: blanks, the keyword, ranges separated by commas, `;` and the end of the line. -/
def parseStatement (kw : Str) (max : Int) (text : Str) : Option (List (Int × Int)) :=
  let t := text.dropWhile (fun c => decide (c = ' ' ∨ c = '\t'))
  if kw <+: t then
    match cut ';' (t.drop kw.length) with
    | some (ranges, rest) => if rest = ['\n'] then allSome (parseItem max) (splitOn ',' ranges) else none
    | none => none
  else none

/-! ## The text that is written -/

/-- Everything written so far, with the pending blank. -/
def full (w : Writer) : Str := w.out ++ (if w.space then [' '] else [])

theorem write_full (w : Writer) (p : Str) (hp : p ≠ []) :
    full (write w p).1 = w.out ++ pendingBlank w.space (p.head hp) ++ p := by
  match p, hp with
  | c :: p', _ =>
    simp only [full, write, List.head_cons]
    by_cases hl : (c :: p').getLast? = some ' '
    · obtain ⟨l, hl'⟩ := List.getLast?_eq_some_iff.1 hl
      simp only [hl, decide_true, if_true]
      rw [hl', List.dropLast_concat, List.append_assoc]
    · simp only [hl, decide_false, Bool.false_eq_true, if_false, List.append_nil]

theorem write_normal (w : Writer) (p : Str) (hp : p ≠ []) (h1 : p.head? ≠ some ';') (h2 : p.head? ≠ some ',') :
    full (write w p).1 = full w ++ p := by
  rw [write_full w p hp]
  match p, hp with
  | c :: p', _ =>
    unfold full pendingBlank
    have hc : c ≠ ';' ∧ c ≠ ',' := ⟨fun h => h1 (by rw [h]; rfl), fun h => h2 (by rw [h]; rfl)⟩
    rw [List.head_cons, if_pos hc]

theorem write_sep (w : Writer) (p : Str) (h : p.head? = some ';' ∨ p.head? = some ',') :
    full (write w p).1 = w.out ++ p := by
  match p with
  | [] => rcases h with h | h <;> cases h
  | c :: p' =>
    rw [write_full w _ (by simp), List.head_cons]
    have hc : ¬ (c ≠ ';' ∧ c ≠ ',') := by
      rintro ⟨h1, h2⟩
      rcases h with h | h
      · exact h1 (Option.some.inj h)
      · exact h2 (Option.some.inj h)
    unfold pendingBlank
    rw [if_neg hc]
    split <;> simp

theorem write_blank_out (w : Writer) (x : Str) (h1 : x.head? ≠ some ';') (h2 : x.head? ≠ some ',') (hx : x ≠ []) :
    (write w (x ++ [' '])).1.out = full w ++ x ∧ (write w (x ++ [' '])).1.space = true := by
  have hs : (write w (x ++ [' '])).1.space = true := by
    match x, hx with
    | c :: x', _ =>
      simp only [List.cons_append, write, decide_eq_true_eq]
      rw [← List.cons_append, List.getLast?_concat]
  have hne : x ++ [' '] ≠ [] := by simp
  have hh : (x ++ [' ']).head? = x.head? := by
    match x, hx with
    | c :: x', _ => rfl
  have hf := write_normal w (x ++ [' ']) hne (hh ▸ h1) (hh ▸ h2)
  refine ⟨?_, hs⟩
  unfold full at hf ⊢
  rw [hs, if_pos rfl, ← List.append_assoc] at hf
  exact (List.append_inj' hf rfl).1

/-- An item does not start with a separator. -/
def Item (x : Str) : Prop := x ≠ [] ∧ x.head? ≠ some ';' ∧ x.head? ≠ some ','

theorem itemWrites_text (items : List Str) (hne : items ≠ []) (hi : ∀ x ∈ items, Item x) (w : Writer)
    (hw : w.space = true) (pre : Str) (hpre : w.out = pre) :
    ((itemWrites items).foldl (fun w p => (write w p).1) w).out
      = pre ++ joinWith ',' (items.map (' ' :: ·)) ∧
    ((itemWrites items).foldl (fun w p => (write w p).1) w).space = true := by
  induction items generalizing w pre with
  | nil => exact absurd rfl hne
  | cons x xs ih =>
    have hx := hi x List.mem_cons_self
    have hb := write_blank_out w x hx.2.1 hx.2.2 hx.1
    have hfw : full w = pre ++ [' '] := by unfold full; rw [hw, if_pos rfl, hpre]
    by_cases hxs : xs = []
    · subst hxs
      simp only [itemWrites, List.foldl_cons, List.foldl_nil, List.map_cons, List.map_nil, joinWith]
      rw [hb.1, hfw]
      exact ⟨by simp, hb.2⟩
    · have hit : itemWrites (x :: xs) = (x ++ [' ']) :: [',', ' '] :: itemWrites xs := by
        match xs, hxs with
        | y :: ys, _ => rfl
      rw [hit, List.foldl_cons, List.foldl_cons, List.map_cons, joinWith_cons ',' _ _ (by simpa using hxs)]
      have hc : (write (write w (x ++ [' '])).1 [',', ' ']).1.space = true := rfl
      have hco : (write (write w (x ++ [' '])).1 [',', ' ']).1.out = pre ++ (' ' :: x) ++ [','] := by
        have h := write_sep (write w (x ++ [' '])).1 [',', ' '] (.inr rfl)
        unfold full at h
        rw [hc, if_pos rfl, hb.1, hfw] at h
        have e : pre ++ [' '] ++ x ++ [',', ' '] = (pre ++ (' ' :: x) ++ [',']) ++ [' '] := by simp
        rw [e] at h
        exact (List.append_inj' h rfl).1
      have := ih hxs (fun y hy => hi y (List.mem_cons_of_mem _ hy)) _ hc _ hco
      refine ⟨?_, this.2⟩
      rw [this.1]
      simp

theorem indent_text (indent : List Str) (hi : ∀ i ∈ indent, ∀ c ∈ i, c = ' ' ∨ c = '\t') (w : Writer) :
    full (indent.foldl (fun w p => (write w p).1) w) = full w ++ indent.flatten := by
  induction indent generalizing w with
  | nil => simp
  | cons i is ih =>
    rw [List.foldl_cons, ih (fun j hj => hi j (List.mem_cons_of_mem _ hj)), List.flatten_cons, ← List.append_assoc]
    congr 1
    match i, hi i List.mem_cons_self with
    | [], _ => simp [write]
    | c :: i', hc =>
      have := hc c List.mem_cons_self
      refine write_normal w _ (by simp) ?_ ?_
      · rcases this with rfl | rfl <;> simp
      · rcases this with rfl | rfl <;> simp

/-- The text of a statement. -/
theorem statement_text (indent : List Str) (hi : ∀ i ∈ indent, ∀ c ∈ i, c = ' ' ∨ c = '\t') (kw : Str)
    (hkw : Item kw) (items : List Str) (hne : items ≠ []) (hit : ∀ x ∈ items, Item x) :
    (writeAll (statement indent kw items)).out =
      indent.flatten ++ kw ++ joinWith ',' (items.map (' ' :: ·)) ++ [';', '\n'] := by
  unfold writeAll statement
  rw [List.foldl_append, List.foldl_append, List.foldl_cons]
  have h1 := indent_text indent hi {}
  have h1 : full (indent.foldl (fun w p => (write w p).1) {}) = indent.flatten := by
    rw [h1]; rfl
  generalize indent.foldl (fun w p => (write w p).1) {} = w1 at h1 ⊢
  have h2 := write_blank_out w1 kw hkw.2.1 hkw.2.2 hkw.1
  rw [h1] at h2
  have h3 := itemWrites_text items hne hit (write w1 (kw ++ [' '])).1 h2.2 _ h2.1
  have h4 := write_sep ((itemWrites items).foldl (fun w p => (write w p).1) (write w1 (kw ++ [' '])).1) [';', '\n'] (.inl rfl)
  have h5 : ∀ w, (write w [';', '\n']).1.space = false := fun _ => rfl
  unfold full at h4
  rw [h5] at h4
  simp only [Bool.false_eq_true, if_false, List.append_nil] at h4
  rw [h3.1] at h4
  exact h4

/-! ## Reading it back -/

theorem dec_head (n : Nat) : ∀ c, (dec n).head? = some c → isDigit c = true := by
  intro c hc
  exact dec_digits n c (List.mem_of_mem_head? hc)

theorem isDigit_ne {c d : Char} (h : isDigit c = true) (hd : isDigit d = false) : c ≠ d := by
  rintro rfl; rw [h] at hd; cases hd

theorem decimal_dec (n : Nat) : Decimal (dec n) := by
  refine ⟨dec_ne_nil n, List.all_eq_true.2 (dec_digits n), fun h => ?_⟩
  by_cases h0 : n = 0
  · subst h0; rw [dec]; rfl
  · exact absurd h (dec_no_zero n (by omega))

theorem parseInt_dec (n : Nat) : parseInt (dec n) = some (n : Int) := by
  have hall := decimal_dec n
  have hh := dec_head n
  have hv := decVal_dec n
  have hne := dec_ne_nil n
  generalize dec n = s at *
  match s with
  | [] => exact absurd rfl hne
  | c :: s =>
    have hc : c ≠ '-' := isDigit_ne (hh c rfl) (by decide)
    unfold parseInt
    split
    · rename_i h; exact absurd (List.cons.inj h).1 hc
    · rw [if_pos hall, hv]

theorem parseInt_showInt (i : Int) : parseInt (showInt i) = some i := by
  unfold showInt
  split
  · rename_i hi
    simp only [parseInt]
    rw [if_pos ⟨decimal_dec _, fun e => dec_no_zero i.natAbs (by omega) (by rw [e]; rfl)⟩, decVal_dec]
    congr 1
    omega
  · rw [parseInt_dec]
    congr 1
    omega

/-- The characters of a number. -/
theorem showInt_chars (i : Int) : showInt i ≠ [] ∧ ∀ c ∈ showInt i, isDigit c = true ∨ c = '-' := by
  unfold showInt
  split
  · refine ⟨by simp, ?_⟩
    intro c hc
    rcases List.mem_cons.1 hc with h | h
    · exact .inr h
    · exact .inl (dec_digits _ c h)
  · exact ⟨dec_ne_nil _, fun c hc => .inl (dec_digits _ c hc)⟩

theorem showInt_ne (i : Int) (d : Char) (hd : isDigit d = false) (hm : d ≠ '-') : ∀ c ∈ showInt i, c ≠ d := by
  intro c hc
  rcases (showInt_chars i).2 c hc with h | h
  · exact isDigit_ne h hd
  · rw [h]; exact fun h => hm h.symm

theorem showInt_ne_max (i : Int) : showInt i ≠ kwMax := by
  intro h
  exact showInt_ne i 'm' (by decide) (by decide) 'm' (by rw [h]; decide) rfl

abbrev blankC : Char → Bool := fun c => decide (c = ' ')

theorem fields_one (a : Str) (ha : a ≠ []) (h : ∀ c ∈ a, c ≠ ' ') : fieldsBy blankC (' ' :: a) = [a] := by
  rw [fieldsBy_cons_of_pos (by decide)]
  have := fieldsBy_run (p := blankC) a [] ha (fun c hc => by simpa [blankC] using h c hc) (by simp)
  rw [List.append_nil] at this
  rw [this]
  rfl

theorem fields_three (a b : Str) (ha : a ≠ []) (hb : b ≠ []) (h : ∀ c ∈ a, c ≠ ' ') (h' : ∀ c ∈ b, c ≠ ' ') :
    fieldsBy blankC (' ' :: (a ++ kwTo ++ b)) = [a, ['t', 'o'], b] := by
  rw [fieldsBy_cons_of_pos (by decide), List.append_assoc]
  rw [fieldsBy_run (p := blankC) a (kwTo ++ b) ha (fun c hc => by simpa [blankC] using h c hc)
    (by intro c hc; cases hc; decide)]
  have e : kwTo ++ b = ' ' :: (['t', 'o'] ++ (' ' :: b)) := rfl
  rw [e, fieldsBy_cons_of_pos (by decide), fieldsBy_run (p := blankC) ['t', 'o'] (' ' :: b) (by simp)
    (by decide) (by intro c hc; cases hc; decide), fields_one b hb h']

theorem parse_single (max i : Int) : parseItem max (' ' :: showInt i) = some (i, i) := by
  unfold parseItem
  rw [show (fun c : Char => decide (c = ' ')) = blankC from rfl,
    fields_one _ (showInt_chars i).1 (showInt_ne i ' ' (by decide) (by decide))]
  simp only [parseInt_showInt, Option.map_some]

theorem parse_range (max i j : Int) :
    parseItem max (' ' :: (showInt i ++ kwTo ++ showInt j)) = some (i, j) := by
  unfold parseItem
  rw [show (fun c : Char => decide (c = ' ')) = blankC from rfl,
    fields_three _ _ (showInt_chars i).1 (showInt_chars j).1 (showInt_ne i ' ' (by decide) (by decide))
      (showInt_ne j ' ' (by decide) (by decide))]
  simp only [parseInt_showInt, if_true, if_neg (showInt_ne_max j)]

theorem parse_max (max i : Int) : parseItem max (' ' :: (showInt i ++ kwTo ++ kwMax)) = some (i, max) := by
  unfold parseItem
  rw [show (fun c : Char => decide (c = ' ')) = blankC from rfl,
    fields_three _ _ (showInt_chars i).1 (by decide) (showInt_ne i ' ' (by decide) (by decide)) (by decide)]
  simp only [parseInt_showInt, if_true]

/-- The characters of an item. -/
def ItemChars (x : Str) : Prop := ∀ c ∈ x, c ≠ ',' ∧ c ≠ ';'

theorem showInt_itemChars (i : Int) : ItemChars (showInt i) := fun c hc =>
  ⟨showInt_ne i ',' (by decide) (by decide) c hc, showInt_ne i ';' (by decide) (by decide) c hc⟩

theorem itemChars_append {x y : Str} (hx : ItemChars x) (hy : ItemChars y) : ItemChars (x ++ y) := by
  intro c hc
  rcases List.mem_append.1 hc with h | h
  · exact hx c h
  · exact hy c h

theorem item_of {x : Str} (hne : x ≠ []) (h : ItemChars x) : Item x := by
  refine ⟨hne, ?_, ?_⟩
  · intro hh; exact (h _ (List.mem_of_mem_head? hh)).2 rfl
  · intro hh; exact (h _ (List.mem_of_mem_head? hh)).1 rfl

theorem allSome_map {α β γ} (f : β → Option γ) (g : α → β) (h : α → γ) (l : List α)
    (hf : ∀ a ∈ l, f (g a) = some (h a)) : allSome f (l.map g) = some (l.map h) := by
  induction l with
  | nil => rfl
  | cons a l ih =>
    simp only [List.map_cons, allSome]
    rw [hf a List.mem_cons_self, ih (fun b hb => hf b (List.mem_cons_of_mem _ hb))]

theorem joinWith_mem (sep : Char) (ws : List Str) (c : Char) (h : c ∈ joinWith sep ws) :
    c = sep ∨ ∃ w ∈ ws, c ∈ w := by
  induction ws with
  | nil => cases h
  | cons w ws ih =>
    by_cases hne : ws = []
    · subst hne
      exact .inr ⟨w, List.mem_cons_self, h⟩
    · rw [joinWith_cons sep w ws hne] at h
      rcases List.mem_append.1 h with h | h
      · exact .inr ⟨w, List.mem_cons_self, h⟩
      · rcases List.mem_cons.1 h with h | h
        · exact .inl h
        · rcases ih h with h | ⟨v, hv, h⟩
          · exact .inl h
          · exact .inr ⟨v, List.mem_cons_of_mem _ hv, h⟩

theorem parse_statement (indent : List Str) (hi : ∀ i ∈ indent, ∀ c ∈ i, c = ' ' ∨ c = '\t') (kw : Str)
    (hkw : Item kw) (hkwb : ∀ c ∈ kw, ¬ (c = ' ' ∨ c = '\t')) (max : Int) (rs : List Range) (hne : rs ≠ [])
    (item : Range → Str) (value : Range → Int × Int)
    (hitem : ∀ r ∈ rs, item r ≠ [] ∧ ItemChars (item r) ∧ parseItem max (' ' :: item r) = some (value r)) :
    parseStatement kw max (writeAll (statement indent kw (rs.map item))).out = some (rs.map value) := by
  rw [statement_text indent hi kw hkw (rs.map item) (by simpa using hne)]
  · unfold parseStatement
    simp only
    have hdrop : ∀ rest : Str, (indent.flatten ++ kw ++ rest).dropWhile (fun c => decide (c = ' ' ∨ c = '\t'))
        = kw ++ rest := by
      intro rest
      rw [List.append_assoc, List.dropWhile_append_of_pos]
      · match kw, hkw.1 with
        | c :: k, _ =>
          rw [List.cons_append, List.dropWhile_cons_of_neg]
          simpa using hkwb c List.mem_cons_self
      · intro c hc
        obtain ⟨i, hi1, hi2⟩ := List.mem_flatten.1 hc
        simpa using hi i hi1 c hi2
    rw [List.append_assoc, hdrop, if_pos (List.prefix_append _ _), List.drop_left]
    have hcut : cut ';' (joinWith ',' ((rs.map item).map (' ' :: ·)) ++ [';', '\n'])
        = some (joinWith ',' ((rs.map item).map (' ' :: ·)), ['\n']) := by
      rw [cut_eq_some]
      refine ⟨by simp, ?_⟩
      intro hc
      rcases joinWith_mem _ _ _ hc with h | ⟨w, hw, hcw⟩
      · cases h
      · obtain ⟨x, hx, rfl⟩ := List.mem_map.1 hw
        obtain ⟨r, hr, rfl⟩ := List.mem_map.1 hx
        rcases List.mem_cons.1 hcw with h | h
        · cases h
        · exact ((hitem r hr).2.1 _ h).2 rfl
    rw [hcut]
    simp only [if_true]
    rw [splitOn_join]
    · rw [List.map_map]
      exact allSome_map _ _ _ _ (fun r hr => (hitem r hr).2.2)
    · simpa using hne
    · intro w hw hc
      obtain ⟨x, hx, rfl⟩ := List.mem_map.1 hw
      obtain ⟨r, hr, rfl⟩ := List.mem_map.1 hx
      rcases List.mem_cons.1 hc with h | h
      · cases h
      · exact ((hitem r hr).2.1 _ h).1 rfl
  · intro x hx
    obtain ⟨r, hr, rfl⟩ := List.mem_map.1 hx
    exact item_of (hitem r hr).1 (hitem r hr).2.1

theorem item_ok (max : Int) (r : Range) (single : Bool)
    (x : Str) (hx : x = if single then showInt r.start
      else if r.stop - 1 = max then showInt r.start ++ kwTo ++ kwMax
      else showInt r.start ++ kwTo ++ showInt (r.stop - 1)) :
    x ≠ [] ∧ ItemChars x ∧ parseItem max (' ' :: x) =
      some (r.start, if single then r.start else r.stop - 1) := by
  have hto : ItemChars kwTo := by unfold ItemChars kwTo; decide
  have hmax : ItemChars kwMax := by unfold ItemChars kwMax; decide
  subst hx
  cases single
  · simp only [Bool.false_eq_true, if_false]
    split
    · rename_i hm
      refine ⟨by simp [kwTo], itemChars_append (itemChars_append (showInt_itemChars _) hto) hmax, ?_⟩
      rw [parse_max, hm]
    · refine ⟨by simp [kwTo], itemChars_append (itemChars_append (showInt_itemChars _) hto) (showInt_itemChars _), ?_⟩
      rw [parse_range]
  · simp only [if_true]
    exact ⟨(showInt_chars _).1, showInt_itemChars _, parse_single _ _⟩

/-- **C35** (messages): a reserved statement of a message reads back as the same numbers, including
`max`, for normal messages and message sets. -/
theorem C35_message_reserved (indent : List Str) (hi : ∀ i ∈ indent, ∀ c ∈ i, c = ' ' ∨ c = '\t')
    (messageSet : Bool) (rs : List (Int × Int)) (hne : rs ≠ []) (hr : ∀ r ∈ rs, r.1 ≤ r.2) :
    parseStatement ['r', 'e', 's', 'e', 'r', 'v', 'e', 'd'] (maxTag messageSet)
      (printReserved indent (getMaxTag messageSet) (rs.map fun r => messageRange r.1 r.2)) = some rs := by
  rw [← getMaxTag_eq]
  have h := parse_statement indent hi kwReserved (by unfold Item kwReserved; decide) (by decide)
    (getMaxTag messageSet) (rs.map fun r => messageRange r.1 r.2) (by simpa using hne)
    (reservedItem (getMaxTag messageSet)) (fun r => (r.start, r.stop - 1)) (by
      intro r hrm
      obtain ⟨p, hp, rfl⟩ := List.mem_map.1 hrm
      have hle := hr p hp
      have := item_ok (getMaxTag messageSet) (messageRange p.1 p.2) (decide (p.1 = p.2))
        (reservedItem (getMaxTag messageSet) (messageRange p.1 p.2)) (by
          unfold reservedItem messageRange
          by_cases he : p.1 = p.2
          · simp [he]
          · have h2 : ¬ (p.1 = p.2 + 1 - 1 ∨ p.1 = p.2 + 1) := by omega
            simp only [h2, he, decide_false, Bool.false_eq_true, if_false])
      refine ⟨this.1, this.2.1, ?_⟩
      rw [this.2.2]
      by_cases he : p.1 = p.2
      · simp [messageRange, he]
      · simp [he])
  unfold printReserved
  refine h.trans ?_
  rw [List.map_map]
  congr 1
  conv => rhs; rw [← List.map_id rs]
  refine List.map_congr_left ?_
  intro p _
  simp [messageRange]

example : ∃ r ∈ [((5 : Int), (5 : Int)), (7, 536870911)], r.1 < r.2 := by decide

/-- **C35** (extension ranges): an extensions statement reads back as the same numbers. -/
theorem C35_extensions (indent : List Str) (hi : ∀ i ∈ indent, ∀ c ∈ i, c = ' ' ∨ c = '\t')
    (messageSet : Bool) (rs : List (Int × Int)) (hne : rs ≠ []) :
    parseStatement ['e', 'x', 't', 'e', 'n', 's', 'i', 'o', 'n', 's'] (maxTag messageSet)
      (printExtensions indent (getMaxTag messageSet) (rs.map fun r => messageRange r.1 r.2)) = some rs := by
  rw [← getMaxTag_eq]
  have h := parse_statement indent hi kwExtensions (by unfold Item kwExtensions; decide) (by decide)
    (getMaxTag messageSet) (rs.map fun r => messageRange r.1 r.2) (by simpa using hne)
    (extensionItem (getMaxTag messageSet)) (fun r => (r.start, r.stop - 1)) (by
      intro r hrm
      obtain ⟨p, hp, rfl⟩ := List.mem_map.1 hrm
      have := item_ok (getMaxTag messageSet) (messageRange p.1 p.2) (decide (p.1 = p.2))
        (extensionItem (getMaxTag messageSet) (messageRange p.1 p.2)) (by
          unfold extensionItem messageRange
          by_cases he : p.1 = p.2
          · simp [he]
          · have h2 : ¬ (p.1 = p.2 + 1 - 1) := by omega
            simp only [h2, he, decide_false, Bool.false_eq_true, if_false])
      refine ⟨this.1, this.2.1, ?_⟩
      rw [this.2.2]
      by_cases he : p.1 = p.2
      · simp [messageRange, he]
      · simp [he])
  unfold printExtensions
  refine h.trans ?_
  rw [List.map_map]
  congr 1
  conv => rhs; rw [← List.map_id rs]
  refine List.map_congr_left ?_
  intro p _
  simp [messageRange]

/-- `max` of an enum. -/
def enumMax : Int := 2 ^ 31 - 1

/-- What a reserved range of an enum is printed as: of more than one number the last is lost. -/
def enumPrinted (r : Int × Int) : Int × Int := if r.1 = r.2 then r else (r.1, r.2 - 1)

/-- A reserved statement of an enum reads back as ranges of which the last number is missing, unless
it is a single number. -/
theorem C35_enum_exact (indent : List Str) (hi : ∀ i ∈ indent, ∀ c ∈ i, c = ' ' ∨ c = '\t')
    (rs : List (Int × Int)) (hne : rs ≠ []) (hr : ∀ r ∈ rs, r.1 ≤ r.2) :
    parseStatement ['r', 'e', 's', 'e', 'r', 'v', 'e', 'd'] enumMax
      (printReserved indent enumMax (rs.map fun r => enumRange r.1 r.2)) = some (rs.map enumPrinted) := by
  have h := parse_statement indent hi kwReserved (by unfold Item kwReserved; decide) (by decide)
    enumMax (rs.map fun r => enumRange r.1 r.2) (by simpa using hne)
    (reservedItem enumMax) (fun r => enumPrinted (r.start, r.stop)) (by
      intro r hrm
      obtain ⟨p, hp, rfl⟩ := List.mem_map.1 hrm
      have hle := hr p hp
      have := item_ok enumMax (enumRange p.1 p.2) (decide (p.1 = p.2 - 1 ∨ p.1 = p.2))
        (reservedItem enumMax (enumRange p.1 p.2)) (by
          unfold reservedItem enumRange
          simp only [decide_eq_true_eq])
      refine ⟨this.1, this.2.1, ?_⟩
      rw [this.2.2]
      unfold enumPrinted enumRange
      simp only [decide_eq_true_eq]
      by_cases he : p.1 = p.2
      · simp [he]
      · rw [if_neg he]
        by_cases h2 : p.1 = p.2 - 1
        · rw [if_pos (.inl h2), h2]
        · rw [if_neg (by omega)])
  unfold printReserved
  refine h.trans ?_
  rw [List.map_map]
  rfl

/-- **C35** (enums, partial): a reserved statement of an enum with single numbers reads back as the
same numbers. Missing: longer ranges, for which the property fails (`C35_enum_violated`). -/
theorem C35_enum_partial (indent : List Str) (hi : ∀ i ∈ indent, ∀ c ∈ i, c = ' ' ∨ c = '\t')
    (ns : List Int) (hne : ns ≠ []) :
    parseStatement ['r', 'e', 's', 'e', 'r', 'v', 'e', 'd'] enumMax
      (printReserved indent enumMax (ns.map fun n => enumRange n n)) = some (ns.map fun n => (n, n)) := by
  have h := C35_enum_exact indent hi (ns.map fun n => (n, n)) (by simpa using hne) (by
    intro r hr
    obtain ⟨n, _, rfl⟩ := List.mem_map.1 hr
    exact Int.le_refl _)
  rw [List.map_map, List.map_map] at h
  refine h.trans ?_
  congr 1
  refine List.map_congr_left ?_
  intro n _
  simp [enumPrinted]

/-- The code violates C35: `reserved 2 to 5;` in an enum is printed as `reserved 2 to 4;`, and
`2 to max` as a range that ends one number too early. -/
theorem C35_enum_violated :
    parseStatement ['r', 'e', 's', 'e', 'r', 'v', 'e', 'd'] enumMax (printReserved [] enumMax [enumRange 2 5]) = some [(2, 4)] ∧
    parseStatement ['r', 'e', 's', 'e', 'r', 'v', 'e', 'd'] enumMax (printReserved [] enumMax [enumRange 2 enumMax]) = some [(2, enumMax - 1)] := by
  have h1 := C35_enum_exact [] (by simp) [(2, 5)] (by simp) (by decide)
  have h2 := C35_enum_exact [] (by simp) [(2, enumMax)] (by simp) (by decide)
  exact ⟨h1, h2⟩

end Verif.Ranges
