import Verif.Spec.DumpAst
/-! Lemmas about the dump of a syntax tree. -/
namespace Verif.DumpAst

theorem decInt_eq (i : Int) : decInt i = decimal i := by
  cases i with
  | ofNat n => simp [decInt, decimal, Int.not_lt.2 (Int.natCast_nonneg n)]
  | negSucc n => simp [decInt, decimal, Int.negSucc_lt_zero]

theorem visit_eq (env : Env) (p : Payload) (h1 : p ≠ .package none) (h2 : ∀ t, p ≠ .other t) :
    visit env p = joinWith ' ' (items env p) ++ ['\n'] := by
  cases p with
  | package name =>
    cases name with
    | none => exact absurd rfl h1
    | some name => simp [visit, decInt_eq, items, joinWith, attr, lit]
  | other t => exact absurd rfl (h2 t)
  | extend e n => cases e <;> simp [visit, decInt_eq, items, joinWith, attr, lit]
  | file e n => cases e <;> simp [visit, decInt_eq, items, joinWith, attr, lit]
  | ident e n => cases e <;> simp [visit, decInt_eq, items, joinWith, attr, lit]
  | imp a b n => cases n <;> cases a <;> cases b <;> simp [visit, decInt_eq, items, joinWith, attr, lit]
  | option a b n => cases a <;> simp [visit, decInt_eq, items, joinWith, attr, lit]
  | field a b c d o => cases o <;> simp [visit, decInt_eq, items, joinWith, attr, lit]
  | mapField a b c d o => cases o <;> simp [visit, decInt_eq, items, joinWith, attr, lit]
  | range a o => cases o <;> simp [visit, decInt_eq, items, joinWith, attr, lit]
  | compoundIdent ps => simp [visit, decInt_eq, items, joinWith, attr, lit, sliceText]
  | _ => simp [visit, decInt_eq, items, joinWith, attr, lit]

theorem repeat_eq (k : Nat) : (List.replicate k [' ', ' ']).flatten = List.replicate (2 * k) ' ' := by
  induction k with
  | zero => rfl
  | succ k ih =>
    rw [show 2 * (k + 1) = 2 + 2 * k from by omega, List.replicate_succ, List.flatten_cons, ih, ← List.replicate_append_replicate]
    rfl

theorem before_eq (env : Env) (i : Info) (p : Payload) (st : St) (d : Nat) (h : st.indent = (d : Int) - 1) (h1 : p ≠ .package none)
    (h2 : ∀ t, p ≠ .other t) :
    (before env i p st).buf ++ visit env p = st.buf ++ line env d i p ++ ['\n'] ∧ (before env i p st).indent = d := by
  have hi : st.indent + 1 = (d : Int) := by omega
  refine ⟨?_, hi⟩
  rw [visit_eq env p h1 h2]
  unfold before line padLeft
  simp only [hi, Int.toNat_natCast, repeat_eq]
  cases i with
  | mk ln desc ld tr =>
    cases desc <;> cases ld <;> cases tr <;> simp [lit]

mutual
theorem inspect_eq (env : Env) : ∀ (n : Node) (d : Nat) (st : St), st.indent = (d : Int) - 1 → (∀ x ∈ places d n, Fine x.2) →
    (inspect env n st).buf = st.buf ++ (places d n).flatMap (fun x => line env x.1 x.2.1 x.2.2 ++ ['\n']) ∧ (inspect env n st).indent = st.indent
  | .mk i p cs, d, st, h, hf => by
    have hp : Fine (i, p) := hf (d, i, p) (by simp [places])
    have h1 : p ≠ .package none := by rintro rfl; exact hp.2
    have h2 : ∀ t, p ≠ .other t := by rintro t rfl; exact hp.2
    obtain ⟨hb, hi⟩ := before_eq env i p st d h h1 h2
    have ih := inspectAll_eq env cs (d + 1) { before env i p st with buf := (before env i p st).buf ++ visit env p }
      (by simp [hi]) (fun x hx => hf x (by simp [places, hx]))
    constructor
    · simp only [inspect, after]
      rw [ih.1, hb]
      simp [places]
    · simp only [inspect, after]
      rw [ih.2]
      simp only
      omega
theorem inspectAll_eq (env : Env) : ∀ (ns : List Node) (d : Nat) (st : St), st.indent = (d : Int) - 1 → (∀ x ∈ placesAll d ns, Fine x.2) →
    (inspectAll env ns st).buf = st.buf ++ (placesAll d ns).flatMap (fun x => line env x.1 x.2.1 x.2.2 ++ ['\n']) ∧
      (inspectAll env ns st).indent = st.indent
  | [], d, st, h, hf => by simp [inspectAll, placesAll]
  | n :: ns, d, st, h, hf => by
    have a := inspect_eq env n d st h (fun x hx => hf x (by simp [placesAll, hx]))
    have b := inspectAll_eq env ns d (inspect env n st) (by rw [a.2, h]) (fun x hx => hf x (by simp [placesAll, hx]))
    constructor
    · simp only [inspectAll]
      rw [b.1, a.1]
      simp [placesAll]
    · simp only [inspectAll]
      rw [b.2, a.2]
end

theorem dec_not_mem (n : Nat) (c : Char) (h : isDigit c = false) : c ∉ dec n := fun hc => by
  rw [dec_digits n c hc] at h
  cases h

theorem decInt_not_mem (n : Int) : '\n' ∉ decimal n := by
  rw [← decInt_eq]
  cases n with
  | ofNat n => exact dec_not_mem n _ (by decide)
  | negSucc n =>
    simp only [decInt, List.mem_cons, not_or]
    exact ⟨by decide, dec_not_mem _ _ (by decide)⟩

theorem joinWith_not_mem {c sep : Char} (hs : c ≠ sep) : ∀ (l : List Str), (∀ w ∈ l, c ∉ w) → c ∉ joinWith sep l
  | [], _ => by simp [joinWith]
  | [w], h => by simpa [joinWith] using h w (by simp)
  | w :: x :: l, h => by
    have := joinWith_not_mem hs (x :: l) (fun y hy => h y (by simp [hy]))
    rw [joinWith_cons _ _ _ (by simp)]
    simp only [List.mem_append, List.mem_cons, not_or]
    exact ⟨h w (by simp), hs, this⟩

theorem typeName_no {c : Char} (hc : c = '\n' ∨ c = ']') (p : Payload) (h : ∀ t, p ≠ .other t) : c ∉ typeName p := by
  cases p with
  | other t => exact absurd rfl (h t)
  | _ => rcases hc with rfl | rfl <;> simp [typeName, lit]

theorem items_no (env : Env) (hq : ∀ s, '\n' ∉ env.quote s) (i : Info) (p : Payload) (h : Fine (i, p)) : ∀ w ∈ items env p, '\n' ∉ w := by
  have hd : ∀ n, '\n' ∉ dec n := fun n => dec_not_mem n _ (by decide)
  have hi := decInt_not_mem
  replace h := h.2
  cases p with
  | package name => cases name <;> simp_all [items, attr, lit]
  | extend e n => cases e <;> simp [items, attr, lit, hq, hd]
  | file e n => cases e <;> simp [items, attr, lit, hq, hd]
  | ident e n => cases e <;> simp [items, attr, lit, hq]
  | imp a b n => cases n <;> cases a <;> cases b <;> simp [items, attr, lit, hq]
  | option a b n => cases a <;> simp_all [items, attr, lit]
  | field a b c d o => cases o <;> simp [items, attr, lit, hq, hd]
  | mapField a b c d o => cases o <;> simp [items, attr, lit, hq, hd]
  | range a o => cases o <;> simp [items, attr, lit, hq, hi]
  | compoundIdent ps =>
    simp only [items, List.mem_singleton]
    rintro w rfl
    simp only [attr, List.mem_append, List.mem_cons, not_or]
    refine ⟨by simp [lit], by decide, ⟨by decide, ?_⟩, by simp⟩
    apply joinWith_not_mem (by decide)
    intro w hw
    obtain ⟨x, _, rfl⟩ := List.mem_map.1 hw
    simp [hq, lit]
  | _ => simp_all [items, attr, lit]

theorem line_no (env : Env) (hq : ∀ s, '\n' ∉ env.quote s) (d : Nat) (i : Info) (p : Payload) (h : Fine (i, p)) : '\n' ∉ line env d i p := by
  have h2 : ∀ t, p ≠ .other t := by rintro t rfl; exact h.2
  have hj := joinWith_not_mem (c := '\n') (sep := ' ') (by decide) _ (items_no env hq i p h)
  have ht := typeName_no (.inl rfl) p h2
  have hd : ∀ n, '\n' ∉ dec n := fun n => dec_not_mem n _ (by decide)
  have hdesc := h.1
  cases i with
  | mk ln desc ld tr =>
    cases desc <;> cases ld <;> cases tr <;> simp_all [line, lit]

theorem sep_inj {c : Char} : ∀ {a b x y : Str}, c ∉ a → c ∉ b → a ++ c :: x = b ++ c :: y → a = b ∧ x = y
  | [], [], _, _, _, _, h => by simpa using h
  | [], b :: bs, _, _, _, hb, h => by
    simp only [List.nil_append, List.cons_append, List.cons.injEq] at h
    exact absurd (by simp [h.1]) hb
  | a :: as, [], _, _, ha, _, h => by
    simp only [List.nil_append, List.cons_append, List.cons.injEq] at h
    exact absurd (by simp [h.1]) ha
  | a :: as, b :: bs, _, _, ha, hb, h => by
    simp only [List.cons_append, List.cons.injEq] at h
    have := sep_inj (fun hc => ha (by simp [hc])) (fun hc => hb (by simp [hc])) h.2
    exact ⟨by rw [h.1, this.1], this.2⟩

theorem spaces_inj : ∀ {a b : Nat} {x y : Str}, x.head? ≠ some ' ' → y.head? ≠ some ' ' → List.replicate a ' ' ++ x = List.replicate b ' ' ++ y →
    a = b ∧ x = y
  | 0, 0, _, _, _, _, h => by simpa using h
  | 0, b + 1, _, _, hx, _, h => by
    simp only [List.replicate_zero, List.nil_append, List.replicate_succ, List.cons_append] at h
    exact absurd (by rw [h]; rfl) hx
  | a + 1, 0, _, _, _, hy, h => by
    simp only [List.replicate_zero, List.nil_append, List.replicate_succ, List.cons_append] at h
    exact absurd (by rw [← h]; rfl) hy
  | a + 1, b + 1, _, _, hx, hy, h => by
    simp only [List.replicate_succ, List.cons_append, List.cons.injEq, true_and] at h
    have := spaces_inj hx hy h
    exact ⟨by omega, this.2⟩

theorem dec_head (n : Nat) (x : Str) : (dec n ++ x).head? ≠ some ' ' := by
  have h := dec_digits n
  cases e : dec n with
  | nil => exact absurd e (dec_ne_nil n)
  | cons c cs =>
    simp only [List.cons_append, List.head?_cons, ne_eq, Option.some.injEq]
    rintro rfl
    have := h ' ' (by simp [e])
    exact absurd this (by decide)

/-- A node of the same kind. -/
def rep : Payload → Payload
  | .edition .. => .edition []
  | .arrayLiteral .. => .arrayLiteral 0
  | .compactOptions .. => .compactOptions 0
  | .compoundIdent .. => .compoundIdent []
  | .compoundString .. => .compoundString []
  | .emptyDecl => .emptyDecl
  | .error => .error
  | .enum .. => .enum [] 0
  | .enumValue .. => .enumValue [] 0
  | .extend .. => .extend none 0
  | .extensionRange .. => .extensionRange 0
  | .field .. => .field [] [] [] 0 none
  | .fieldReference .. => .fieldReference []
  | .file .. => .file none 0
  | .floatLiteral .. => .floatLiteral []
  | .group .. => .group [] [] 0 0
  | .ident .. => .ident true []
  | .imp .. => .imp true true none
  | .mapField .. => .mapField [] [] [] 0 none
  | .mapType .. => .mapType [] []
  | .messageField .. => .messageField [] []
  | .messageLiteral .. => .messageLiteral 0
  | .message .. => .message [] 0
  | .negativeInt .. => .negativeInt 0
  | .oneof .. => .oneof [] 0
  | .optionName .. => .optionName []
  | .option .. => .option true [] []
  | .package .. => .package none
  | .rpc .. => .rpc [] [] [] 0
  | .rpcType .. => .rpcType [] []
  | .range .. => .range 0 .single
  | .reserved .. => .reserved 0
  | .rune .. => .rune []
  | .service .. => .service [] 0
  | .signedFloat .. => .signedFloat []
  | .specialFloat .. => .specialFloat []
  | .stringLiteral .. => .stringLiteral []
  | .syn .. => .syn []
  | .uintLiteral .. => .uintLiteral 0
  | .other t => .other t

def reps : List Payload :=
  [.edition [], .arrayLiteral 0, .compactOptions 0, .compoundIdent [], .compoundString [], .emptyDecl, .error, .enum [] 0, .enumValue [] 0,
    .extend none 0, .extensionRange 0, .field [] [] [] 0 none, .fieldReference [], .file none 0, .floatLiteral [], .group [] [] 0 0,
    .ident true [], .imp true true none, .mapField [] [] [] 0 none, .mapType [] [], .messageField [] [], .messageLiteral 0, .message [] 0,
    .negativeInt 0, .oneof [] 0, .optionName [], .option true [] [], .package none, .rpc [] [] [] 0, .rpcType [] [], .range 0 .single,
    .reserved 0, .rune [], .service [] 0, .signedFloat [], .specialFloat [], .stringLiteral [], .syn [], .uintLiteral 0]

def table : List (Str × Nat) := reps.map fun p => (typeName p, p.ctorIdx)

theorem table_reps : ∀ q ∈ reps, table.lookup (typeName q) = some q.ctorIdx := by decide +kernel

theorem table_lookup (p : Payload) (h : ∀ t, p ≠ .other t) : table.lookup (typeName p) = some p.ctorIdx := by
  have h1 : typeName p = typeName (rep p) := by cases p <;> rfl
  have h2 : p.ctorIdx = (rep p).ctorIdx := by cases p <;> rfl
  have h3 : rep p ∈ reps := by
    cases p with
    | other t => exact absurd rfl (h t)
    | _ => simp only [rep]; decide +kernel
  rw [h1, h2]
  exact table_reps _ h3

theorem line_inj (env : Env) {d d' : Nat} {i i' : Info} {p p' : Payload} (h : ∀ t, p ≠ .other t) (h' : ∀ t, p' ≠ .other t)
    (he : line env d i p = line env d' i' p') : d = d' ∧ i.line = i'.line ∧ p.ctorIdx = p'.ctorIdx := by
  unfold line at he
  simp only [List.append_assoc, List.cons_append] at he
  obtain ⟨_, he⟩ := spaces_inj (dec_head _ _) (dec_head _ _) he
  obtain ⟨hl, he⟩ := sep_inj (dec_not_mem _ _ (by decide)) (dec_not_mem _ _ (by decide)) he
  obtain ⟨hd, he⟩ := spaces_inj (by simp) (by simp) he
  simp only [List.cons.injEq, true_and] at he
  obtain ⟨ht, _⟩ := sep_inj (typeName_no (.inr rfl) p h) (typeName_no (.inr rfl) p' h') he
  refine ⟨by omega, dec_inj hl, ?_⟩
  have a := table_lookup p h
  have b := table_lookup p' h'
  rw [ht, b] at a
  simpa using a.symm

theorem lines_inj : ∀ {a b : List Str}, (∀ l ∈ a, '\n' ∉ l) → (∀ l ∈ b, '\n' ∉ l) → a.flatMap (· ++ ['\n']) = b.flatMap (· ++ ['\n']) → a = b
  | [], [], _, _, _ => rfl
  | [], b :: bs, _, _, h => by simp at h
  | a :: as, [], _, _, h => by simp at h
  | a :: as, b :: bs, ha, hb, h => by
    simp only [List.flatMap_cons, List.append_assoc, List.cons_append, List.nil_append] at h
    obtain ⟨h1, h2⟩ := sep_inj (ha a (by simp)) (hb b (by simp)) h
    rw [h1, lines_inj (fun l hl => ha l (by simp [hl])) (fun l hl => hb l (by simp [hl])) h2]

/-- What a line tells about a node. -/
def key (x : Nat × Info × Payload) : Nat × Nat × Nat := (x.1, x.2.1.line, x.2.2.ctorIdx)

theorem placesAll_depth (d : Nat) (ns : List Node) : ∀ x ∈ (placesAll d ns).head?, x.1 = d := by
  cases ns with
  | nil => simp [placesAll]
  | cons n ns => cases n with | mk i p cs => simp [placesAll, places]

mutual
theorem shape_inj : ∀ (n n' : Node) (d : Nat) (r r' : List (Nat × Nat × Nat)), (∀ x ∈ r.head?, x.1 ≤ d) → (∀ x ∈ r'.head?, x.1 ≤ d) →
    (places d n).map key ++ r = (places d n').map key ++ r' → shape n = shape n' ∧ r = r'
  | .mk i p cs, .mk i' p' cs', d, r, r', hr, hr', h => by
    simp only [places, List.map_cons, List.cons_append, List.cons.injEq, key, Prod.mk.injEq, true_and] at h
    have := shapes_inj cs cs' (d + 1) r r' (fun x hx => Nat.lt_succ_of_le (hr x hx)) (fun x hx => Nat.lt_succ_of_le (hr' x hx)) h.2
    simp [shape, h.1.1, h.1.2, this.1, this.2]
theorem shapes_inj : ∀ (ns ns' : List Node) (d : Nat) (r r' : List (Nat × Nat × Nat)), (∀ x ∈ r.head?, x.1 < d) → (∀ x ∈ r'.head?, x.1 < d) →
    (placesAll d ns).map key ++ r = (placesAll d ns').map key ++ r' → shapes ns = shapes ns' ∧ r = r'
  | [], [], d, r, r', hr, hr', h => by simpa [placesAll, shapes] using h
  | [], .mk i p cs :: ns', d, r, r', hr, hr', h => by
    simp only [placesAll, places, List.map_nil, List.nil_append, List.map_append, List.map_cons, List.cons_append] at h
    have := hr (key (d, i, p)) (by rw [h]; rfl)
    exact absurd this (by simp [key])
  | .mk i p cs :: ns, [], d, r, r', hr, hr', h => by
    simp only [placesAll, places, List.map_nil, List.nil_append, List.map_append, List.map_cons, List.cons_append] at h
    have := hr' (key (d, i, p)) (by rw [← h]; rfl)
    exact absurd this (by simp [key])
  | n :: ns, n' :: ns', d, r, r', hr, hr', h => by
    simp only [placesAll, List.map_append, List.append_assoc] at h
    have hh : ∀ (ms : List Node) (q : List (Nat × Nat × Nat)), (∀ x ∈ q.head?, x.1 < d) → ∀ x ∈ ((placesAll d ms).map key ++ q).head?, x.1 ≤ d := by
      intro ms q hq x hx
      cases ms with
      | nil => exact Nat.le_of_lt (hq x (by simpa [placesAll] using hx))
      | cons m ms =>
        cases m with
        | mk i p cs =>
          simp only [placesAll, places, List.cons_append, List.map_cons, List.head?_cons, Option.mem_def, Option.some.injEq] at hx
          subst hx
          exact Nat.le_refl _
    obtain ⟨a, b⟩ := shape_inj n n' d _ _ (hh ns r hr) (hh ns' r' hr') h
    obtain ⟨c, e⟩ := shapes_inj ns ns' d r r' hr hr' b
    exact ⟨by simp [shapes, a, c], e⟩
end

end Verif.DumpAst
