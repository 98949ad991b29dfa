import Verif.Lemmas.PathSearch
/-!
# C72: the lookup finds what an identifier stands for
-/
namespace Verif.PathSearch

variable {D : Type}

/-- **C72** (part): the lookup finds the descriptor of every declaration, at any depth, and returns its range. -/
theorem C72_declaration_partial (S : Schema D) (hT : Typed S) (file : Node) (hf : file.shape = .file) (path : List Node) (d : D)
    (h : Decl S path d) (hp : Placed S path) (hne : path ≠ []) :
    search S file path.reverse = .found d (spot path) := by
  cases path with
  | nil => exact absurd rfl hne
  | cons n ps => exact search_of_reached hf (reach_decl hT hf h [] hp (by intro m _ a b c d k f _; rfl))

/-- A declared field: its descriptor is that of a plain field or an extension. -/
theorem Decl.sort_field {S : Schema D} (hT : Typed S) {n : Node} {ps : List Node} {d : D} (h : Decl S (n :: ps) d)
    {name nameId first last ids} (hn : n.shape = .field name nameId first last ids) :
    (S.sort d = .field ∧ S.isExtension d = false ∧ S.isMap d = false) ∨ S.sort d = .extension := by
  cases h with
  | field _ _ _ hd hm => exact .inl ⟨hT.fields hd, hT.notExtension hd, hm⟩
  | oneofField _ _ _ hd hm => exact .inl ⟨hT.fields hd, hT.notExtension hd, hm⟩
  | extension _ _ _ _ hd => exact .inr (hT.extensions hd)
  | _ => simp_all

theorem typeOf_of {S : Schema D} {f t : D} (h : TypeOf S f t) : typeOf S f = some t := by
  cases h with
  | message hk h => simp [typeOf, hk, h]
  | enum hk h => simp [typeOf, hk, h]

theorem TypeOf.sort {S : Schema D} (hT : Typed S) {f t : D} (h : TypeOf S f t) : S.sort t = .message ∨ S.sort t = .enum := by
  cases h with
  | message _ h => exact .inl (hT.message h)
  | enum _ h => exact .inr (hT.enum h)

/-- The type of a field is found at the type. -/
theorem reach_type {S : Schema D} (hT : Typed S) {file n i : Node} (hf : file.shape = .file) {ps : List Node} {d t : D}
    (h : Decl S (n :: ps) d) (hp : Placed S (n :: ps)) (hn : TypeIn n i) (hi : Identifier i) (ht : TypeOf S d t)
    (below : List (Entry D)) : Reached S file (i :: n :: ps) t below := by
  obtain ⟨name, nameId, first, last, ids, hs⟩ : ∃ name nameId first last ids, n.shape = .field name nameId first last ids := by
    unfold TypeIn at hn
    split at hn
    · exact ⟨_, _, _, _, _, by assumption⟩
    · exact hn.elim
  simp only [TypeIn, hs] at hn
  have hpush : pushed i.shape = true := by
    unfold Identifier at hi
    split at hi <;> simp_all [pushed]
  refine (reach_decl hT hf h _ hp (notKey_of (by simp [hs]))).push (climb_push S file i _ below hpush) ?_
  intro p hp
  simp only [List.cons_append, List.head?_cons, Option.some.injEq] at hp
  subst hp
  unfold Identifier at hi
  rcases h.sort_field hT hs with ⟨h1, h2, h3⟩ | h1
  · split at hi
    · simp [step, stepField, *, typeOf_of ht]
    · simp [step, stepField, *, typeOf_of ht]
    · exact hi.elim
  · split at hi
    · simp [step, stepExtension, *, typeOf_of ht]
    · simp [step, stepExtension, *, typeOf_of ht]
    · exact hi.elim

/-- **C72** (part): the lookup finds what an identifier stands for: names and types of declarations at any depth, inputs and
outputs of methods, parts of option names, values of options, and fields and values in message literals at any depth. The range
is that of the whole (compound) identifier.

Partial: for the declarations in `Placed` and the identifiers in `Supported`, and if the linker does not return wrappers for
extensions in literals; see the `C72_..._violated` theorems. -/
theorem C72_denotes_partial (S : Schema D) (hT : Typed S) (hX : ∀ n d, S.literalExtension n = some d → S.sort d = .field)
    (file : Node) (hf : file.shape = .file) (path : List Node) (d : D) (h : Denotes S path d) (hp : Placed S path)
    (hs : Supported S d path) : search S file path.reverse = .found d (spot path) := by
  have hX' : ∀ {n d}, S.literalExtension n = some d → S.sort d = .field := hX _ _
  have ident : ∀ {i : Node}, Identifier i → pushed i.shape = true := by
    intro i hi
    unfold Identifier at hi
    split at hi <;> simp_all [pushed]
  cases h with
  | @name ps n name i d h hn hi =>
    apply search_of_reached hf
    refine (reach_decl hT hf h _ hp.1 ?_).push (climb_push S file i _ [] (by simp [hi, pushed])) ?_
    · intro m hm a b c d k f _
      simp [isKey]
    · intro p hp'
      simp only [List.cons_append, List.head?_cons, Option.some.injEq] at hp'
      subst hp'
      cases h with
      | message _ _ hn' hd => simp [step, hT.messages hd, stepMessage, hi, hn', plain]
      | group _ _ hn' hd => simp [step, hT.messages hd, stepMessage, hi, hn', plain]
      | enum _ _ hn' hd =>
        simp only [NameOf, hn'] at hn
        simp [step, hT.enums hd, stepEnum, hi, hn', plain, hn]
      | field _ _ hn' hd hm =>
        simp only [NameOf, hn'] at hn
        simp [step, hT.fields hd, stepField, hi, hn', plain, hn]
      | mapField _ _ hn' hd =>
        simp only [NameOf, hn'] at hn
        simp [step, hT.fields hd, stepField, hi, hn', plain, hn]
      | oneof _ _ hn' hd => simp [step, hT.oneofs hd, stepOneof, hi, plain]
      | oneofField _ _ hn' hd hm =>
        simp only [NameOf, hn'] at hn
        simp [step, hT.fields hd, stepField, hi, hn', plain, hn]
      | extension _ _ _ hn' hd =>
        simp only [NameOf, hn'] at hn
        simp [step, hT.extensions hd, stepExtension, hi, hn', plain, hn]
      | enumValue _ _ hn' hd => simp [step, hT.values hd, stepEnumValue, hi, plain]
      | service hn' hd => simp [step, hT.services hd, stepService, hi, plain]
      | rpc _ _ hn' hd => simp [step, hT.methods hd, stepMethod, hi, plain]
  | @fieldType ps n i e t h hn hi ht => exact search_of_reached hf (reach_type hT hf h hp.1 hn hi ht [])
  | @fieldTypePart ps n c cname i name e t h hn hc hi ht =>
    apply search_of_reached hf
    refine (reach_type hT hf h hp.1.1 hn (by simp [Identifier, hc]) ht _).push (climb_push S file i _ [] (by simp [hi, pushed])) ?_
    intro p hp'
    simp only [List.cons_append, List.head?_cons, Option.some.injEq] at hp'
    subst hp'
    obtain ⟨c1, c2, c3, sh⟩ := c
    simp only at hc
    subst hc
    have : S.sort d = .message := by
      rcases ht.sort hT with h | h
      · exact h
      · exact absurd h hs
    simp [step, this, stepMessage, hi]
  | @mapValue ps n m i e t h hn hm hi ht =>
    apply search_of_reached hf
    obtain ⟨name, nameId, first, last, keyId, value, hsh⟩ :
        ∃ name nameId first last keyId value, n.shape = .mapField name nameId first last keyId value := by
      unfold ValueTypeIn at hn
      split at hn
      · exact ⟨_, _, _, _, _, _, by assumption⟩
      · exact hn.elim
    simp only [ValueTypeIn, hsh] at hn
    obtain ⟨m1, m2, m3, sh⟩ := m
    simp only at hm
    subst hm
    have hsort : S.sort d = .message := by
      rcases ht.sort hT with h | h
      · exact h
      · exact absurd h hs
    have hmsg : S.message (S.mapValue e) = some d := by
      cases ht with
      | message _ h => exact h
      | enum _ h => exact absurd (hT.enum h) (by simp [hsort])
    have hfield : S.sort e = .field := by
      cases h <;> simp_all
      exact hT.fields (by assumption)
    have r1 : Reached S file (⟨m1, m2, m3, .mapType⟩ :: n :: ps) d [⟨i, none⟩] := by
      refine (reach_decl hT hf h _ hp.1.1 ?_).push (climb_push S file _ _ _ (by simp [pushed])) ?_
      · intro x hx a b c d k f hk
        simp only [List.head?_cons, Option.mem_def, Option.some.injEq] at hx
        subst hx
        rw [hsh] at hk
        injection hk with _ _ _ _ hk _
        simp [isKey, ← hk, hn]
      · intro p hp'
        simp [step, hfield, stepField, hmsg]
    refine r1.push (climb_push S file i _ [] (ident hi)) ?_
    intro p hp'
    simp only [List.cons_append, List.head?_cons, Option.some.injEq] at hp'
    subst hp'
    unfold Identifier at hi
    split at hi <;> first | exact hi.elim | simp [step, stepMessage, *]
  | @rpcInput ps n name input output r i e h hn hr hid hi =>
    apply search_of_reached hf
    have hm : S.sort e = .method := by
      cases h <;> simp_all
      exact hT.methods (by assumption)
    have r1 : Reached S file (r :: n :: ps) (S.input e) [⟨i, none⟩] := by
      refine (reach_decl hT hf h _ hp.1.1 (notKey_of (by simp [hn]))).push (climb_push S file _ _ _ (by simp [hr, pushed])) ?_
      intro p hp'
      simp only [List.cons_append, List.head?_cons, Option.some.injEq] at hp'
      subst hp'
      simp [step, hm, stepMethod, hr, hn, hid]
    refine r1.push (climb_push S file i _ [] (ident hi)) ?_
    intro p hp'
    simp only [List.cons_append, List.head?_cons, Option.some.injEq] at hp'
    subst hp'
    unfold Identifier at hi
    split at hi <;> first | exact hi.elim | simp [step, hT.input, stepMessage, *]
  | @rpcOutput ps n name input output r i e h hn hr hid hne hi =>
    apply search_of_reached hf
    have hm : S.sort e = .method := by
      cases h <;> simp_all
      exact hT.methods (by assumption)
    have r1 : Reached S file (r :: n :: ps) (S.output e) [⟨i, none⟩] := by
      refine (reach_decl hT hf h _ hp.1.1 (notKey_of (by simp [hn]))).push (climb_push S file _ _ _ (by simp [hr, pushed])) ?_
      intro p hp'
      simp only [List.cons_append, List.head?_cons, Option.some.injEq] at hp'
      subst hp'
      have : ¬ output = input := fun h => hne h.symm
      simp [step, hm, stepMethod, hr, hn, hid, this]
    refine r1.push (climb_push S file i _ [] (ident hi)) ?_
    intro p hp'
    simp only [List.cons_append, List.head?_cons, Option.some.injEq] at hp'
    subst hp'
    unfold Identifier at hi
    split at hi <;> first | exact hi.elim | simp [step, hT.output, stepMessage, *]
  | @optionPart ps kind name r i d hr hi hd =>
    apply search_of_reached hf
    refine Reached.push (c := d) (.top ?_ (by simp [hr])) (climb_push S file i _ [] (ident hi)) ?_
    · obtain ⟨p, rest, hp⟩ : ∃ p rest, ps ++ [file] = p :: rest := by cases ps <;> exact ⟨_, _, rfl⟩
      simp [hp, climb, hr, hd, top]
    · intro p hp'
      simp only [List.cons_append, List.head?_cons, Option.some.injEq] at hp'
      subst hp'
      unfold Identifier at hi
      rcases hT.optionPart hd with h | h
      · split at hi <;> first | exact hi.elim | simp [step, stepField, *]
      · split at hi <;> first | exact hi.elim | simp [step, stepExtension, *]
  | @optionValue ps o name i f e d ho hi hf' hk he hd =>
    apply search_of_reached hf
    refine Reached.push (c := e) (.top ?_ (by simp [ho])) (climb_push S file i _ [] (by simp [hi, pushed])) ?_
    · obtain ⟨p, rest, hp⟩ : ∃ p rest, ps ++ [file] = p :: rest := by cases ps <;> exact ⟨_, _, rfl⟩
      simp [hp, climb, ho, hf', hk, he, top]
    · intro p hp'
      simp only [List.cons_append, List.head?_cons, Option.some.injEq] at hp'
      subst hp'
      simp [step, hT.enum he, stepEnum, hi, ho, hd]
  | @literalField ps m n kind name r f h hn hr hk =>
    apply search_of_reached hf
    refine (reach_sets hT hX' h hn _).1.push (climb_push S file r _ [] (by simp [hr, pushed])) ?_
    intro p hp'
    simp [step, (reach_sets hT hX' (file := file) h hn []).2, stepField, hr]
  | @literalAny ps m n name val r t h hn hr ht =>
    apply search_of_reached hf
    have r1 : Reached S file (n :: ps) d [⟨r, none⟩] := by
      refine (reach_lit hT hX' h _).1.push (climb_push S file n _ _ (by simp [hn, pushed])) ?_
      intro p hp
      simp [step, (reach_lit hT hX' (file := file) h []).2, stepMessage, hn, ht]
    refine r1.push (climb_push S file r _ [] (by simp [hr, pushed])) ?_
    intro p hp'
    simp [step, hT.anyType ht, stepMessage, hr, ht]
  | @literalValue ps m n kind fname name i f e d h hn hv hi hk he hd =>
    apply search_of_reached hf
    refine (reach_sets hT hX' h hn _).1.push (climb_push S file i _ [] (by simp [hi, pushed])) ?_
    intro p hp'
    simp only [List.cons_append, List.head?_cons, Option.some.injEq] at hp'
    subst hp'
    simp [step, (reach_sets hT hX' (file := file) h hn []).2, stepField, hi, hv, hk, he, hd]
  | @literalElement ps m n a name i f e d h hn ha hi hk he hd =>
    obtain ⟨a1, a2, a3, sh⟩ := a
    obtain ⟨i1, i2, i3, sh'⟩ := i
    simp only at ha hi
    subst ha hi
    exact hs.elim
  | @extendee ps c x extendee first last empty i d h hb hx hi hd =>
    obtain ⟨x1, x2, x3, sh⟩ := x
    simp only at hx
    subst hx
    have hps : ps = [] := by
      unfold Supported at hs
      split at hs <;> simp_all
    subst hps
    have hroot := h.root
    subst hroot
    apply search_of_reached hf
    have r1 : Reached S file [⟨x1, x2, x3, .extend extendee first last empty⟩] S.root [⟨i, none⟩] := by
      refine (Reached.file S file _).push (climb_push S file _ [] _ (by simp [pushed])) ?_
      intro p hp
      simp [step, hT.root, stepFile]
    refine r1.push (climb_push S file i _ [] (by rcases hi with hi | ⟨_, hi, _⟩ <;> simp [hi, pushed])) ?_
    intro p hp'
    simp only [List.cons_append, List.head?_cons, Option.some.injEq] at hp'
    subst hp'
    rcases hi with hi | ⟨name, hi, h1, h2⟩
    · simp [step, hT.root, stepFile, hi, hd]
    · simp [step, hT.root, stepFile, hi, hd, h1, h2]

/-- **C72** (part): nothing is found at a scalar type. -/
theorem C72_scalar_partial (S : Schema D) (hT : Typed S) (file : Node) (hf : file.shape = .file) (ps : List Node) (n i : Node) (d : D)
    (h : Decl S (n :: ps) d) (hp : Placed S (n :: ps)) (hn : TypeIn n i) (hi : Identifier i) (hk : S.kind d = .scalar) :
    search S file (i :: n :: ps).reverse = .error := by
  obtain ⟨name, nameId, first, last, ids, hs⟩ : ∃ name nameId first last ids, n.shape = .field name nameId first last ids := by
    unfold TypeIn at hn
    split at hn
    · exact ⟨_, _, _, _, _, by assumption⟩
    · exact hn.elim
  simp only [TypeIn, hs] at hn
  have hpush : pushed i.shape = true := by
    unfold Identifier at hi
    split at hi <;> simp_all [pushed]
  obtain ⟨ents, above, p, h1, h2, h3, h4, h5, h6⟩ := reach_decl hT hf h [⟨i, none⟩] hp (notKey_of (by simp [hs]))
  simp only [List.cons_append, List.head?_cons, Option.some.injEq] at h3
  subst h3
  have hstep : step S n d n i = .desc none := by
    unfold Identifier at hi
    rcases h.sort_field hT hs with ⟨k1, k2, k3⟩ | k1
    · split at hi <;> first | exact hi.elim | simp [step, stepField, *, typeOf]
    · split at hi <;> first | exact hi.elim | simp [step, stepExtension, *, typeOf]
  have hc : climb S [] (i :: (n :: ps) ++ [file]) = .stack (ents ++ [⟨i, none⟩]) := by
    rw [List.cons_append, climb_push S file i _ [] hpush, h1]
  unfold search
  rw [if_neg (by simp), List.reverse_reverse, hc]
  have : ents ≠ [] := fun h => by simpa using h4 h
  simp only
  split
  · rename_i m d' he
    cases ents with
    | nil => exact absurd rfl this
    | cons x xs => simp at he
  · rw [h2]
    simp [resolve, nextResolved, hstep]

/-- **C72** (part): at an import the lookup finds the imported file; at an unfinished one it finds nothing, without an error; for
an import of a file that the linker has not resolved it fails. -/
theorem C72_import_partial (S : Schema D) (hT : Typed S) (file i : Node) (name : Name) (incomplete : Bool)
    (hi : i.shape = .imp name incomplete) :
    search S file [i] =
      if incomplete then .nothing
      else match S.imports S.root name with
        | some d => .found d i.id
        | none => .error := by
  have hc : climb S [] ([i].reverse ++ [file]) = climb S [⟨i, none⟩] [file] :=
    climb_push S file i [] [] (by simp [hi, pushed])
  unfold search
  rw [if_neg (by simp), hc]
  cases incomplete
  · cases h : S.imports S.root name <;> simp [climb, resolve, nextResolved, step, hT.root, stepFile, hi, h, answer]
  · simp [climb, resolve, nextResolved, step, hT.root, stepFile, hi]

/-! ## Examples and counterexamples

The schema of a file with the package `p`:

```
message M {                            // 1
  E e = 1;                             // 2
  message N {                          // 5
    p.M m = 1;                         // 6
    map<string, M> mm = 2;             // 9, the value of the entry is 10
    map<string, E> me = 3;             // 11, the value of the entry is 12
  }
  oneof o { N n = 4; }                 // 13, 14
  repeated E es = 5;                   // 15
  optional group G = 6 {               // 16
    message D {}                       // 17
  }
  map<string, T> mt = 7;               // 19, the value of the entry is 20
  extend T { optional int32 x = 1; }   // 21
  int32 i = 8;                         // 22
}
enum E { A = 0; }                      // 3, 4
service S { rpc Get(M) returns (T); }  // 7, 8
message T {}                           // 18
```

The option with node 100 has a field of type `M` (23), the one with node 101 is `e` (2). -/

/-- A lookup in a table of containers, names and descriptors. -/
def look (t : List (Nat × Name × Nat)) (c : Nat) (n : Name) : Option Nat :=
  (t.find? fun x => decide (x.1 = c ∧ x.2.1 = n)).map (·.2.2)

theorem look_mem {t : List (Nat × Name × Nat)} {c : Nat} {n : Name} {d : Nat} (h : look t c n = some d) :
    ∃ x ∈ t, x.2.2 = d := by
  simp only [look, Option.map_eq_some_iff] at h
  obtain ⟨x, h1, h2⟩ := h
  exact ⟨x, List.mem_of_find?_eq_some h1, h2⟩

def demoSort (d : Nat) : Sort' :=
  if d = 0 then .file
  else if d ∈ [1, 5, 16, 17, 18] then .message
  else if d = 3 then .enum
  else if d = 4 then .enumValue
  else if d = 7 then .service
  else if d = 8 then .method
  else if d = 13 then .oneof
  else if d ∈ [21, 24] then .extension
  else .field

def demoMessages : List (Nat × Name × Nat) :=
  [(0, ['M'], 1), (0, ['T'], 18), (1, ['N'], 5), (1, ['G'], 16), (16, ['D'], 17)]

def demoFields : List (Nat × Name × Nat) :=
  [(1, ['e'], 2), (5, ['m'], 6), (5, ['m', 'm'], 9), (5, ['m', 'e'], 11), (13, ['n'], 14), (1, ['n'], 14), (1, ['e', 's'], 15),
    (1, ['m', 't'], 19), (1, ['i'], 22)]

def demo : Schema Nat where
  sort := demoSort
  root := 0
  messages := look demoMessages
  enums := look [(0, ['E'], 3)]
  extensions := look [(1, ['x'], 21)]
  extensionList d := if d = 1 then [21] else []
  services := look [(0, ['S'], 7)]
  fields := look demoFields
  oneofs := look [(1, ['o'], 13)]
  values := look [(3, ['A'], 4)]
  methods := look [(7, ['G', 'e', 't'], 8)]
  imports := look [(0, ['g'], 25)]
  options _ := 1
  messageOptions _ := 1
  kind d := if d ∈ [2, 12, 15] then .enum else if d ∈ [21, 22, 24] then .scalar else .message
  message d := if d ∈ [6, 10, 23] then some 1 else if d = 14 then some 5 else if d = 20 then some 18 else none
  enum d := if d ∈ [2, 12, 15] then some 3 else none
  isExtension _ := false
  isMap d := decide (d ∈ [9, 11, 19])
  mapValue d := if d = 9 then 10 else if d = 11 then 12 else 20
  input _ := 1
  output _ := 18
  descriptor _ := 23
  containing _ := 18
  fullName d := if d = 18 then ['p', '.', 'T'] else []
  findExtendee n := look [(0, ['T'], 18), (0, ['p', '.', 'T'], 18)] 0 n
  optionPart n := if n = 102 then some 2 else none
  optionField n := if n = 100 then some 23 else if n = 101 then some 2 else none
  anyType n := look [(0, ['T'], 18)] 0 n
  literalExtension _ := none

theorem demo_typed : Typed demo where
  root := by decide
  messages h := by obtain ⟨x, hx, rfl⟩ := look_mem h; exact (by decide : ∀ x ∈ demoMessages, demoSort x.2.2 = .message) x hx
  enums h := by obtain ⟨x, hx, rfl⟩ := look_mem h; simp at hx; subst hx; decide
  extensions h := by obtain ⟨x, hx, rfl⟩ := look_mem h; simp at hx; subst hx; decide
  services h := by obtain ⟨x, hx, rfl⟩ := look_mem h; simp at hx; subst hx; decide
  fields h := by obtain ⟨x, hx, rfl⟩ := look_mem h; exact (by decide : ∀ x ∈ demoFields, demoSort x.2.2 = .field) x hx
  notExtension _ := rfl
  oneofs h := by obtain ⟨x, hx, rfl⟩ := look_mem h; simp at hx; subst hx; decide
  values h := by obtain ⟨x, hx, rfl⟩ := look_mem h; simp at hx; subst hx; decide
  methods h := by obtain ⟨x, hx, rfl⟩ := look_mem h; simp at hx; subst hx; decide
  message h := by
    simp only [demo] at h
    split at h
    · cases h; rfl
    · split at h
      · cases h; rfl
      · split at h
        · cases h; rfl
        · exact absurd h (by simp)
  enum h := by
    simp only [demo] at h
    split at h
    · cases h; rfl
    · exact absurd h (by simp)
  mapValue f := by
    simp only [demo]
    split
    · rfl
    · split <;> rfl
  input _ := rfl
  output _ := rfl
  optionPart h := by
    simp only [demo] at h
    split at h
    · cases h; exact .inl rfl
    · exact absurd h (by simp)
  anyType h := by obtain ⟨x, hx, rfl⟩ := look_mem h; simp at hx; subst hx; decide
  findExtendee h := by
    obtain ⟨x, hx, rfl⟩ := look_mem h
    simp only [List.mem_cons, List.not_mem_nil, or_false] at hx
    rcases hx with rfl | rfl <;> decide

instance (n i : Node) : Decidable (NameOf n i) := by unfold NameOf; split <;> infer_instance
instance (n i : Node) : Decidable (TypeIn n i) := by unfold TypeIn; split <;> infer_instance
instance (n i : Node) : Decidable (ValueTypeIn n i) := by unfold ValueTypeIn; split <;> infer_instance
instance (S : Schema Nat) (d : Nat) (ps : List Node) : Decidable (Supported S d ps) := by
  unfold Supported; split <;> infer_instance

namespace Demo
def file : Node := ⟨0, 0, 99, .file⟩
def m : Node := ⟨1, 1, 50, .message ['M']⟩
def n : Node := ⟨2, 10, 30, .message ['N']⟩
/-- `p.M m = 1;` -/
def fm : Node := ⟨3, 12, 18, .field ['m'] 6 12 14 [4, 5]⟩
def fmType : Node := ⟨4, 12, 14, .compoundIdent ['p', '.', 'M']⟩
def fmPart : Node := ⟨5, 14, 14, .ident ['M']⟩
def fmName : Node := ⟨6, 15, 15, .ident ['m']⟩
/-- `E e = 1;` -/
def fe : Node := ⟨7, 3, 7, .field ['e'] 9 3 3 [8]⟩
def feType : Node := ⟨8, 3, 3, .ident ['E']⟩
/-- `map<string, M> mm = 2;` -/
def fmm : Node := ⟨10, 19, 28, .mapField ['m', 'm'] 14 19 24 12 ['.', 'p', '.', 'M']⟩
def fmmType : Node := ⟨11, 19, 24, .mapType⟩
def fmmValue : Node := ⟨13, 23, 23, .ident ['M']⟩
/-- `map<string, E> me = 3;` -/
def fme : Node := ⟨15, 19, 28, .mapField ['m', 'e'] 17 19 24 16 ['.', 'p', '.', 'E']⟩
/-- `int32 i = 8;` -/
def fi : Node := ⟨20, 40, 44, .field ['i'] 22 40 40 [21]⟩
def fiType : Node := ⟨21, 40, 40, .ident ['i', 'n', 't', '3', '2']⟩
def s : Node := ⟨30, 60, 70, .service ['S']⟩
def rpc : Node := ⟨31, 62, 69, .rpc ['G', 'e', 't'] 32 33⟩
def out : Node := ⟨33, 66, 68, .rpcType⟩
def outType : Node := ⟨34, 67, 67, .ident ['T']⟩
/-- `option (o) = { n: { m: { e: A } } }`, with the field `o` of type `M`. -/
def opt : Node := ⟨100, 80, 98, .option true⟩
def lit1 : Node := ⟨41, 85, 97, .messageLiteral⟩
def setE : Node := ⟨42, 90, 92, .messageField .name ['e'] (.ident ['A'])⟩
def valA : Node := ⟨43, 92, 92, .ident ['A']⟩
def setN : Node := ⟨44, 86, 96, .messageField .name ['n'] .other⟩
def lit2 : Node := ⟨45, 87, 96, .messageLiteral⟩
def setM : Node := ⟨46, 88, 95, .messageField .name ['m'] .other⟩
def lit3 : Node := ⟨47, 89, 94, .messageLiteral⟩

theorem decl_m : Decl demo [m] 1 := .message .file trivial rfl rfl
theorem decl_n : Decl demo [n, m] 5 := .message decl_m trivial rfl rfl
theorem decl_fm : Decl demo [fm, n, m] 6 := .field decl_n trivial rfl rfl rfl
theorem decl_fmm : Decl demo [fmm, n, m] 9 := .mapField decl_n trivial rfl rfl
theorem decl_rpc : Decl demo [rpc, s] 8 := .rpc (.service rfl rfl) rfl rfl rfl
theorem lit : Lit demo [lit3, setM, lit2, setN, lit1, opt] 1 :=
  .field (.field (.option rfl rfl rfl rfl rfl) (.name rfl rfl) rfl rfl)
    (.name rfl rfl) rfl rfl
end Demo

open Demo

/-- A field of a nested message: `m` in `M.N`. -/
example : search demo file [m, n, fm] = .found 6 3 :=
  C72_declaration_partial demo demo_typed file rfl [fm, n, m] 6 decl_fm ⟨⟨⟨trivial, trivial⟩, trivial⟩, trivial⟩ (by simp)

/-- The `M` in the type `p.M` of that field: the message `M`, with the range of `p.M`. -/
example : search demo file [m, n, fm, fmType, fmPart] = .found 1 4 :=
  C72_denotes_partial demo demo_typed (by simp [demo]) file rfl [fmPart, fmType, fm, n, m] 1
    (.fieldTypePart decl_fm (by decide +kernel) rfl rfl (.message rfl rfl))
    ⟨⟨⟨⟨⟨trivial, trivial⟩, trivial⟩, trivial⟩, trivial⟩, trivial⟩ (by decide +kernel)

/-- The type of the values of a map in a nested message. -/
example : search demo file [m, n, fmm, fmmType, fmmValue] = .found 1 13 :=
  C72_denotes_partial demo demo_typed (by simp [demo]) file rfl [fmmValue, fmmType, fmm, n, m] 1
    (.mapValue decl_fmm (by decide +kernel) rfl trivial (.message rfl rfl))
    ⟨⟨⟨⟨⟨trivial, trivial⟩, trivial⟩, trivial⟩, trivial⟩, trivial⟩ (by decide +kernel)

/-- The output of a method. -/
example : search demo file [s, rpc, out, outType] = .found 18 34 :=
  C72_denotes_partial demo demo_typed (by simp [demo]) file rfl [outType, out, rpc, s] 18
    (.rpcOutput decl_rpc rfl rfl rfl (by decide) trivial) ⟨⟨⟨⟨trivial, trivial⟩, trivial⟩, trivial⟩, trivial⟩ trivial

/-- An enum value, three messages deep in the value of an option. -/
example : search demo file [opt, lit1, setN, lit2, setM, lit3, setE, valA] = .found 4 43 :=
  C72_denotes_partial demo demo_typed (by simp [demo]) file rfl [valA, setE, lit3, setM, lit2, setN, lit1, opt] 4
    (.literalValue lit (.name rfl rfl) rfl rfl rfl rfl rfl)
    ⟨⟨⟨⟨⟨⟨⟨⟨trivial, trivial⟩, trivial⟩, trivial⟩, trivial⟩, trivial⟩, trivial⟩, trivial⟩, trivial⟩ trivial

/-- `import "g";`, the same without the semicolon, and an import that cannot be resolved. -/
example : search demo file [⟨110, 1, 3, .imp ['g'] false⟩] = .found 25 110 ∧ search demo file [⟨110, 1, 3, .imp ['g'] true⟩] = .nothing ∧
    search demo file [⟨110, 1, 3, .imp ['h'] false⟩] = .error :=
  ⟨C72_import_partial demo demo_typed file ⟨110, 1, 3, .imp ['g'] false⟩ ['g'] false rfl,
    C72_import_partial demo demo_typed file ⟨110, 1, 3, .imp ['g'] true⟩ ['g'] true rfl,
    C72_import_partial demo demo_typed file ⟨110, 1, 3, .imp ['h'] false⟩ ['h'] false rfl⟩

/-- `int32`. -/
example : search demo file [m, fi, fiType] = .error :=
  C72_scalar_partial demo demo_typed file rfl [m] fi fiType 22 (.field decl_m trivial rfl rfl rfl)
    ⟨⟨trivial, trivial⟩, trivial⟩ (by decide +kernel) trivial rfl

/-- **C72** fails for a map in a message that is not nested, in a file without package: at the *name* of the field the lookup
finds the message that is the value type. -/
theorem C72_map_violated : ∃ (S : Schema Nat) (file : Node) (path : List Node) (d d' r : Nat), Typed S ∧ file.shape = .file ∧
    Denotes S path d ∧ search S file path.reverse = .found d' r ∧ S.sort d = .field ∧ S.sort d' = .message :=
  ⟨demo, file, [⟨61, 56, 56, .ident ['m', 't']⟩, ⟨60, 50, 58, .mapField ['m', 't'] 61 50 55 62 ['.', 'T']⟩, m], 19, 18, 61,
    demo_typed, rfl, .name (d := 19) (.mapField decl_m trivial rfl rfl) (by decide +kernel) rfl, by decide +kernel, by decide,
    by decide⟩

/-- **C72** fails for the type of the values of a map if it is an enum: nothing is found. -/
theorem C72_map_enum_violated : ∃ (S : Schema Nat) (file : Node) (path : List Node) (d : Nat), Typed S ∧ file.shape = .file ∧
    Denotes S path d ∧ Placed S path ∧ S.sort d = .enum ∧ search S file path.reverse = .error :=
  ⟨demo, file, [⟨18, 23, 23, .ident ['E']⟩, fmmType, fme, n, m], 3, demo_typed, rfl,
    .mapValue (.mapField decl_n trivial rfl rfl) (by decide +kernel) rfl trivial (.enum rfl rfl),
    ⟨⟨⟨⟨⟨trivial, trivial⟩, trivial⟩, trivial⟩, trivial⟩, trivial⟩, by decide, by decide +kernel⟩

/-- **C72** fails for the components of an enum type that is parsed as a compound identifier (`p.E`): nothing is found. -/
theorem C72_qualified_enum_violated : ∃ (S : Schema Nat) (file : Node) (path : List Node) (d : Nat), Typed S ∧ file.shape = .file ∧
    Denotes S path d ∧ Placed S path ∧ S.sort d = .enum ∧ search S file path.reverse = .error :=
  ⟨demo, file, [⟨71, 5, 5, .ident ['E']⟩, ⟨70, 3, 5, .compoundIdent ['p', '.', 'E']⟩,
      ⟨7, 3, 9, .field ['e'] 9 3 5 [70, 72, 71]⟩, m], 3, demo_typed, rfl,
    .fieldTypePart (.field decl_m trivial rfl rfl rfl) (by decide +kernel) rfl rfl (.enum rfl rfl),
    ⟨⟨⟨⟨trivial, trivial⟩, trivial⟩, trivial⟩, trivial⟩, by decide, by decide +kernel⟩

/-- **C72** fails for the elements of a list of enum values in a message literal: nothing is found. -/
theorem C72_list_violated : ∃ (S : Schema Nat) (file : Node) (path : List Node) (d : Nat), Typed S ∧ file.shape = .file ∧
    Denotes S path d ∧ Placed S path ∧ S.sort d = .enumValue ∧ search S file path.reverse = .error :=
  ⟨demo, file, [⟨83, 92, 92, .ident ['A']⟩, ⟨82, 91, 93, .arrayLiteral⟩,
      ⟨81, 89, 93, .messageField .name ['e', 's'] (.array [(83, ['A'])])⟩, lit1, opt], 4, demo_typed, rfl,
    .literalElement (.option rfl rfl rfl rfl rfl) (.name rfl rfl) rfl rfl
      rfl rfl rfl,
    ⟨⟨⟨⟨⟨trivial, trivial⟩, trivial⟩, trivial⟩, trivial⟩, trivial⟩, by decide, by decide +kernel⟩

/-- **C72** fails for a message that is declared in a group: nothing is found (or the message of the file with the same
name). -/
theorem C72_group_violated : ∃ (S : Schema Nat) (file : Node) (path : List Node) (d : Nat), Typed S ∧ file.shape = .file ∧
    Denotes S path d ∧ S.sort d = .message ∧ search S file path.reverse = .error :=
  ⟨demo, file, [⟨92, 47, 47, .ident ['D']⟩, ⟨91, 46, 49, .message ['D']⟩, ⟨90, 43, 50, .group ['G']⟩, m], 17, demo_typed, rfl,
    .name (d := 17) (.message (.group decl_m trivial rfl rfl) trivial rfl rfl) trivial rfl, by decide, by decide +kernel⟩

/-- **C72** fails for the extended message of an `extend` in a message if its name is relative: nothing is found. -/
theorem C72_extendee_violated : ∃ (S : Schema Nat) (file : Node) (path : List Node) (d : Nat), Typed S ∧ file.shape = .file ∧
    Denotes S path d ∧ Placed S path ∧ S.sort d = .message ∧ search S file path.reverse = .error :=
  ⟨demo, file, [⟨94, 45, 45, .ident ['T']⟩, ⟨93, 44, 49, .extend ['T'] 45 45 false⟩, m], 18, demo_typed, rfl,
    .extendee decl_m trivial rfl (.inr ⟨_, rfl, by decide, by decide⟩) rfl,
    ⟨⟨⟨trivial, trivial⟩, trivial⟩, trivial⟩, by decide, by decide +kernel⟩

/-- **C72** fails for an extension in a message literal if the linker has a wrapper for it: nothing is found. -/
theorem C72_literal_extension_violated : ∃ (S : Schema Nat) (file : Node) (path : List Node) (d : Nat), Typed S ∧
    file.shape = .file ∧ Denotes S path d ∧ Placed S path ∧ Supported S d path ∧ S.sort d = .extension ∧
    search S file path.reverse = .error :=
  ⟨{ demo with literalExtension := fun _ => some 24 }, file, [⟨96, 92, 92, .fieldRef false .extension ['x']⟩,
      ⟨95, 91, 95, .messageField .extension ['x'] .other⟩, lit1, opt], 24,
    ⟨demo_typed.root, demo_typed.messages, demo_typed.enums, demo_typed.extensions, demo_typed.services, demo_typed.fields,
      demo_typed.notExtension, demo_typed.oneofs, demo_typed.values, demo_typed.methods, demo_typed.message, demo_typed.enum,
      demo_typed.mapValue, demo_typed.input, demo_typed.output, demo_typed.optionPart, demo_typed.anyType,
      demo_typed.findExtendee⟩, rfl,
    .literalField (.option rfl rfl rfl rfl rfl) (.extension rfl rfl) rfl
      (by decide),
    ⟨⟨⟨⟨trivial, trivial⟩, trivial⟩, trivial⟩, trivial⟩, trivial, by decide, by decide +kernel⟩

end Verif.PathSearch
