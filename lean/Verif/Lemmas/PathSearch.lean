import Verif.Spec.PathSearch
/-!
# The stack of the lookup

The two loops together go through the path from the outside to the inside: the entries of a declaration are resolved before
those of the nodes in it.
-/
namespace Verif.PathSearch

variable {D : Type}

/-- The lookup has resolved `ps`: what is left to do are the entries `below`; the entry above them is that of the innermost
node of `ps` (or the file) with the descriptor `d`. -/
def Reached (S : Schema D) (file : Node) (ps : List Node) (d : D) (below : List (Entry D)) : Prop :=
  ∃ ents above n, climb S below (ps ++ [file]) = .stack (ents ++ below) ∧
    resolve S [] (⟨file, some S.root⟩ :: (ents ++ below)) = resolve S (⟨n, some d⟩ :: above) below ∧
    (ps ++ [file]).head? = some n ∧ (ents = [] → ps = []) ∧
    (∀ e, ents = [e] → e.desc = none ∨ (e = ⟨n, some d⟩ ∧ ∀ name, n.shape ≠ .ident name)) ∧
    (∀ name, n.shape = .ident name → ps ≠ [] → ∃ q qs ds, ps.tail ++ [file] = q :: qs ∧ above = ⟨q, ds⟩ :: above.tail)

/-- A node that is pushed without a descriptor and then resolved in the descriptor of its parent. -/
theorem Reached.push {S : Schema D} {file n : Node} {ps : List Node} {c d : D} {below : List (Entry D)}
    (h : Reached S file ps c (⟨n, none⟩ :: below))
    (hp : climb S below (n :: (ps ++ [file])) = climb S (⟨n, none⟩ :: below) (ps ++ [file]))
    (hs : ∀ p, (ps ++ [file]).head? = some p → step S p c p n = .desc (some d)) : Reached S file (n :: ps) d below := by
  obtain ⟨ents, above, p, h1, h2, h3, h4, _, _⟩ := h
  refine ⟨ents ++ [⟨n, none⟩], ⟨p, some c⟩ :: above, n, ?_, ?_, rfl, by simp, ?_, ?_⟩
  · rw [List.cons_append, hp, h1, List.append_assoc]
    rfl
  · rw [List.append_assoc, List.singleton_append, h2]
    simp only [resolve, nextResolved, hs p h3]
  · intro e he
    cases ents with
    | nil => simp only [List.nil_append, List.cons.injEq, and_true] at he; exact .inl (by rw [← he])
    | cons x xs => simp at he
  · intro name _ _
    obtain ⟨q, qs, hq⟩ : ∃ q qs, ps ++ [file] = q :: qs := by cases ps <;> exact ⟨_, _, rfl⟩
    rw [hq] at h3
    injection h3 with h3
    exact ⟨q, qs, some c, hq, by rw [h3]; rfl⟩

/-- A node for which the first loop ends. -/
theorem Reached.top {S : Schema D} {file n : Node} {ps : List Node} {d : D} {below : List (Entry D)}
    (hp : climb S below (n :: (ps ++ [file])) = .stack (⟨n, some d⟩ :: below)) (hn : ∀ name, n.shape ≠ .ident name) :
    Reached S file (n :: ps) d below :=
  ⟨[⟨n, some d⟩], [⟨file, some S.root⟩], n, by simpa using hp, by simp [resolve], rfl, by simp,
    fun e he => .inr ⟨(by simpa using he.symm), hn⟩, fun name h => absurd h (hn name)⟩

theorem Reached.file (S : Schema D) (file : Node) (below : List (Entry D)) : Reached S file [] S.root below :=
  ⟨[], [], file, by simp [climb], by simp [resolve], rfl, by simp, by simp, fun _ _ h => absurd rfl h⟩

/-- The nodes that are pushed whatever is around them. -/
def pushed : Shape → Bool
  | .stop => false
  | .message _ => false
  | .group _ => false
  | .mapField _ _ _ _ _ _ => false
  | .enum _ _ => false
  | .service _ => false
  | .fieldRef true _ _ => false
  | .option true => false
  | _ => true

theorem climb_push (S : Schema D) (file n : Node) (ps : List Node) (below : List (Entry D)) (h : pushed n.shape = true) :
    climb S below (n :: (ps ++ [file])) = climb S (⟨n, none⟩ :: below) (ps ++ [file]) := by
  obtain ⟨p, rest, hp⟩ : ∃ p rest, ps ++ [file] = p :: rest := by cases ps <;> exact ⟨_, _, rfl⟩
  rw [hp]
  conv => lhs; unfold climb
  cases hs : n.shape with
  | fieldRef b k m => cases b <;> simp_all [pushed]
  | option b => cases b <;> simp_all [pushed]
  | _ => simp_all [pushed]

theorem Decl.root {S : Schema D} {d : D} (h : Decl S [] d) : d = S.root := by
  cases h; rfl

/-- The descriptor of a file, a message or a group has the right type. -/
theorem Decl.sort_body {S : Schema D} (hT : Typed S) {ps : List Node} {d : D} (h : Decl S ps d) (hb : Body ps) :
    S.sort d = if ps = [] then .file else .message := by
  cases h with
  | file => simpa using hT.root
  | message _ _ _ hd => simpa using hT.messages hd
  | group _ _ _ hd => simpa using hT.messages hd
  | enum _ _ hn _ => simp [Body, hn] at hb
  | field _ _ hn _ => simp [Body, hn] at hb
  | mapField _ _ hn _ => simp [Body, hn] at hb
  | oneof _ _ hn _ => simp [Body, hn] at hb
  | oneofField _ _ hn _ => simp [Body, hn] at hb
  | extension _ _ _ hn _ => simp [Body, hn] at hb
  | enumValue _ _ hn _ => simp [Body, hn] at hb
  | service hn _ => simp [Body, hn] at hb
  | rpc _ _ hn _ => simp [Body, hn] at hb

theorem Fields.body {ps : List Node} (h : Fields ps) : Body ps ∧ ps ≠ [] := by
  cases ps with
  | nil => exact h.elim
  | cons p ps => exact ⟨h, by simp⟩

theorem Decl.sort_fields {S : Schema D} (hT : Typed S) {ps : List Node} {d : D} (h : Decl S ps d) (hb : Fields ps) :
    S.sort d = .message := by
  have := h.sort_body hT hb.body.1
  rwa [if_neg hb.body.2] at this

/-- A node in a message is not a node in an `extend` block. -/
theorem Body.not_extend {ps : List Node} {p file : Node} (hf : file.shape = .file) (hb : Body ps)
    (hp : (ps ++ [file]).head? = some p) : ∀ a b c d, p.shape ≠ .extend a b c d := by
  intro a b c d h
  cases ps with
  | nil =>
    injection hp with hp
    rw [← hp, hf] at h
    cases h
  | cons q ps =>
    injection hp with hp
    rw [← hp] at h
    simp [Body, h] at hb

/-- What is below a map field is not its key. -/
def NotKey (ps : List Node) (below : List (Entry D)) : Prop :=
  ∀ n ∈ ps.head?, ∀ a b c d keyId f, n.shape = .mapField a b c d keyId f → isKey below keyId = false

theorem notKey_of {n : Node} {ps : List Node} {below : List (Entry D)} (h : ∀ a b c d e f, n.shape ≠ .mapField a b c d e f) :
    NotKey (n :: ps) below := by
  intro m hm a b c d k f hs
  simp only [List.head?_cons, Option.mem_def, Option.some.injEq] at hm
  subst hm
  exact absurd hs (h _ _ _ _ _ _)

theorem climb_message {S : Schema D} {file n : Node} {ps : List Node} (below : List (Entry D)) (name : Name)
    (hf : file.shape = .file) (hb : Body ps) (hg : ∀ p ∈ ps.head?, ∀ a, p.shape ≠ .group a)
    (hn : n.shape = .message name ∨ n.shape = .group name) :
    climb S below (n :: (ps ++ [file])) = if ps = [] then
      top n below (S.messages S.root name) else climb S (⟨n, none⟩ :: below) (ps ++ [file]) := by
  cases ps with
  | nil =>
    obtain ⟨i, a, b, sh⟩ := file
    simp only at hf
    subst hf
    rcases hn with hn | hn <;> simp only [List.nil_append, climb, hn, isMessage] <;> simp
  | cons p ps =>
    obtain ⟨i, a, b, sh⟩ := p
    have : ∃ m, sh = .message m := by
      cases sh <;> simp [Body] at hb
      · exact ⟨_, rfl⟩
      · exact absurd rfl (hg _ rfl _)
    obtain ⟨m, rfl⟩ := this
    conv => lhs; unfold climb
    rcases hn with hn | hn <;> simp only [List.cons_append, hn, isMessage] <;> simp


theorem climb_enum {S : Schema D} {file n : Node} {ps : List Node} (below : List (Entry D)) (name : Name) (nameId : Nat)
    (hf : file.shape = .file) (hb : Body ps) (hg : ∀ p ∈ ps.head?, ∀ a, p.shape ≠ .group a)
    (hn : n.shape = .enum name nameId) :
    climb S below (n :: (ps ++ [file])) = if ps = [] then top n below (S.enums S.root name)
      else climb S (⟨n, none⟩ :: below) (ps ++ [file]) := by
  cases ps with
  | nil =>
    obtain ⟨i, a, b, sh⟩ := file
    simp only at hf
    subst hf
    simp only [List.nil_append, climb, hn, isMessage]
    simp
  | cons p ps =>
    obtain ⟨i, a, b, sh⟩ := p
    have : ∃ m, sh = .message m := by
      cases sh <;> simp [Body] at hb
      · exact ⟨_, rfl⟩
      · exact absurd rfl (hg _ rfl _)
    obtain ⟨m, rfl⟩ := this
    conv => lhs; unfold climb
    simp only [List.cons_append, hn, isMessage]
    simp

theorem climb_map {S : Schema D} {file n : Node} {ps : List Node} (below : List (Entry D)) (name : Name) (a b c k : Nat)
    (value : Name) (hb : Fields ps)
    (hn : n.shape = .mapField name a b c k value) (hk : NotKey (n :: ps) below) (hp : Placed S (n :: ps)) :
    climb S below (n :: (ps ++ [file])) = climb S (⟨n, none⟩ :: below) (ps ++ [file]) := by
  obtain ⟨p, ps, rfl⟩ : ∃ p q, ps = p :: q := by
    cases ps with
    | nil => exact hb.elim
    | cons p q => exact ⟨p, q, rfl⟩
  have key : isMessage (ps ++ [file]).head? = true ∨ S.messages S.root (trimDot value) = none := by
    have := hp.2
    rw [hn] at this
    cases ps with
    | nil => exact .inr this
    | cons q qs =>
      obtain ⟨i, x, y, sh⟩ := q
      cases sh <;> first | exact .inr this | exact .inl rfl
  conv => lhs; unfold climb
  simp only [List.cons_append, hn]
  rw [if_neg (by rw [hk n rfl _ _ _ _ _ _ hn]; simp)]
  rcases key with h | h
  · rw [if_pos h]
  · rw [h]; simp

theorem Placed.no_group {S : Schema D} {n : Node} {ps : List Node} (h : Placed S (n :: ps))
    (hn : (∃ a, n.shape = .message a) ∨ (∃ a, n.shape = .group a) ∨ ∃ a b, n.shape = .enum a b) :
    ∀ p ∈ ps.head?, ∀ a, p.shape ≠ .group a := by
  intro p hp a ha
  cases ps with
  | nil => cases hp
  | cons q qs =>
    simp only [List.head?_cons, Option.mem_def, Option.some.injEq] at hp
    subst hp
    obtain ⟨i, x, y, sh⟩ := q
    simp only at ha
    subst ha
    have := h.2
    rcases hn with ⟨a, hn⟩ | ⟨a, hn⟩ | ⟨a, b, hn⟩ <;> rw [hn] at this <;> exact this

theorem Body.notKey {ps : List Node} (hb : Body ps) (below : List (Entry D)) : NotKey ps below := by
  cases ps with
  | nil => intro n hn; cases hn
  | cons p ps =>
    refine notKey_of ?_
    intro a b c d e f h
    simp [Body, h] at hb

/-- The lookup reaches every declaration with its descriptor. -/
theorem reach_decl {S : Schema D} (hT : Typed S) {file : Node} (hf : file.shape = .file) {ps : List Node} {d : D}
    (h : Decl S ps d) : ∀ below : List (Entry D), Placed S ps → NotKey ps below → Reached S file ps d below := by
  induction h with
  | file => intro below _ _; exact .file S file below
  | @message ps c n name d h hb hn hd ih =>
    intro below hp _
    have hc := climb_message (S := S) below name hf hb (hp.no_group (.inl ⟨_, hn⟩)) (.inl hn)
    by_cases he : ps = []
    · subst he
      rw [if_pos rfl, ← h.root, hd] at hc
      exact .top hc (by simp [hn])
    · rw [if_neg he] at hc
      refine (ih _ hp.1 (hb.notKey _)).push hc ?_
      intro p hp'
      have hs := h.sort_body hT hb
      rw [if_neg he] at hs
      simp [step, hs, stepMessage, hn, hd]
  | @group ps c n name d h hb hn hd ih =>
    intro below hp _
    have hc := climb_message (S := S) below name hf hb.body.1 (hp.no_group (.inr (.inl ⟨_, hn⟩))) (.inr hn)
    rw [if_neg hb.body.2] at hc
    refine (ih _ hp.1 (hb.body.1.notKey _)).push hc ?_
    intro p hp'
    simp [step, h.sort_fields hT hb, stepMessage, hn, hd]
  | @enum ps c n name nameId d h hb hn hd ih =>
    intro below hp _
    have hc := climb_enum (S := S) below name nameId hf hb (hp.no_group (.inr (.inr ⟨_, _, hn⟩))) hn
    by_cases he : ps = []
    · subst he
      rw [if_pos rfl, ← h.root, hd] at hc
      exact .top hc (by simp [hn])
    · rw [if_neg he] at hc
      refine (ih _ hp.1 (hb.notKey _)).push hc ?_
      intro p hp'
      have hs := h.sort_body hT hb
      rw [if_neg he] at hs
      simp [step, hs, stepMessage, hn, hd]
  | @field ps c n name nameId first last ids d h hb hn hd hm ih =>
    intro below hp _
    refine (ih _ hp.1 (hb.body.1.notKey _)).push (climb_push S file n ps below (by simp [hn, pushed])) ?_
    intro p hp'
    have := hb.body.1.not_extend hf hp'
    simp only [step, h.sort_fields hT hb, stepMessage, hn]
    rw [if_neg (by simp), hd]
  | @mapField ps c n name nameId first last keyId value d h hb hn hd ih =>
    intro below hp hk
    refine (ih _ hp.1 (hb.body.1.notKey _)).push (climb_map below name _ _ _ _ value hb hn hk hp) ?_
    intro p hp'
    simp [step, h.sort_fields hT hb, stepMessage, hn, hd]
  | @oneof ps c n name d h hb hn hd ih =>
    intro below hp _
    refine (ih _ hp.1 (hb.body.1.notKey _)).push (climb_push S file n ps below (by simp [hn, pushed])) ?_
    intro p hp'
    simp [step, h.sort_fields hT hb, stepMessage, hn, hd]
  | @oneofField ps c o oname n name nameId first last ids d h ho hn hd hm ih =>
    intro below hp _
    refine (ih _ hp.1 (notKey_of (by simp [ho]))).push (climb_push S file n _ below (by simp [hn, pushed])) ?_
    intro p hp'
    have hs : S.sort c = .oneof := by
      cases h <;> simp_all
      exact hT.oneofs (by assumption)
    simp [step, hs, stepOneof, hn, hd]
  | @extension ps c x extendee xf xl xe n name nameId first last ids d h hb hx hn hd ih =>
    intro below hp _
    have hs := h.sort_body hT hb
    have r1 : Reached S file (x :: ps) c (⟨n, none⟩ :: below) := by
      refine (ih _ hp.1.1 (hb.notKey _)).push (climb_push S file x _ _ (by simp [hx, pushed])) ?_
      intro p hp'
      by_cases he : ps = []
      · rw [if_pos he] at hs
        simp [step, hs, stepFile, hx]
      · rw [if_neg he] at hs
        simp [step, hs, stepMessage, hx]
    refine r1.push (climb_push S file n _ below (by simp [hn, pushed])) ?_
    intro p hp'
    simp only [List.cons_append, List.head?_cons, Option.some.injEq] at hp'
    subst hp'
    by_cases he : ps = []
    · rw [if_pos he] at hs
      simp [step, hs, stepFile, hn, hd]
    · rw [if_neg he] at hs
      simp [step, hs, stepMessage, hn, hd, hx]
  | @enumValue ps c e ename enameId n name d h he hn hd ih =>
    intro below hp _
    refine (ih _ hp.1 (notKey_of (by simp [he]))).push (climb_push S file n _ below (by simp [hn, pushed])) ?_
    intro p hp'
    have hs : S.sort c = .enum := by
      cases h <;> simp_all
      exact hT.enums (by assumption)
    simp [step, hs, stepEnum, hn, hd]
  | @service n name d hn hd =>
    intro below hp _
    refine .top ?_ (by simp [hn])
    simp [climb, hn, hd, top]
  | @rpc ps c s sname n name input output d h hs hn hd ih =>
    intro below hp _
    refine (ih _ hp.1 (notKey_of (by simp [hs]))).push (climb_push S file n _ below (by simp [hn, pushed])) ?_
    intro p hp'
    have hs : S.sort c = .service := by
      cases h <;> simp_all
      exact hT.services (by assumption)
    simp [step, hs, stepService, hn, hd]

/-! ### Literals -/

/-- The lookup reaches the literals in an option with the descriptor of their type. -/
theorem reach_lit {S : Schema D} (hT : Typed S) (hX : ∀ {n d}, S.literalExtension n = some d → S.sort d = .field) {file : Node}
    {ps : List Node} {m : D} (h : Lit S ps m) : ∀ below : List (Entry D), Reached S file ps m below ∧ S.sort m = .message := by
  have sets : ∀ {ps m n f}, (∀ below : List (Entry D), Reached S file ps m below ∧ S.sort m = .message) → Sets S m n f →
      ∀ below, Reached S file (n :: ps) f below ∧ S.sort f = .field := by
    intro ps m n f ih hn below
    cases hn with
    | @name name val hn hd =>
      refine ⟨(ih _).1.push (climb_push S file n _ below (by simp [hn, pushed])) ?_, hT.fields hd⟩
      intro p hp
      simp [step, (ih []).2, stepMessage, hn, hd]
    | @extension name val hn hd =>
      refine ⟨(ih _).1.push (climb_push S file n _ below (by simp [hn, pushed])) ?_, hX hd⟩
      intro p hp
      simp [step, (ih []).2, stepMessage, hn, hd]
  induction h with
  | @option ps o l f m ho hl hf hk hm =>
    intro below
    refine ⟨Reached.push (c := m) (.top ?_ (by simp [ho])) (climb_push S file l _ below (by simp [hl, pushed])) ?_, hT.message hm⟩
    · obtain ⟨p, rest, hp⟩ : ∃ p rest, ps ++ [file] = p :: rest := by cases ps <;> exact ⟨_, _, rfl⟩
      simp [hp, climb, ho, hf, hk, hm, top]
    · intro p hp
      simp [step, hT.message hm, stepMessage, hl]
  | @field ps n l f m m' h hn hl hm ih =>
    intro below
    refine ⟨(sets ih hn _).1.push (climb_push S file l _ below (by simp [hl, pushed])) ?_, hT.message hm⟩
    intro p hp
    simp [step, (sets ih hn []).2, stepField, hl, hm]
  | @list ps n a l f m m' h hn ha hl hm ih =>
    intro below
    have h2 : Reached S file (a :: n :: ps) f (⟨l, none⟩ :: below) := by
      refine (sets ih hn _).1.push (climb_push S file a _ _ (by simp [ha, pushed])) ?_
      intro p hp
      simp [step, (sets ih hn []).2, stepField, ha]
    refine ⟨h2.push (climb_push S file l _ below (by simp [hl, pushed])) ?_, hT.message hm⟩
    intro p hp
    simp [step, (sets ih hn []).2, stepField, hl, hm]
  | @any ps n l name val m t h hn hl ht ih =>
    intro below
    have h2 : Reached S file (n :: ps) t (⟨l, none⟩ :: below) := by
      refine (ih _).1.push (climb_push S file n _ _ (by simp [hn, pushed])) ?_
      intro p hp
      simp [step, (ih []).2, stepMessage, hn, ht]
    refine ⟨h2.push (climb_push S file l _ below (by simp [hl, pushed])) ?_, hT.anyType ht⟩
    intro p hp
    simp [step, hT.anyType ht, stepMessage, hl]

/-- The field that is set in a literal. -/
theorem reach_sets {S : Schema D} (hT : Typed S) (hX : ∀ {n d}, S.literalExtension n = some d → S.sort d = .field) {file n : Node}
    {ps : List Node} {m f : D} (h : Lit S ps m) (hn : Sets S m n f) (below : List (Entry D)) :
    Reached S file (n :: ps) f below ∧ S.sort f = .field := by
  have ih := reach_lit hT hX (file := file) h
  cases hn with
  | @name name val hn hd =>
    refine ⟨(ih _).1.push (climb_push S file n _ below (by simp [hn, pushed])) ?_, hT.fields hd⟩
    intro p hp
    simp [step, (ih []).2, stepMessage, hn, hd]
  | @extension name val hn hd =>
    refine ⟨(ih _).1.push (climb_push S file n _ below (by simp [hn, pushed])) ?_, hX hd⟩
    intro p hp
    simp [step, (ih []).2, stepMessage, hn, hd]

/-! ### The result -/

/-- When the whole path is reached, its descriptor is the result. -/
theorem search_of_reached {S : Schema D} {file n : Node} (hf : file.shape = .file) {ps : List Node} {d : D}
    (h : Reached S file (n :: ps) d []) :
    search S file (n :: ps).reverse = .found d (spot (n :: ps)) := by
  obtain ⟨ents, above, n', h1, h2, h3, h4, h5, h6⟩ := h
  simp only [List.cons_append, List.head?_cons, Option.some.injEq] at h3
  subst h3
  have hne : ents ≠ [] := fun he => by simpa using h4 he
  unfold search
  rw [if_neg (by simp), List.reverse_reverse, h1, List.append_nil]
  simp only
  have slow : (match resolve S [] (⟨file, some S.root⟩ :: ents) with
        | .nothing => Result.nothing
        | .error => .error
        | .panic => .panic
        | .stack es => answer es) = .found d (spot (n :: ps)) := by
    rw [List.append_nil] at h2
    rw [h2]
    simp only [resolve, answer]
    congr 1
    cases hs : n.shape with
    | ident name =>
      obtain ⟨⟨qi, qa, qb, sh⟩, qs, ds, hq, ha⟩ := h6 name hs (by simp)
      rw [ha]
      cases ps with
      | nil =>
        simp only [List.tail_cons, List.nil_append, List.cons.injEq] at hq
        rw [hq.1] at hf
        simp only at hf
        subst hf
        rfl
      | cons c cs =>
        simp only [List.tail_cons, List.cons_append, List.cons.injEq] at hq
        rw [hq.1]
        simp only [spot, hs]
        cases sh <;> rfl
    | _ =>
      cases ps with
      | nil => rfl
      | cons c cs => simp only [spot, hs]
  split
  · rename_i m d'
    rcases h5 _ rfl with h | ⟨h, hn⟩
    · cases h
    · simp only [Entry.mk.injEq, Option.some.injEq] at h
      obtain ⟨rfl, rfl⟩ := h
      congr 1
      cases ps with
      | nil => rfl
      | cons c cs =>
        simp only [spot]
        split
        · rename_i a _ h _; exact absurd h (hn a)
        · rfl
  · exact slow

end Verif.PathSearch
