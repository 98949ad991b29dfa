import Verif.Spec.Outline

/-!
# Lemmas on the outline of a document
-/
namespace Verif.Outline

theorem shown_append (path : List Str) (a b : List Symbol) : shown path (a ++ b) = shown path a ++ shown path b := by
  induction a with
  | nil => rfl
  | cons s rest ih => simp [shown, ih]

theorem shown_one (path : List Str) (s : Symbol) : shown path [s] = shownOne path s := by simp [shown]

theorem enumMembers_cons (d : Decl) (rest : List Decl) : enumMembers (d :: rest) = enumMembers [d] ++ enumMembers rest := by
  cases d <;> rfl

theorem serviceMethods_cons (d : Decl) (rest : List Decl) : serviceMethods (d :: rest) = serviceMethods [d] ++ serviceMethods rest := by
  cases d <;> rfl

theorem extendSymbols_cons (e : Str) (d : Decl) (rest : List Decl) :
    extendSymbols e (d :: rest) = extendSymbols e [d] ++ extendSymbols e rest := by
  cases d <;> try rfl
  simp only [extendSymbols]
  split <;> rfl

theorem fileSymbols_cons (d : Decl) (rest : List Decl) : fileSymbols (d :: rest) = fileSymbols [d] ++ fileSymbols rest := by
  cases d <;> simp [fileSymbols]

/-! ## Nothing else is shown -/

theorem enumMembers_sublist (path : List Str) (decls : List Decl) : (shown path (enumMembers decls)).Sublist (declared path none decls) := by
  induction decls with
  | nil => exact .slnil
  | cons d rest ih =>
    rw [enumMembers_cons, shown_append, declared]
    refine List.Sublist.append ?_ ih
    cases d <;> first | exact List.nil_sublist _ | exact List.Sublist.refl _

theorem serviceMethods_sublist (path : List Str) (decls : List Decl) :
    (shown path (serviceMethods decls)).Sublist (declared path none decls) := by
  induction decls with
  | nil => exact .slnil
  | cons d rest ih =>
    rw [serviceMethods_cons, shown_append, declared]
    refine List.Sublist.append ?_ ih
    cases d
    case rpc info name input output => cases input <;> cases output <;> exact List.Sublist.refl _
    all_goals exact List.nil_sublist _

theorem extendSymbols_sublist (path : List Str) (e : Str) (decls : List Decl) :
    (shown path (extendSymbols e decls)).Sublist (declared path (some e) decls) := by
  induction decls with
  | nil => exact .slnil
  | cons d rest ih =>
    rw [extendSymbols_cons, shown_append, declared]
    refine List.Sublist.append ?_ ih
    cases d
    case field info name type inc => cases inc <;> exact List.Sublist.refl _
    all_goals exact List.nil_sublist _

mutual
theorem messageChild_sublist (path : List Str) : ∀ d : Decl, (shown path (messageChild d)).Sublist (declaredOne path none d)
  | .field _ _ _ inc => by cases inc <;> exact List.Sublist.refl _
  | .mapField _ _ _ _ => List.Sublist.refl _
  | .message _ name decls => by
    rw [messageChild, shown_one, shownOne, declaredOne]
    exact .cons_cons _ (messageChildren_sublist (path ++ [name.text]) decls)
  | .enum _ name decls => by
    rw [messageChild, enumSymbols, shown_one, shownOne, declaredOne]
    exact .cons_cons _ (enumMembers_sublist _ _)
  | .extend _ e decls => extendSymbols_sublist _ _ _
  | .group _ _ _ => List.nil_sublist _
  | .oneof _ _ _ => List.nil_sublist _
  | .enumValue _ _ => List.nil_sublist _
  | .service _ _ _ => List.nil_sublist _
  | .rpc _ _ _ _ => List.nil_sublist _
  | .other _ => List.nil_sublist _

theorem messageChildren_sublist (path : List Str) : ∀ decls : List Decl,
    (shown path (messageChildren decls)).Sublist (declared path none decls)
  | [] => .slnil
  | d :: rest => by
    rw [messageChildren, shown_append, declared]
    exact (messageChild_sublist path d).append (messageChildren_sublist path rest)
end

theorem fileSymbols_sublist (path : List Str) (decls : List Decl) :
    (shown path (fileSymbols decls)).Sublist (declared path none decls) := by
  induction decls with
  | nil => exact .slnil
  | cons d rest ih =>
    rw [fileSymbols_cons, shown_append, declared]
    refine List.Sublist.append ?_ ih
    cases d
    case message info name decls =>
      simp only [fileSymbols, messageSymbols, List.append_nil, shown_one, shownOne, declaredOne]
      exact .cons_cons _ (messageChildren_sublist _ _)
    case enum info name decls =>
      simp only [fileSymbols, enumSymbols, List.append_nil, shown_one, shownOne, declaredOne]
      exact .cons_cons _ (enumMembers_sublist _ _)
    case service info name decls =>
      simp only [fileSymbols, serviceSymbols, List.append_nil, shown_one, shownOne, declaredOne]
      exact .cons_cons _ (serviceMethods_sublist _ _)
    case extend info e decls =>
      simp only [fileSymbols, List.append_nil, declaredOne]
      exact extendSymbols_sublist _ _ _
    all_goals exact List.nil_sublist _

/-! ## Everything is shown -/

theorem enumMembers_eq (path : List Str) (decls : List Decl) (h : Grammatical .enum decls) :
    shown path (enumMembers decls) = declared path none decls := by
  induction decls with
  | nil => rfl
  | cons d rest ih =>
    rw [enumMembers_cons, shown_append, declared, ih h.2]
    congr 1
    replace h := h.1
    cases d <;> first | rfl | (simp [Fits] at h)

theorem serviceMethods_eq (path : List Str) (decls : List Decl) (h : Grammatical .service decls) :
    shown path (serviceMethods decls) = declared path none decls := by
  induction decls with
  | nil => rfl
  | cons d rest ih =>
    rw [serviceMethods_cons, shown_append, declared, ih h.2]
    congr 1
    replace h := h.1
    cases d
    case rpc info name input output => cases input <;> cases output <;> rfl
    all_goals first | rfl | (simp [Fits] at h)

theorem extendSymbols_eq (path : List Str) (e : Str) (decls : List Decl) (h : Grammatical .extend decls) (hf : Flat decls) :
    shown path (extendSymbols e decls) = declared path (some e) decls := by
  induction decls with
  | nil => rfl
  | cons d rest ih =>
    rw [extendSymbols_cons, shown_append, declared, ih h.2 hf.2]
    congr 1
    replace h := h.1
    replace hf := hf.1
    cases d
    case field info name type inc => cases inc <;> rfl
    case group => exact hf.elim
    all_goals first | rfl | (simp [Fits] at h)

mutual
theorem messageChild_eq (path : List Str) : ∀ d : Decl, Fits .message d → FlatOne d →
    shown path (messageChild d) = declaredOne path none d
  | .field _ _ _ inc, _, _ => by cases inc <;> rfl
  | .mapField _ _ _ _, _, _ => rfl
  | .message _ name decls, h, hf => by
    rw [messageChild, shown_one, shownOne, declaredOne, messageChildren_eq (path ++ [name.text]) decls h.2 hf]
    rfl
  | .enum _ name decls, h, _ => by
    rw [messageChild, enumSymbols, shown_one, shownOne, declaredOne, enumMembers_eq _ _ h.2]
    rfl
  | .extend _ e decls, h, hf => extendSymbols_eq _ _ _ h.2 hf
  | .group _ _ _, _, hf => hf.elim
  | .oneof _ _ _, _, hf => hf.elim
  | .enumValue _ _, h, _ => nomatch h
  | .service _ _ _, h, _ => nomatch h.1
  | .rpc _ _ _ _, h, _ => nomatch h
  | .other _, _, _ => rfl

theorem messageChildren_eq (path : List Str) : ∀ decls : List Decl, Grammatical .message decls → Flat decls →
    shown path (messageChildren decls) = declared path none decls
  | [], _, _ => rfl
  | d :: rest, h, hf => by
    rw [messageChildren, shown_append, declared, messageChild_eq path d h.1 hf.1, messageChildren_eq path rest h.2 hf.2]
end

theorem fileSymbols_eq (path : List Str) (decls : List Decl) (h : Grammatical .file decls) (hf : Flat decls) :
    shown path (fileSymbols decls) = declared path none decls := by
  induction decls with
  | nil => rfl
  | cons d rest ih =>
    rw [fileSymbols_cons, shown_append, declared, ih h.2 hf.2]
    congr 1
    replace h := h.1
    replace hf := hf.1
    cases d
    case message info name decls =>
      simp only [fileSymbols, messageSymbols, List.append_nil, shown_one, shownOne, declaredOne, messageChildren_eq _ _ h.2 hf, item]
    case enum info name decls =>
      simp only [fileSymbols, enumSymbols, List.append_nil, shown_one, shownOne, declaredOne, enumMembers_eq _ _ h.2, item]
    case service info name decls =>
      simp only [fileSymbols, serviceSymbols, List.append_nil, shown_one, shownOne, declaredOne, serviceMethods_eq _ _ h.2, item]
    case extend info e decls =>
      simp only [fileSymbols, List.append_nil, declaredOne, extendSymbols_eq _ _ _ h.2 hf]
    all_goals first | rfl | exact hf.elim | (simp [Fits] at h)

/-! ## Ranges -/

theorem uint32OfPred_valid {n : Nat} (h : 1 ≤ n ∧ n ≤ 4294967296) : uint32OfPred n = n - 1 := by
  unfold uint32OfPred
  rw [if_neg (by omega)]
  exact Nat.mod_eq_of_lt (by omega)

theorem toPosition_before {p q : SrcPos} (hp : p.Valid) (hq : q.Valid) (h : p.before q) : (toPosition p).before (toPosition q) := by
  obtain ⟨p1, p2⟩ := hp
  obtain ⟨q1, q2⟩ := hq
  unfold SrcPos.before at h
  unfold Position.before toPosition
  simp only [uint32OfPred_valid p1, uint32OfPred_valid p2, uint32OfPred_valid q1, uint32OfPred_valid q2]
  omega

theorem Info.In.valid {i outer : Info} (h : i.In outer) : i.Valid := ⟨h.1, h.2⟩

theorem toRange_in {i outer : Info} (h : i.In outer) (ho : outer.Valid) : (toRange i).In (toRange outer) :=
  ⟨toPosition_before ho.1 h.1 h.3, toPosition_before h.2 ho.2 h.4⟩

theorem SrcPos.before_trans {p q r : SrcPos} (h1 : p.before q) (h2 : q.before r) : p.before r := by
  unfold SrcPos.before at *; omega

theorem Info.In.trans {i j k : Info} (h1 : i.In j) (h2 : j.In k) : i.In k :=
  ⟨h1.1, h1.2, SrcPos.before_trans h2.3 h1.3, SrcPos.before_trans h1.4 h2.4⟩

theorem nested_append {outer : Range} {a b : List Symbol} (h1 : Nested outer a) (h2 : Nested outer b) : Nested outer (a ++ b) := by
  induction a with
  | nil => exact h2
  | cons s rest ih => exact ⟨h1.1, ih h1.2⟩

theorem nested_one {outer : Info} (ho : outer.Valid) {info : Info} {name : Ident} {detail : Str} {kind : Kind} {children : List Symbol}
    (h1 : info.In outer) (h2 : name.info.In info) (h3 : Nested (toRange info) children) :
    Nested (toRange outer) [.mk name.text detail kind (toRange info) (toRange name.info) children] :=
  ⟨⟨toRange_in h1 ho, toRange_in h2 h1.valid, h3⟩, trivial⟩

theorem laidOne_mono {i outer : Info} (h : i.In outer) {d : Decl} (hl : LaidOne i d) : LaidOne outer d := by
  cases d
  case other => exact Info.In.trans hl h
  all_goals exact ⟨hl.1.trans h, hl.2⟩

theorem laid_mono {i outer : Info} (h : i.In outer) {decls : List Decl} (hl : Laid i decls) : Laid outer decls := by
  induction decls with
  | nil => trivial
  | cons d rest ih => exact ⟨laidOne_mono h hl.1, ih hl.2⟩

theorem enumMembers_nested {outer : Info} (ho : outer.Valid) {decls : List Decl} (h : Laid outer decls) :
    Nested (toRange outer) (enumMembers decls) := by
  induction decls with
  | nil => trivial
  | cons d rest ih =>
    rw [enumMembers_cons]
    refine nested_append ?_ (ih h.2)
    replace h := h.1
    cases d
    case enumValue => exact nested_one ho h.1 h.2 trivial
    all_goals trivial

theorem serviceMethods_nested {outer : Info} (ho : outer.Valid) {decls : List Decl} (h : Laid outer decls) :
    Nested (toRange outer) (serviceMethods decls) := by
  induction decls with
  | nil => trivial
  | cons d rest ih =>
    rw [serviceMethods_cons]
    refine nested_append ?_ (ih h.2)
    replace h := h.1
    cases d
    case rpc => exact nested_one ho h.1 h.2 trivial
    all_goals trivial

theorem extendSymbols_nested {outer : Info} (ho : outer.Valid) (e : Str) {decls : List Decl} (h : Laid outer decls) :
    Nested (toRange outer) (extendSymbols e decls) := by
  induction decls with
  | nil => trivial
  | cons d rest ih =>
    rw [extendSymbols_cons]
    refine nested_append ?_ (ih h.2)
    replace h := h.1
    cases d
    case field info name type inc =>
      cases inc with
      | true => trivial
      | false => exact nested_one ho h.1 h.2 trivial
    all_goals trivial

mutual
theorem messageChild_nested {outer : Info} (ho : outer.Valid) : ∀ d : Decl, LaidOne outer d → Nested (toRange outer) (messageChild d)
  | .field _ _ _ inc, h => by
    cases inc with
    | true => trivial
    | false => exact nested_one ho h.1 h.2 trivial
  | .mapField _ _ _ _, h => nested_one ho h.1 h.2 trivial
  | .message _ _ decls, h => nested_one ho h.1 h.2.1 (messageChildren_nested h.1.valid decls h.2.2)
  | .enum _ _ decls, h => nested_one ho h.1 h.2.1 (enumMembers_nested h.1.valid h.2.2)
  | .extend _ _ _, h => extendSymbols_nested ho _ (laid_mono h.1 h.2)
  | .group _ _ _, _ => trivial
  | .oneof _ _ _, _ => trivial
  | .enumValue _ _, _ => trivial
  | .service _ _ _, _ => trivial
  | .rpc _ _ _ _, _ => trivial
  | .other _, _ => trivial

theorem messageChildren_nested {outer : Info} (ho : outer.Valid) : ∀ decls : List Decl, Laid outer decls →
    Nested (toRange outer) (messageChildren decls)
  | [], _ => trivial
  | d :: rest, h => by
    rw [messageChildren]
    exact nested_append (messageChild_nested ho d h.1) (messageChildren_nested ho rest h.2)
end

theorem fileSymbols_nested {outer : Info} (ho : outer.Valid) {decls : List Decl} (h : Laid outer decls) :
    Nested (toRange outer) (fileSymbols decls) := by
  induction decls with
  | nil => trivial
  | cons d rest ih =>
    rw [fileSymbols_cons]
    refine nested_append ?_ (ih h.2)
    replace h := h.1
    cases d
    case message => exact nested_one ho h.1 h.2.1 (messageChildren_nested h.1.valid _ h.2.2)
    case enum => exact nested_one ho h.1 h.2.1 (enumMembers_nested h.1.valid h.2.2)
    case service => exact nested_one ho h.1 h.2.1 (serviceMethods_nested h.1.valid h.2.2)
    case extend =>
      simp only [fileSymbols, List.append_nil]
      exact extendSymbols_nested ho _ (laid_mono h.1 h.2)
    all_goals trivial

end Verif.Outline
