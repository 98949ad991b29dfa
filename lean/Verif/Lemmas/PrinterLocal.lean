import Verif.Model.Printer
/-! What the descriptor printer writes does not depend on what has been written before (except for the flags of the writer), and it
only adds to it. -/
namespace Verif.Printer
open Verif.PrintWriter (Writer write)

/-- The function adds a text that depends on the flags of the writer only. -/
structure Local (g : W → W) : Prop where
  ex : ∀ sp n, ∃ x sp' n' q, ∀ o st, g ⟨⟨o, sp, n⟩, st⟩ = ⟨⟨o ++ x, sp', n'⟩, st || q⟩

/-- The same with a result. -/
structure Local2 (g : W → W × Bool) : Prop where
  ex : ∀ sp n, ∃ x sp' n' q b, ∀ o st, g ⟨⟨o, sp, n⟩, st⟩ = (⟨⟨o ++ x, sp', n'⟩, st || q⟩, b)

theorem Local.id : Local (fun w => w) := ⟨fun sp n => ⟨[], sp, n, false, fun o st => by simp⟩⟩

theorem Local.comp {g h : W → W} (hg : Local g) (hh : Local h) : Local (fun w => h (g w)) := by
  constructor; intro sp n
  obtain ⟨x, sp1, n1, q1, h1⟩ := hg.ex sp n
  obtain ⟨y, sp2, n2, q2, h2⟩ := hh.ex sp1 n1
  exact ⟨x ++ y, sp2, n2, q1 || q2, fun o st => by simp only [h1, h2, List.append_assoc, Bool.or_assoc]⟩

theorem Local.comp2 {g : W → W} {h : W → W × Bool} (hg : Local g) (hh : Local2 h) : Local2 (fun w => h (g w)) := by
  constructor; intro sp n
  obtain ⟨x, sp1, n1, q1, h1⟩ := hg.ex sp n
  obtain ⟨y, sp2, n2, q2, b, h2⟩ := hh.ex sp1 n1
  exact ⟨x ++ y, sp2, n2, q1 || q2, b, fun o st => by simp only [h1, h2, List.append_assoc, Bool.or_assoc]⟩

/-- What follows may depend on the result. -/
theorem Local2.then {g : W → W × Bool} {k : Bool → W → W} (hg : Local2 g) (hk : ∀ b, Local (k b)) : Local (fun w => k (g w).2 (g w).1) := by
  constructor; intro sp n
  obtain ⟨x, sp1, n1, q1, b, h1⟩ := hg.ex sp n
  obtain ⟨y, sp2, n2, q2, h2⟩ := (hk b).ex sp1 n1
  exact ⟨x ++ y, sp2, n2, q1 || q2, fun o st => by simp only [h1, h2, List.append_assoc, Bool.or_assoc]⟩

theorem Local2.then2 {g : W → W × Bool} {k : Bool → W → W × Bool} (hg : Local2 g) (hk : ∀ b, Local2 (k b)) :
    Local2 (fun w => k (g w).2 (g w).1) := by
  constructor; intro sp n
  obtain ⟨x, sp1, n1, q1, b, h1⟩ := hg.ex sp n
  obtain ⟨y, sp2, n2, q2, b', h2⟩ := (hk b).ex sp1 n1
  exact ⟨x ++ y, sp2, n2, q1 || q2, b', fun o st => by simp only [h1, h2, List.append_assoc, Bool.or_assoc]⟩

theorem Local.ret {g : W → W} (hg : Local g) (b : Bool) : Local2 (fun w => (g w, b)) := by
  constructor; intro sp n
  obtain ⟨x, sp1, n1, q1, h1⟩ := hg.ex sp n
  exact ⟨x, sp1, n1, q1, b, fun o st => by simp only [h1]⟩

theorem Local2.fst {g : W → W × Bool} (hg : Local2 g) : Local (fun w => (g w).1) :=
  hg.then (k := fun _ w => w) (fun _ => Local.id)

/-- A choice that depends on the flags. -/
theorem Local.cond {p : Bool → Bool → Bool} {g h : W → W} (hg : Local g) (hh : Local h) :
    Local (fun w => if p w.w.space w.w.newline then g w else h w) := by
  constructor; intro sp n
  by_cases hp : p sp n = true
  · obtain ⟨x, a, b, d, e⟩ := hg.ex sp n
    exact ⟨x, a, b, d, fun o st => by simp only [hp, if_true]; exact e o st⟩
  · obtain ⟨x, a, b, d, e⟩ := hh.ex sp n
    exact ⟨x, a, b, d, fun o st => by simp only [hp]; exact e o st⟩

theorem Local.ite {p : Prop} [Decidable p] {g h : W → W} (hg : Local g) (hh : Local h) : Local (fun w => if p then g w else h w) := by
  by_cases hp : p
  · simpa only [if_pos hp] using hg
  · simpa only [if_neg hp] using hh

theorem Local2.ite {p : Prop} [Decidable p] {g h : W → W × Bool} (hg : Local2 g) (hh : Local2 h) :
    Local2 (fun w => if p then g w else h w) := by
  by_cases hp : p
  · simpa only [if_pos hp] using hg
  · simpa only [if_neg hp] using hh

theorem local_put (s : Str) : Local (put s) := by
  constructor; intro sp n
  cases s with
  | nil => exact ⟨[], sp, n, false, fun o st => by simp [put, write]⟩
  | cons c s =>
    refine ⟨PrintWriter.pendingBlank sp c ++ (if decide ((c :: s).getLast? = some ' ') then (c :: s).dropLast else c :: s),
      decide ((c :: s).getLast? = some ' '),
      decide ((if decide ((c :: s).getLast? = some ' ') then (c :: s).dropLast else c :: s).getLast? = some '\n'), false, fun o st => ?_⟩
    simp [put, write]

theorem local_panic : Local panic := ⟨fun sp n => ⟨[], sp, n, true, fun o st => by simp [panic]⟩⟩
theorem local_nl : Local nl := local_put _
theorem local_newLine (b : Bool) : Local (newLine b) := Local.ite Local.id local_nl

theorem local_puts (ss : List Str) : Local (puts ss) := by
  induction ss with
  | nil => exact Local.id
  | cons s ss ih => exact (local_put s).comp ih

variable {c : Cfg} {si : SI}

theorem local_indentW (n : Int) : Local (indentW c n) := local_puts _

theorem local2_comment (t : Str) (ind : Int) (force : Bool) : Local2 (comment c t ind force) := by
  constructor; intro sp n
  have he : ∀ o st, comment c t ind force ⟨⟨o, sp, n⟩, st⟩ =
      match PrintComment.printComment ⟨c.preferMulti, c.indent, n, sp⟩ t ind force with
      | .panic => (panic ⟨⟨o, sp, n⟩, st⟩, false)
      | .ok t b => (put t ⟨⟨o, sp, n⟩, st⟩, b) := fun o st => rfl
  cases hr : PrintComment.printComment ⟨c.preferMulti, c.indent, n, sp⟩ t ind force with
  | panic =>
    obtain ⟨x, a, b, d, e⟩ := local_panic.ex sp n
    exact ⟨x, a, b, d, false, fun o st => by rw [he, hr, ← e o]⟩
  | ok s r =>
    obtain ⟨x, a, b, d, e⟩ := (local_put s).ex sp n
    exact ⟨x, a, b, d, r, fun o st => by rw [he, hr, ← e o]⟩

theorem local_detachedLoop (ind : Int) (ts : List Str) : Local (detachedLoop c ind ts) := by
  induction ts with
  | nil => exact Local.id
  | cons t ts ih =>
    refine Local.comp (g := fun w => afterDetached c ind (comment c t ind true w)) ?_ ih
    exact (local2_comment t ind true).then (k := fun b w => afterDetached c ind (w, b)) fun b => by
      unfold afterDetached
      cases b
      · simp only [Bool.false_eq_true, if_false]
        exact Local.ite (local_put _) (local_nl.comp (local_newLine _))
      · exact local_newLine _

theorem local_leadingComments (l : Loc) (ind : Int) : Local (leadingComments c l ind) := by
  have h1 : Local (fun w => if c.omitDetached then w else detachedLoop c ind l.detached w) := Local.ite Local.id (local_detachedLoop _ _)
  refine h1.comp (h := leadingPart c l ind) ?_
  unfold leadingPart
  refine Local.ite Local.id ?_
  exact (local2_comment l.leading ind true).then (k := fun b w => if b = true then w else if ind ≥ 0 then nl w else put [' '] w)
    fun b => Local.ite Local.id (Local.ite local_nl (local_put _))

theorem local2_trailingComments (l : Loc) (ind : Int) : Local2 (trailingComments c l ind) := by
  unfold trailingComments
  refine Local2.ite (Local.id.ret _) ?_
  exact (local2_comment l.trailing ind c.trailingSeparate).then2
    (k := fun b w => if b = false ∧ ind ≥ 0 then (nl w, true) else if ind < 0 then (put [' '] w, true) else (w, true))
    fun b => Local2.ite (local_nl.ret _) (Local2.ite ((local_put _).ret _) (Local.id.ret _))

theorem local_endLine (ind : Int) : Local (endLine ind) := by
  have := Local.cond (p := fun _ n => decide (ind ≥ 0 ∧ n = false)) local_nl Local.id
  simp only [decide_eq_true_eq] at this
  exact this

theorem local_element (isDesc : Bool) (l : Option Loc) (ind : Int) {el : W → W} (h : Local el) : Local (element c isDesc l ind el) := by
  unfold element
  cases shown c isDesc l with
  | none => exact h.comp (local_endLine ind)
  | some l => exact (((local_leadingComments l ind).comp h).comp (local2_trailingComments l ind).fst).comp (local_endLine ind)

theorem local_trailer (l : Option Loc) (ind : Int) (want : Bool) : Local (trailer c l ind want) := by
  unfold trailer
  cases l with
  | none => exact Local.id
  | some l =>
    exact (local2_trailingComments l ind).then (k := fun b w => if (b && want && !c.compactTrailing) = true then nl w else w)
      fun b => Local.ite local_nl Local.id

theorem local_blockElement (l : Option Loc) (ind : Int) {el : (Int → Bool → W → W) → W → W}
    (h : ∀ trail, (∀ i b, Local (trail i b)) → Local (el trail)) : Local (blockElement c l ind el) := by
  unfold blockElement
  cases l with
  | none => exact (h _ fun _ _ => Local.id).comp (local_endLine ind)
  | some l => exact ((local_leadingComments l ind).comp (h _ fun i b => local_trailer (some l) i b)).comp (local_endLine ind)

theorem local_elementString (l : Option Loc) (ind : Int) (s : Str) : Local (elementString c l ind s) :=
  local_element false l _ (local_put s)

theorem local_printOption (a : At) (o : Opt) (ind : Int) : Local (printOption c a o ind) := by
  unfold printOption
  refine (local_put _).comp (h := fun w => match o.val with
    | none => panic w
    | some (.scalar v) => put (v.text c) w
    | some (.msg m) => put (maybeCompact c (m.text c a.pk a.sc) ind) w) ?_
  cases o.val with
  | none => exact local_panic
  | some v => cases v <;> exact local_put _

theorem local_optionsLoop (ind : Int) (loc : Nat → Option Loc) {fn : Opt → Bool → W → W} (h : ∀ o b, Local (fn o b)) (more : Bool)
    (os : List Opt) : ∀ i, Local (optionsLoop c ind loc fn more i os) := by
  induction os with
  | nil => exact fun _ => Local.id
  | cons o os ih => exact fun i => (local_element false (loc i) ind (h o _)).comp (ih (i + 1))

theorem local_optionsLong (a : At) (os : List Opt) (path : Path) (ind : Int) : Local (optionsLong c si a os path ind) := by
  refine local_optionsLoop ind _ (fun o b => ?_) false os 0
  exact Local.ite Local.id ((((local_indentW ind).comp (local_put _)).comp (local_printOption a o ind)).comp (local_put _))

theorem local_shortFn (a : At) (expand : Bool) (ind : Int) (o : Opt) (more : Bool) : Local (shortFn c a expand ind o more) := by
  have h1 : Local (fun w => if expand = true then indentW c ind w else w) := Local.ite (local_indentW ind) Local.id
  have h2 := h1.comp (local_printOption (c := c) a o ind)
  exact h2.comp (h := fun w => if more then put (if expand then [',', '\n'] else [',', ' ']) w else w) (Local.ite (local_put _) Local.id)

theorem local_shortLoop (a : At) (os : Opts) (tag : Int) (path : Path) (ind : Int) (expand : Bool) (ks : List Key) :
    Local (shortLoop c si a os tag path ind expand ks) := by
  induction ks with
  | nil => exact Local.id
  | cons k ks ih =>
    cases k with
    | opt t => exact (local_optionsLoop _ _ (fun o b => local_shortFn a expand _ o b) _ _ 0).comp ih
    | _ => exact ih

theorem local_elementsShort (a : At) (os : Opts) (tag : Int) (path : Path) (ind : Int) (expand : Bool) (ks : List Key) :
    Local (elementsShort c si a os tag path ind expand ks) := by
  unfold elementsShort
  exact Local.ite ((((local_put _).comp (local_shortLoop a os tag path _ true ks)).comp (local_indentW _)).comp (local_put _))
    (((local_put _).comp (local_shortLoop a os tag path _ false ks)).comp (local_put _))

theorem local_optionsShort (a : At) (os : Opts) (tag : Int) (path : Path) (ind : Int) : Local (optionsShort c si a os tag path ind) := by
  unfold optionsShort
  refine Local.ite Local.id ?_
  simp only
  refine Local.ite (local_elementsShort ..) ?_
  constructor; intro sp n
  generalize c.sort path (optKeys os) = ks
  obtain ⟨x, sp1, n1, q1, h1⟩ := local_elementsShort (c := c) (si := si) a os tag path ind false ks |>.ex sp n
  obtain ⟨y, sp2, n2, q2, h2⟩ := local_elementsShort (c := c) (si := si) a os tag path ind true ks |>.ex sp n
  obtain ⟨z, sp3, n3, q3, h3⟩ := local_put (if sp = true ∧ x.head? = some ' ' then x.tail else x) |>.ex sp n
  by_cases hl : (x.length : Int) - 3 > (if c.optLength ≤ 0 then 50 else c.optLength)
  · refine ⟨y, sp2, n2, q1 || q2, fun o st => ?_⟩
    simp only [h1, h2, List.nil_append, if_pos hl]
    cases st <;> simp
  · refine ⟨z, sp1, n1, q1, fun o st => ?_⟩
    simp only [h1, List.nil_append, if_neg hl, commit, h3]
    cases st <;> simp

theorem local_match {α : Type} (o : Option α) {g : α → W → W} :
    (∀ a, o = some a → Local (g a)) → Local (fun w => match o with | some a => g a w | none => panic w) := by
  intro h
  cases o with
  | none => exact local_panic
  | some a => exact h a rfl

theorem local_printField (pk sc : QName) {kids : List Kid} (hk : ∀ k ∈ kids, ∀ p i, Local (k.body p i)) (msgTag : Int) (isExt : Bool)
    (f : Field) (path : Path) (ind : Int) : Local (printField c si pk sc kids msgTag isExt f path ind) := by
  unfold printField
  refine local_blockElement _ ind (fun trail htr => ?_)
  refine ((((((((local_indentW ind).comp (h := fun w => if shouldEmitLabel f then elementString c (si.get (path ++ [4])) ind (labelText f ++ [' ']) w else w)
    (Local.ite (local_elementString ..) Local.id)).comp (h := fun w => if f.group?.isSome then put (kw "group ") w else w)
    (Local.ite (local_put _) Local.id)).comp (local_elementString ..)).comp
    (h := fun w => if f.group?.isSome then w else elementString c (si.get (path ++ [1])) ind (f.name ++ [' ']) w)
    (Local.ite Local.id (local_elementString ..))).comp (local_put _)).comp (local_elementString ..)).comp (local_optionsShort ..)).comp
    (h := fun w => match f.group? with
    | none => trail ind false (put [';'] w)
    | some i =>
      let w := trail (ind + 1) true (put ['{', '\n'] w)
      let w := match kids[i]? with
        | some k => k.body (path.take (path.length - 2) ++ [msgTag, (i : Int)]) (ind + 1) w
        | none => panic w
      put ['}', '\n'] (indentW c ind w)) ?_
  cases f.group? with
  | none => exact (local_put _).comp (htr ind false)
  | some i =>
    cases hx : kids[i]? with
    | none =>
      simp only [hx]
      exact ((((local_put _).comp (htr (ind + 1) true)).comp local_panic).comp (local_indentW ind)).comp (local_put _)
    | some k =>
      simp only [hx]
      exact ((((local_put _).comp (htr (ind + 1) true)).comp (hk k (List.mem_of_getElem? hx) _ _)).comp (local_indentW ind)).comp (local_put _)

theorem local_printEnumValue (pk sc : QName) (v : EnumValue) (path : Path) (ind : Int) : Local (printEnumValue c si pk sc v path ind) := by
  unfold printEnumValue
  exact local_element true _ ind ((((((local_indentW ind).comp (local_elementString ..)).comp (local_put _)).comp (local_elementString ..)).comp
    (local_optionsShort ..)).comp (local_put _))

theorem local_items {α : Type} {print : α → W → W} (h : ∀ x, Local (print x)) (xs : List α) : ∀ first, Local (items print first xs) := by
  induction xs with
  | nil => exact fun _ => Local.id
  | cons x xs ih =>
    intro first
    have h1 : Local (fun w => if first then w else put [',', ' '] w) := Local.ite Local.id (local_put _)
    exact (h1.comp (h x)).comp (ih false)

theorem local_printReservedRanges (maxVal : Int) (rs : List (Ranges.Range × Path)) (ind : Int) :
    Local (printReservedRanges c si maxVal rs ind) :=
  (((local_indentW ind).comp (local_put _)).comp (local_items (fun _ => local_element false _ _ (local_put _)) rs true)).comp (local_put _)

theorem local_printReservedNames (ns : List (Literal.Bytes × Path)) (ind : Int) : Local (printReservedNames c si ns ind) :=
  (((local_indentW ind).comp (local_put _)).comp (local_items (fun _ => local_elementString ..) ns true)).comp (local_put _)

theorem local_runSteps {α : Type} (compact : Bool) {one : α → W → W} (ss : List α) (h : ∀ s ∈ ss, Local (one s)) :
    ∀ first, Local (runSteps compact one first ss) := by
  induction ss with
  | nil => exact fun _ => Local.id
  | cons s ss ih =>
    intro first
    have h1 : Local (fun w => if first then w else newLine compact w) := Local.ite Local.id (local_newLine _)
    exact (h1.comp (h s List.mem_cons_self)).comp (ih (fun x hx => h x (List.mem_cons_of_mem _ hx)) false)

theorem local_runEStep (pk sc : QName) (e : Enum) (path : Path) (ind : Int) (s : EStep) : Local (runEStep c si pk sc e path ind s) := by
  cases s with
  | opt t => exact local_optionsLong ..
  | value i =>
    show Local (fun w => runEStep c si pk sc e path ind (.value i) w)
    cases hx : e.values[i]? with
    | none => simp only [runEStep, hx]; exact local_panic
    | some v => simp only [runEStep, hx]; exact local_printEnumValue ..
  | ranges is => exact local_printReservedRanges ..
  | names is => exact local_printReservedNames ..

/-- A declaration with a name and a body. -/
theorem local_named (l nl : Option Loc) (kwText name : Str) (ind : Int) {body : W → W} (hb : Local body) :
    Local (blockElement c l ind (fun trail w =>
      let w := elementString c nl ind (name ++ [' ']) (put kwText (indentW c ind w))
      let w := trail (ind + 1) true (put ['{', '\n'] w)
      put ['}', '\n'] (indentW c ind (body w)))) :=
  local_blockElement l ind fun _ htr => ((((((local_indentW ind).comp (local_put _)).comp (local_elementString ..)).comp (local_put _)).comp
    (htr (ind + 1) true)).comp hb).comp ((local_indentW ind).comp (local_put _))

theorem local_printEnum (pk sc : QName) (e : Enum) (path : Path) (ind : Int) : Local (printEnum c si pk sc e path ind) := by
  unfold printEnum
  exact local_named _ _ _ _ ind (local_runSteps _ _ (fun s _ => local_runEStep pk sc e path (ind + 1) s) true)

theorem local_printExtensions (pk sc : QName) {kids : List Kid} (hk : ∀ k ∈ kids, ∀ p i, Local (k.body p i)) (msgTag : Int) (exts : List Ext)
    (path : Path) (ind : Int) (is : List Nat) : Local (printExtensions c si pk sc kids msgTag exts path ind is) := by
  unfold printExtensions
  cases is with
  | nil => exact local_panic
  | cons i is =>
    cases hx : exts[i]? with
    | none => simp only [hx]; exact local_panic
    | some x =>
    simp only [hx]
    refine (((((((?_ : Local (fun w => match extLoc si exts path i with | some l => leadingComments c l ind w | none => w)).comp
      (local_indentW ind)).comp (local_put _)).comp (local_elementString ..)).comp (local_put _)).comp
      (h := fun w => match extLoc si exts path i with
        | some l =>
          let r := trailingComments c l (ind + 1) w
          if r.2 && !c.compactTrailing then nl r.1 else r.1
        | none => w) ?_).comp (h := extFields c si pk sc kids msgTag exts path (ind + 1) (i :: is)) ?_).comp
      ((local_indentW ind).comp (local_put _))
    · cases extLoc si exts path i with
      | none => exact Local.id
      | some l => exact local_leadingComments l ind
    · cases extLoc si exts path i with
      | none => exact Local.id
      | some l =>
        exact (local2_trailingComments l (ind + 1)).then (k := fun b w => if (b && !c.compactTrailing) = true then nl w else w)
          fun b => Local.ite local_nl Local.id
    · exact local_runSteps _ _ (fun j _ => by
        cases hy : exts[j]? with
        | none => exact local_panic
        | some y => exact local_printField pk sc hk ..) true

theorem local_runOStep (pk sc : QName) {kids : List Kid} (hk : ∀ k ∈ kids, ∀ p i, Local (k.body p i)) (h : MHead) (o : Oneof)
    (parent oopath : Path) (ind : Int) (k : Key) : Local (runOStep c si pk sc kids h o parent oopath ind k) := by
  cases k with
  | opt t => exact local_optionsLong ..
  | sib i =>
    show Local (fun w => runOStep c si pk sc kids h o parent oopath ind (.sib i) w)
    cases hx : h.fields[i]? with
    | none => simp only [runOStep, hx]; exact local_panic
    | some f => simp only [runOStep, hx]; exact local_printField pk sc hk ..
  | _ => exact Local.id

theorem local_printOneOf (pk sc : QName) {kids : List Kid} (hk : ∀ k ∈ kids, ∀ p i, Local (k.body p i)) (h : MHead) (j : Nat)
    (is : List Nat) (parent : Path) (ind : Int) : Local (printOneOf c si pk sc kids h j is parent ind) := by
  unfold printOneOf
  cases h.oneofs[j]? with
  | none => exact local_panic
  | some o => exact local_named _ _ _ _ ind (local_runSteps _ _ (fun k _ => local_runOStep pk sc hk h o parent _ (ind + 1) k) true)

theorem local_printExtensionRanges (pk sc : QName) (maxTag : Int) (rs : List (Ranges.Range × Path)) (os : Opts) (path : Path) (ind : Int) :
    Local (printExtensionRanges c si pk sc maxTag rs os path ind) :=
  ((((local_indentW ind).comp (local_put _)).comp (local_items (fun _ => local_element true _ _ (local_put _)) rs true)).comp
    (local_optionsShort ..)).comp (local_put _)

theorem local_printMessage {k : Kid} (hk : ∀ p i, Local (k.body p i)) (path : Path) (ind : Int) : Local (printMessage c si k path ind) :=
  local_named _ _ _ _ ind (hk path (ind + 1))

theorem local_runStep (pk sc : QName) {kids : List Kid} (hk : ∀ k ∈ kids, ∀ p i, Local (k.body p i)) (h : MHead) (path : Path) (ind : Int)
    (s : Step) : Local (runStep c si pk sc kids h path ind s) := by
  cases s with
  | opt t => exact local_optionsLong ..
  | field i =>
    show Local (fun w => runStep c si pk sc kids h path ind (.field i) w)
    cases hx : h.fields[i]? with
    | none => simp only [runStep, hx]; exact local_panic
    | some f => simp only [runStep, hx]; exact local_printField pk sc hk ..
  | oneof j is => exact local_printOneOf pk sc hk ..
  | exts is => exact local_printExtensions pk sc hk ..
  | msg i =>
    show Local (fun w => runStep c si pk sc kids h path ind (.msg i) w)
    cases hx : kids[i]? with
    | none => simp only [runStep, hx]; exact local_panic
    | some k => simp only [runStep, hx]; exact local_printMessage (hk k (List.mem_of_getElem? hx)) ..
  | enum i =>
    show Local (fun w => runStep c si pk sc kids h path ind (.enum i) w)
    cases hx : h.enums[i]? with
    | none => simp only [runStep, hx]; exact local_panic
    | some e => simp only [runStep, hx]; exact local_printEnum ..
  | extRanges is => exact local_printExtensionRanges ..
  | ranges is => exact local_printReservedRanges ..
  | names is => exact local_printReservedNames ..
  | _ => exact Local.id

theorem local_printMessageBody (pk sc : QName) {kids : List Kid} (hk : ∀ k ∈ kids, ∀ p i, Local (k.body p i)) (h : MHead) (path : Path)
    (ind : Int) : Local (printMessageBody c si pk sc kids h path ind) := by
  unfold printMessageBody
  exact Local.ite local_panic (local_runSteps _ _ (fun s _ => local_runStep pk sc hk h path ind s) _)

mutual
theorem local_kid (pk : QName) : ∀ (m : Msg) (sc : QName) (p : Path) (i : Int), Local ((m.kid c si pk sc).body p i)
  | .mk h ms, sc, p, i => by
    rw [Msg.kid]
    exact local_printMessageBody pk _ (local_kids pk ms _) h p i
theorem local_kids (pk : QName) : ∀ (ms : List Msg) (sc : QName), ∀ k ∈ Msg.kids c si pk sc ms, ∀ p i, Local (k.body p i)
  | [], sc, k, hk => by rw [Msg.kids] at hk; cases hk
  | m :: ms, sc, k, hk => by
    rw [Msg.kids] at hk
    rcases List.mem_cons.1 hk with rfl | hk
    · exact local_kid pk m sc
    · exact local_kids pk ms sc k hk
end

theorem local_printMethod (pk sc : QName) (m : Method) (path : Path) (ind : Int) : Local (printMethod c si pk sc m path ind) := by
  unfold printMethod
  refine local_blockElement _ ind fun trail htr => ?_
  by_cases he : m.opts.isEmpty = true
  · simp only [he, if_true]
    exact ((((((((local_indentW ind).comp (local_put _)).comp (local_elementString ..)).comp (local_put _)).comp (local_elementString ..)).comp
      (local_put _)).comp (local_elementString ..)).comp (local_put _)).comp ((local_put _).comp (htr _ _))
  simp only [he]
  refine ((((((((local_indentW ind).comp (local_put _)).comp (local_elementString ..)).comp (local_put _)).comp (local_elementString ..)).comp
    (local_put _)).comp (local_elementString ..)).comp (local_put _)).comp
    ((((local_put _).comp (htr _ _)).comp (local_runSteps _ _ (fun k _ => ?_) true)).comp ((local_indentW ind).comp (local_put _)))
  cases k with
  | opt t => exact local_optionsLong ..
  | _ => exact Local.id

theorem local_printService (pk : QName) (s : Service) (path : Path) (ind : Int) : Local (printService c si pk s path ind) := by
  unfold printService
  refine local_named _ _ _ _ ind (local_runSteps _ _ (fun k _ => ?_) true)
  cases k with
  | opt t => exact local_optionsLong ..
  | method i =>
    cases hx : s.methods[i]? with
    | none => simp only [hx]; exact local_panic
    | some m => simp only [hx]; exact local_printMethod ..
  | _ => exact Local.id

theorem local_runFStep (f : File) {kids : List Kid} (hk : ∀ k ∈ kids, ∀ p i, Local (k.body p i)) (s : Step) :
    Local (runFStep c si f kids s) := by
  cases s with
  | pkg => exact local_element _ _ _ (local_put _)
  | dep i =>
    show Local (fun w => runFStep c si f kids (.dep i) w)
    cases hx : f.imports[i]? with
    | none => simp only [runFStep, hx]; exact local_panic
    | some e => simp only [runFStep, hx]; exact local_element _ _ _ (local_put _)
  | opt t => exact local_optionsLong ..
  | msg i =>
    show Local (fun w => runFStep c si f kids (.msg i) w)
    cases hx : kids[i]? with
    | none => simp only [runFStep, hx]; exact local_panic
    | some k => simp only [runFStep, hx]; exact local_printMessage (hk k (List.mem_of_getElem? hx)) ..
  | enum i =>
    show Local (fun w => runFStep c si f kids (.enum i) w)
    cases hx : f.enums[i]? with
    | none => simp only [runFStep, hx]; exact local_panic
    | some e => simp only [runFStep, hx]; exact local_printEnum ..
  | svc i =>
    show Local (fun w => runFStep c si f kids (.svc i) w)
    cases hx : f.services[i]? with
    | none => simp only [runFStep, hx]; exact local_panic
    | some e => simp only [runFStep, hx]; exact local_printService ..
  | exts is => exact local_printExtensions _ _ hk ..
  | _ => exact Local.id

end Verif.Printer
