import Verif.Lemmas.FormatLines
import Verif.Props.ColumnFormat
/-! The rule for columns. -/
namespace Verif.Formatter
open Verif.Lexer Verif.Comment
open Verif.FormatWriter (St)
open Verif.ColumnFormat (Field Elem)

variable {b : Bool} {cfg : Cfg}

/-- A text with the given tokens, after which a blank or a punctuation mark has to follow. -/
def Piece (s : Str) (ts : List Str) : Prop :=
  (lexFrom .idle s).1 ++ done (lexFrom .idle s).2 = ts ∧ Clean (lexFrom .idle s).2

/-- The cells of a field have the given tokens. -/
def FieldLexes (x : Field) (ts : List Str) : Prop :=
  ∃ t0 t1 t2 t3 t4, ts = t0 ++ (t1 ++ (t2 ++ (t3 ++ t4))) ∧ lexFrom .idle x.ctx = (t0, .idle) ∧ Piece x.typeName t1 ∧
    Piece x.fieldName t2 ∧ Piece x.equalsTag t3 ∧ lexFrom .idle x.lineEnd = (t4, .idle) ∧ x.lineEnd.getLast? = some '\n'

theorem lexFrom_spaces (n : Nat) : lexFrom .idle (ColumnFormat.spaces n) = ([], .idle) := lexFrom_blank (BlockComment.blank_spaces n)

theorem piece_spaces {s : Str} {ts : List Str} (h : Piece s ts) {n : Nat} (hn : s ≠ [] → 1 ≤ n) (r : Str) :
    lexFrom .idle (s ++ (ColumnFormat.spaces n ++ r)) = (ts ++ (lexFrom .idle r).1, (lexFrom .idle r).2) := by
  by_cases hs : s = []
  · subst hs
    have : ts = [] := h.1.symm
    subst this
    rw [List.nil_append, lexFrom_append, lexFrom_spaces]
  · have h1 : lexFrom (lexFrom .idle s).2 (ColumnFormat.spaces n) = (done (lexFrom .idle s).2, .idle) := by
      refine lexFrom_blank_clean h.2 (BlockComment.blank_spaces n) ?_
      have := hn hs
      unfold ColumnFormat.spaces
      intro e
      have := congrArg List.length e
      simp at this
      omega
    rw [lexFrom_append, lexFrom_append, h1]
    simp only
    rw [← List.append_assoc, h.1]

theorem piece_hard {s : Str} {ts : List Str} (h : Piece s ts) {c : Char} (hc : hardChar c = true) (r : Str) :
    lexFrom .idle (s ++ c :: r) = (ts ++ (lexFrom .idle (c :: r)).1, (lexFrom .idle (c :: r)).2) := by
  rw [lexFrom_append, lexFrom_hard h.2 hc]
  simp only
  rw [← List.append_assoc, h.1]

theorem strip_lineEnd (x : Field) : lexFrom .idle (ColumnFormat.strip x).lineEnd = lexFrom .idle x.lineEnd ∧
    (x.lineEnd.getLast? = some '\n' → (ColumnFormat.strip x).lineEnd.getLast? = some '\n') := by
  unfold ColumnFormat.strip
  split
  · rename_i t he
    rw [he]
    have h0 : step .idle ' ' = ([], .idle) := by decide
    refine ⟨by simp [lexFrom, h0], ?_⟩
    intro h
    cases t with
    | nil => simp at h
    | cons y t => rw [List.getLast?_cons_cons] at h; exact h
  · exact ⟨rfl, id⟩

theorem gap_pos {s : Str} (n : Nat) : s ≠ [] → 1 ≤ n + ColumnFormat.gap s := by
  intro h
  unfold ColumnFormat.gap
  rw [if_neg (by simpa using h)]
  omega

/-- A field as it is written. -/
theorem lex_writeField {x : Field} {ts : List Str} (h : FieldLexes x ts) (t n q : Nat) :
    lexFrom .idle (ColumnFormat.writeField t n q (ColumnFormat.strip x)) = (ts, .idle) ∧
    (ColumnFormat.writeField t n q (ColumnFormat.strip x)).getLast? = some '\n' := by
  obtain ⟨t0, t1, t2, t3, t4, rfl, h0, h1, h2, h3, h4, h5⟩ := h
  obtain ⟨e1, e2, e3, e4, _⟩ := ColumnFormat.strip_parts x
  obtain ⟨s1, s2⟩ := strip_lineEnd x
  have s2 := s2 h5
  rw [h4] at s1
  unfold ColumnFormat.writeField
  rw [e1, e2, e3, e4]
  have fin : ∀ z : Str, lexFrom .idle (x.equalsTag ++ z) = (t3 ++ t4, .idle) → z.getLast? = some '\n' →
      lexFrom .idle (x.ctx ++ x.typeName ++ ColumnFormat.spaces (t - x.typeName.length + ColumnFormat.gap x.typeName) ++
        x.fieldName ++ ColumnFormat.spaces (n - x.fieldName.length + ColumnFormat.gap x.fieldName) ++ x.equalsTag ++ z) =
        (t0 ++ (t1 ++ (t2 ++ (t3 ++ t4))), .idle) ∧
      (x.ctx ++ x.typeName ++ ColumnFormat.spaces (t - x.typeName.length + ColumnFormat.gap x.typeName) ++
        x.fieldName ++ ColumnFormat.spaces (n - x.fieldName.length + ColumnFormat.gap x.fieldName) ++ x.equalsTag ++ z).getLast? =
        some '\n' := by
    intro z hz hz'
    constructor
    · simp only [List.append_assoc]
      rw [lexFrom_append, h0]
      simp only
      rw [piece_spaces h1 (gap_pos _), piece_spaces h2 (gap_pos _), hz]
    · rw [List.getLast?_append, hz']; rfl
  split
  · rename_i r hr
    rw [hr] at s1 s2 ⊢
    refine fin _ ?_ s2
    rw [piece_hard h3 (by decide), s1]
  · refine fin _ ?_ ?_
    · rw [piece_spaces h3 (gap_pos _), s1]
    · rw [List.getLast?_append, s2]; rfl

theorem lex_fields {xs : List Field} {tss : List (List Str)} (h : List.Forall₂ FieldLexes xs tss) (t n q : Nat) :
    lexFrom .idle ((xs.map ColumnFormat.strip).flatMap (ColumnFormat.writeField t n q)) = (tss.flatten, .idle) := by
  induction h with
  | nil => rfl
  | cons hx _ ih =>
    rw [List.map_cons, List.flatMap_cons, lexFrom_append, (lex_writeField hx t n q).1]
    simp only
    rw [ih, List.flatten_cons]

theorem lex_blocks (bs : List (List Field)) : ∀ (tss : List (List Str)), List.Forall₂ FieldLexes bs.flatten tss →
    lexFrom .idle (bs.flatMap ColumnFormat.writeBlock) = (tss.flatten, .idle) := by
  induction bs with
  | nil => intro tss h; cases h; rfl
  | cons x bs ih =>
    intro tss h
    rw [List.flatten_cons] at h
    have h1 := (List.forall₂_take_append tss x bs.flatten h.flip).flip
    have h2 := (List.forall₂_drop_append tss x bs.flatten h.flip).flip
    rw [List.flatMap_cons, lexFrom_append]
    have e1 : lexFrom .idle (ColumnFormat.writeBlock x) = ((tss.take x.length).flatten, .idle) := lex_fields h1 _ _ _
    rw [e1]
    simp only
    rw [ih _ h2, ← List.flatten_append, List.take_append_drop]

theorem last_fields {xs : List Field} (h : ∀ x ∈ xs, ∃ ts, FieldLexes x ts) (t n q : Nat) :
    ((xs.map ColumnFormat.strip).flatMap (ColumnFormat.writeField t n q)) = [] ∧ xs = [] ∨
    ((xs.map ColumnFormat.strip).flatMap (ColumnFormat.writeField t n q)).getLast? = some '\n' := by
  induction xs with
  | nil => exact .inl ⟨rfl, rfl⟩
  | cons x xs ih =>
    right
    obtain ⟨ts, hx⟩ := h x List.mem_cons_self
    rw [List.map_cons, List.flatMap_cons, List.getLast?_append]
    rcases ih (fun y hy => h y (List.mem_cons_of_mem _ hy)) with ⟨e, _⟩ | e
    · rw [e, (lex_writeField hx t n q).2]; rfl
    · rw [e]; rfl

theorem last_blocks (bs : List (List Field)) (h : ∀ x ∈ bs.flatten, ∃ ts, FieldLexes x ts) :
    bs.flatMap ColumnFormat.writeBlock = [] ∧ bs.flatten = [] ∨ (bs.flatMap ColumnFormat.writeBlock).getLast? = some '\n' := by
  induction bs with
  | nil => exact .inl ⟨rfl, rfl⟩
  | cons x bs ih =>
    rw [List.flatMap_cons, List.flatten_cons, List.getLast?_append]
    have h1 : ColumnFormat.writeBlock x = [] ∧ x = [] ∨ (ColumnFormat.writeBlock x).getLast? = some '\n' :=
      last_fields (fun y hy => h y (by rw [List.flatten_cons]; exact List.mem_append_left _ hy)) _ _ _
    rcases ih (fun y hy => h y (by rw [List.flatten_cons]; exact List.mem_append_right _ hy)) with ⟨e1, e2⟩ | e
    · rcases h1 with ⟨f1, f2⟩ | f
      · left; rw [e1, e2, f1, f2]; exact ⟨rfl, rfl⟩
      · right; rw [e1, f]; rfl
    · right; rw [e]; rfl

/-- The cells of an element. -/
def CellsOk (b : Bool) (w : F → F × Field) (ts : List Str) : Prop :=
  ∀ c ts0, Good b c ts0 .idle →
    Good b (w c).1 [] .idle ∧ (w c).1.w.out = [] ∧ (w c).1.w.last = '\n' ∧ FieldLexes (w c).2 (ts0 ++ ts)

/-- An element of a container. -/
def WriterOk (b : Bool) (e : Elem) (w : Writer) (ts : List Str) : Prop :=
  match w with
  | .node w => e.kind = none ∧ Emits b w .idle ts .idle
  | .whole w => e.kind ≠ none ∧ e.incomplete = true ∧ Emits b w .idle ts .idle ∧ ts ≠ []
  | .cells outer w => e.kind ≠ none ∧ Emits b outer .idle [] .idle ∧ CellsOk b w ts

/-- All elements in cells. -/
theorem groupLoop_cells (ws : List Writer) : ∀ (tss : List (List Str)) (f c : F) (fs : List Field) (tf tc : List Str),
    List.Forall₂ (fun w ts => ∃ outer u, w = Writer.cells outer u ∧ Emits b outer .idle [] .idle ∧ CellsOk b u ts) ws tss →
    ws ≠ [] → Good b f tf .idle → Good b c tc .idle →
    ∃ f' c' new nss, groupLoop ws f c fs = (f', c', fs ++ new) ∧ Good b f' tf .idle ∧ Good b c' [] .idle ∧ c'.w.out = [] ∧
      c'.w.last = '\n' ∧ new ≠ [] ∧ List.Forall₂ FieldLexes new nss ∧ nss.flatten = tc ++ tss.flatten := by
  induction ws with
  | nil => intro tss f c fs tf tc _ h; exact absurd rfl h
  | cons w ws ih =>
    intro tss f c fs tf tc h _ hf hc
    cases h with
    | cons hw hr =>
      rename_i ts tss
      obtain ⟨outer, u, rfl, ho, hu⟩ := hw
      obtain ⟨c1, c2, c3, c4⟩ := hu c tc hc
      have hf' := good_nil ho hf
      by_cases hws : ws = []
      · subst hws
        cases hr
        exact ⟨outer f, (u c).1, [(u c).2], [tc ++ ts], rfl, hf', c1, c2, c3, by simp, .cons c4 .nil, by simp⟩
      · obtain ⟨f', c', new, nss, e, g1, g2, g3, g4, _, g5, g6⟩ := ih tss (outer f) (u c).1 (fs ++ [(u c).2]) tf [] hr hws hf' c1
        refine ⟨f', c', (u c).2 :: new, (tc ++ ts) :: nss, ?_, g1, g2, g3, g4, by simp, .cons c4 g5, ?_⟩
        · show groupLoop ws (outer f) (u c).1 (fs ++ [(u c).2]) = _
          rw [e]; simp
        · rw [List.flatten_cons, g6]; simp

theorem good_merge {f c : F} {tf : List Str} (hf : Good b f tf .idle) (hok : c.stuck = false) (hfl : c.inCompact = b)
    {text : Str} {ts : List Str} (hl : lexFrom .idle text = (ts, .idle)) (hlast : text.getLast? = some c.w.last) :
    Good b (merge f c text) (tf ++ ts) .idle := by
  have hout : (merge f c text).w.out = f.w.out ++ text := rfl
  have hm := hf.mode
  have he : lexFrom .idle (f.w.out ++ text) = ((lexFrom .idle f.w.out).1 ++ ts, .idle) := by
    rw [lexFrom_append, hm, hl]
  refine ⟨?_, ?_, ?_, ?_, hfl⟩
  · rw [hout, he, ← hf.lexed, hm]
    simp [done]
  · rw [hout, he]; exact .inl rfl
  · right
    rw [hout, List.getLast?_append, hlast]
    rfl
  · show (f.stuck || c.stuck) = false
    rw [hf.ok, hok]; rfl

theorem good_save {f : F} {ts : List Str} {k : K} (h : Good b f ts k) : Good b (save f) [] .idle :=
  ⟨rfl, .inl rfl, .inl rfl, h.ok, h.flag⟩

theorem fields_lexed {new : List Field} {nss : List (List Str)} (h : List.Forall₂ FieldLexes new nss) :
    ∀ x ∈ new, ∃ ts, FieldLexes x ts := by
  induction h with
  | nil => intro x hx; cases hx
  | cons hx _ ih =>
    intro y hy
    rcases List.mem_cons.1 hy with rfl | hy
    · exact ⟨_, hx⟩
    · exact ih y hy

/-- The text of a group. -/
theorem good_cells {f' c' : F} {tf tc : List Str} {new : List Field} {nss : List (List Str)} (h1 : Good b f' tf .idle)
    (h2 : Good b c' [] .idle) (h3 : c'.w.out = []) (h4 : c'.w.last = '\n') (hne : new ≠ [])
    (h5 : List.Forall₂ FieldLexes new nss) (h6 : nss.flatten = tc) :
    Good b (merge f' c' (c'.w.out ++ (ColumnFormat.blocks cfg.far new).flatMap ColumnFormat.writeBlock)) (tf ++ tc) .idle := by
  have hb := (ColumnFormat.C48_blocks cfg.far new).1
  rw [h3, List.nil_append]
  refine good_merge h1 h2.ok h2.flag ?_ ?_
  · rw [← h6]
    refine lex_blocks _ _ ?_
    rw [hb]; exact h5
  · rw [h4]
    rcases last_blocks (ColumnFormat.blocks cfg.far new) (by rw [hb]; exact fields_lexed h5) with ⟨_, e⟩ | e
    · rw [hb] at e; exact absurd e hne
    · exact e

/-- A group without nodes of other kinds. -/
theorem emits_writeGroup (ws : List Writer) (tss : List (List Str)) (es : List Elem)
    (h : List.Forall₂ (fun (p : Elem × Writer) ts => WriterOk b p.1 p.2 ts) (es.zip ws) tss) (hlen : es.length = ws.length)
    (hnone : (∃ e ∈ es, e.kind = none) → es.length = 1) (hinc : ∀ e ∈ es.tail, e.incomplete = false) (hne : es ≠ []) :
    Emits b (writeGroup cfg ws) .idle tss.flatten .idle := by
  cases es with
  | nil => exact absurd rfl hne
  | cons e es =>
    cases ws with
    | nil => cases hlen
    | cons w ws =>
      rw [List.zip_cons_cons] at h
      cases h with
      | cons hw hr =>
        rename_i ts tss
        have hlen' : es.length = ws.length := by simpa using hlen
        -- the other elements are in cells
        have hrest : (∃ x ∈ e :: es, x.kind = none) ∨
            List.Forall₂ (fun w ts => ∃ outer u, w = Writer.cells outer u ∧ Emits b outer .idle [] .idle ∧ CellsOk b u ts) ws tss := by
          clear hw hne hlen
          by_cases hk : ∃ x ∈ e :: es, x.kind = none
          · exact .inl hk
          · right
            have hk' : ∀ x ∈ es, x.kind ≠ none := fun x hx e0 => hk ⟨x, List.mem_cons_of_mem _ hx, e0⟩
            have hinc' : ∀ x ∈ es, x.incomplete = false := hinc
            clear hk hinc hnone
            induction es generalizing ws tss with
            | nil =>
              cases ws with
              | nil => cases hr; exact .nil
              | cons _ _ => cases hlen'
            | cons x es ih =>
              cases ws with
              | nil => cases hlen'
              | cons w ws =>
                rw [List.zip_cons_cons] at hr
                cases hr with
                | cons hw hr =>
                  refine .cons ?_ (ih (ws := ws) (hr := hr) (hlen' := by simpa using hlen')
                    (hk' := fun y hy => hk' y (List.mem_cons_of_mem _ hy))
                    (hinc' := fun y hy => hinc' y (List.mem_cons_of_mem _ hy)))
                  cases w with
                  | node w => exact absurd hw.1 (hk' x List.mem_cons_self)
                  | whole w => exact absurd hw.2.1 (by rw [hinc' x List.mem_cons_self]; simp)
                  | cells outer u => exact ⟨outer, u, rfl, hw.2.1, hw.2.2⟩
        cases w with
        | node w =>
          have h1 := hnone ⟨e, List.mem_cons_self, hw.1⟩
          have hes : es = [] := by simpa using h1
          subst hes
          have : ws = [] := by simpa using hlen'.symm
          subst this
          cases hr
          have := hw.2
          rw [List.flatten_cons, List.flatten_nil, List.append_nil]
          exact this
        | whole w =>
          obtain ⟨hk0, _, hw, hts⟩ := hw
          have hcells := hrest.resolve_left (by
            rintro ⟨x, hx, hk⟩
            have h1 := hnone ⟨x, hx, hk⟩
            have hes : es = [] := by simpa using h1
            subst hes
            simp only [List.mem_singleton] at hx
            subst hx
            exact hk0 hk)
          intro f tf hf
          have hg : writeGroup cfg (Writer.whole w :: ws) f = (fun r : F × F × List Field => merge r.1 r.2.1 (r.2.1.w.out ++
            (ColumnFormat.blocks cfg.far r.2.2).flatMap ColumnFormat.writeBlock)) (groupLoop ws f (w (save f)) []) := by
            unfold writeGroup
            cases ws <;> rfl
          rw [hg, List.flatten_cons]
          have hc : Good b (w (save f)) ts .idle := hw _ _ (good_save hf)
          by_cases hws : ws = []
          · subst hws
            cases hcells
            have hout : (w (save f)).w.out ≠ [] := by
              intro e0
              have := hc.lexed
              rw [e0] at this
              exact hts this.symm
            have e1 : (fun r : F × F × List Field => merge r.1 r.2.1 (r.2.1.w.out ++
                (ColumnFormat.blocks cfg.far r.2.2).flatMap ColumnFormat.writeBlock)) (groupLoop [] f (w (save f)) []) =
                merge f (w (save f)) (w (save f)).w.out := by
              show merge f (w (save f)) ((w (save f)).w.out ++ []) = _
              rw [List.append_nil]
            rw [e1, List.flatten_nil, List.append_nil]
            refine good_merge hf hc.ok hc.flag ?_ (hc.last.resolve_left hout)
            have h1 := hc.lexed
            have h2 := hc.mode
            rw [h2] at h1
            simp only [done, List.append_nil] at h1
            exact Prod.ext h1 h2
          · obtain ⟨f', c', new, nss, e, g1, g2, g3, g4, g5, g6, g7⟩ := groupLoop_cells ws tss f (w (save f)) [] tf ts hcells hws hf hc
            rw [e]
            exact good_cells g1 g2 g3 g4 g5 g6 g7
        | cells outer u =>
          obtain ⟨hk0, ho, hu⟩ := hw
          have hcells := hrest.resolve_left (by
            rintro ⟨x, hx, hk⟩
            have h1 := hnone ⟨x, hx, hk⟩
            have hes : es = [] := by simpa using h1
            subst hes
            simp only [List.mem_singleton] at hx
            subst hx
            exact hk0 hk)
          intro f tf hf
          obtain ⟨f', c', new, nss, e, g1, g2, g3, g4, g5, g6, g7⟩ := groupLoop_cells (Writer.cells outer u :: ws) (ts :: tss) f (save f) [] tf []
            (.cons ⟨outer, u, rfl, ho, hu⟩ hcells) (by simp) hf (good_save hf)
          have hg : writeGroup cfg (Writer.cells outer u :: ws) f = (fun r : F × F × List Field => merge r.1 r.2.1 (r.2.1.w.out ++
            (ColumnFormat.blocks cfg.far r.2.2).flatMap ColumnFormat.writeBlock)) (groupLoop (Writer.cells outer u :: ws) f (save f) []) := by
            unfold writeGroup
            cases ws <;> rfl
          rw [hg, e]
          exact good_cells g1 g2 g3 g4 g5 g6 g7

/-! ### All groups -/

theorem emits_foldl {α : Type} (step : F → α → F) (toks : α → List Str) (as : List α)
    (h : ∀ a ∈ as, Emits b (fun f => step f a) .idle (toks a) .idle) :
    Emits b (fun f => as.foldl step f) .idle (as.flatMap toks) .idle := by
  induction as with
  | nil => exact Emits.id _
  | cons a as ih =>
    rw [List.flatMap_cons]
    exact (h a List.mem_cons_self).comp (ih (fun x hx => h x (List.mem_cons_of_mem _ hx)))

theorem pick_ok (es : List (Elem × Writer)) (tss : List (List Str)) (g : List Elem)
    (h : ∀ e ∈ g, ∃ w, (es[e.node]?).map Prod.snd = some w ∧ WriterOk b e w ((tss[e.node]?).getD [])) :
    g.length = (pick es g).length ∧
    List.Forall₂ (fun (p : Elem × Writer) ts => WriterOk b p.1 p.2 ts) (g.zip (pick es g)) (g.map fun e => (tss[e.node]?).getD []) := by
  induction g with
  | nil => exact ⟨rfl, .nil⟩
  | cons e g ih =>
    obtain ⟨w, h1, h2⟩ := h e List.mem_cons_self
    have hp : pick es (e :: g) = w :: pick es g := by
      unfold pick
      rw [List.filterMap_cons, h1]
    obtain ⟨i1, i2⟩ := ih (fun x hx => h x (List.mem_cons_of_mem _ hx))
    rw [hp]
    exact ⟨by simp [i1], .cons h2 i2⟩

theorem writerOk_node {e : Elem} {w : Writer} {ts : List Str} (i : Nat) (h : WriterOk b e w ts) :
    WriterOk b { e with node := i } w ts := by
  cases w <;> exact h

theorem zip_ok (es : List (Elem × Writer)) (tss : List (List Str))
    (h : List.Forall₂ (fun (p : Elem × Writer) ts => WriterOk b p.1 p.2 ts) es tss) :
    ∀ (all : List (Elem × Writer)) (allT : List (List Str)) (k : Nat), (∀ i, all[k + i]? = es[i]?) → (∀ i, allT[k + i]? = tss[i]?) →
    (∀ e ∈ (es.zipIdx k).map (fun p => ({ p.1.1 with node := p.2 } : Elem)),
      ∃ w, (all[e.node]?).map Prod.snd = some w ∧ WriterOk b e w ((allT[e.node]?).getD [])) ∧
    ((es.zipIdx k).map (fun p => ({ p.1.1 with node := p.2 } : Elem))).flatMap (fun e => (allT[e.node]?).getD []) = tss.flatten := by
  induction h with
  | nil => intro all allT k _ _; exact ⟨(by intro e he; cases he), rfl⟩
  | cons hp hr ih =>
    rename_i p ts es tss
    intro all allT k h1 h2
    have a0 : all[k]? = some p := by simpa using h1 0
    have t0 : allT[k]? = some ts := by simpa using h2 0
    obtain ⟨i1, i2⟩ := ih all allT (k + 1) (fun i => by rw [Nat.add_assoc, Nat.add_comm 1 i]; simpa using h1 (i + 1))
      (fun i => by rw [Nat.add_assoc, Nat.add_comm 1 i]; simpa using h2 (i + 1))
    rw [List.zipIdx_cons, List.map_cons]
    refine ⟨?_, ?_⟩
    · intro e he
      rcases List.mem_cons.1 he with rfl | he
      · refine ⟨p.2, by simp [a0], ?_⟩
        simp only [t0, Option.getD_some]
        exact writerOk_node k hp
      · exact i1 e he
    · rw [List.flatMap_cons, i2, List.flatten_cons]
      simp [t0]

/-- The rule for columns. -/
theorem emits_columns {es : List (Elem × Writer)} {tss : List (List Str)}
    (h : List.Forall₂ (fun (p : Elem × Writer) ts => WriterOk b p.1 p.2 ts) es tss) :
    Emits b (columns cfg es) .idle tss.flatten .idle := by
  obtain ⟨h1, h2⟩ := zip_ok es tss h es tss 0 (by simp) (by simp)
  have hg := ColumnFormat.C48_groups ((es.zipIdx 0).map (fun p => ({ p.1.1 with node := p.2 } : Elem)))
  have := emits_foldl (b := b) (fun f g => writeGroup cfg (pick es g) f)
    (fun g => (g.map fun e => (tss[e.node]?).getD []).flatten)
    (ColumnFormat.groups ((es.zipIdx 0).map (fun p => ({ p.1.1 with node := p.2 } : Elem)))) ?_
  · refine (this.toks ?_).fn (fun f => rfl)
    rw [← h2]
    conv => rhs; rw [← hg.1]
    generalize ColumnFormat.groups _ = gs
    clear this h1 h2 hg
    induction gs with
    | nil => rfl
    | cons g gs ih => rw [List.flatMap_cons, ih, List.flatten_cons, List.flatMap_append, List.flatMap_def (l := g)]
  · intro g hgm
    have hmem : ∀ e ∈ g, e ∈ (es.zipIdx 0).map (fun p => ({ p.1.1 with node := p.2 } : Elem)) := by
      intro e he
      rw [← hg.1]
      exact List.mem_flatten.2 ⟨g, hgm, he⟩
    obtain ⟨p1, p2⟩ := pick_ok es tss g (fun e he => h1 e (hmem e he))
    exact emits_writeGroup (pick es g) _ g p2 p1 (ColumnFormat.C48_kinds _ g hgm).2 (ColumnFormat.C48_incomplete _ g hgm)
      (hg.2 g hgm)

end Verif.Formatter
