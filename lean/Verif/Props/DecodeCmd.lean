import Verif.Spec.DecodeCmd
import Verif.Props.Decode

/-!
# Property C105: the decode command
-/
namespace Verif.DecodeCmd

open Verif.Decode

variable {V T : Type}

theorem mem_allMessages {files : List (List TopMsg)} {m : Msg} : m ∈ allMessages files ↔ topLevel files m := by
  simp only [allMessages, topLevel, List.mem_flatMap, List.mem_map]
  constructor
  · rintro ⟨f, hf, t, ht, rfl⟩; exact ⟨f, hf, t, ht, rfl⟩
  · rintro ⟨f, hf, t, ht, rfl⟩; exact ⟨f, hf, t, ht, rfl⟩

/-- The messages that fit best, by the class that decides. -/
theorem best_iff (lower : Str → Str) (q : Str) (files : List (List TopMsg)) (m : Msg) :
    ((∃ m ∈ allMessages files, ByFull q m) → (Best lower q files m ↔ m ∈ allMessages files ∧ ByFull q m)) ∧
    ((¬ ∃ m ∈ allMessages files, ByFull q m) → (∃ m ∈ allMessages files, ByName q m) →
      (Best lower q files m ↔ m ∈ allMessages files ∧ ByName q m)) ∧
    ((¬ ∃ m ∈ allMessages files, ByFull q m) → (¬ ∃ m ∈ allMessages files, ByName q m) →
      (Best lower q files m ↔ m ∈ allMessages files ∧ ByPart lower q m)) := by
  have cases4 : ∀ n, Fits lower q m n → n = 1 ∨ n = 2 ∨ n = 3 := by
    intro n h
    match n, h with
    | 1, _ => simp
    | 2, _ => simp
    | 3, _ => simp
  refine ⟨?_, ?_, ?_⟩
  · rintro ⟨m0, h0, f0⟩
    constructor
    · rintro ⟨ht, n, hf, hmin⟩
      refine ⟨mem_allMessages.mpr ht, ?_⟩
      have h1 : ¬ 1 < n := fun hn => hmin m0 1 (mem_allMessages.mp h0) hn f0
      rcases cases4 n hf with rfl | rfl | rfl
      · exact hf
      · omega
      · omega
    · rintro ⟨hm, hf⟩
      refine ⟨mem_allMessages.mp hm, 1, hf, ?_⟩
      intro m' n' _ hn
      obtain rfl : n' = 0 := by omega
      simp [Fits]
  · rintro hno ⟨m0, h0, f0⟩
    constructor
    · rintro ⟨ht, n, hf, hmin⟩
      have hm := mem_allMessages.mpr ht
      refine ⟨hm, ?_⟩
      have h1 : ¬ 2 < n := fun hn => hmin m0 2 (mem_allMessages.mp h0) hn f0.2
      have hne : m.fullName ≠ q := fun e => hno ⟨m, hm, e⟩
      rcases cases4 n hf with rfl | rfl | rfl
      · exact absurd hf hne
      · exact ⟨hne, hf⟩
      · omega
    · rintro ⟨hm, hf⟩
      refine ⟨mem_allMessages.mp hm, 2, hf.2, ?_⟩
      intro m' n' ht hn hx
      rcases (by omega : n' = 0 ∨ n' = 1) with rfl | rfl
      · exact hx
      · exact hno ⟨m', mem_allMessages.mpr ht, hx⟩
  · intro hno1 hno2
    constructor
    · rintro ⟨ht, n, hf, hmin⟩
      have hm := mem_allMessages.mpr ht
      refine ⟨hm, ?_⟩
      have hne : m.fullName ≠ q := fun e => hno1 ⟨m, hm, e⟩
      have hne2 : m.name ≠ q := fun e => hno2 ⟨m, hm, hne, e⟩
      rcases cases4 n hf with rfl | rfl | rfl
      · exact absurd hf hne
      · exact absurd hf hne2
      · exact ⟨hne, hne2, hf⟩
    · rintro ⟨hm, hf⟩
      refine ⟨mem_allMessages.mp hm, 3, hf.2.2, ?_⟩
      intro m' n' ht hn hx
      have hm' := mem_allMessages.mpr ht
      rcases (by omega : n' = 0 ∨ n' = 1 ∨ n' = 2) with rfl | rfl | rfl
      · exact hx
      · exact hno1 ⟨m', hm', hx⟩
      · exact hno2 ⟨m', hm', fun e => hno1 ⟨m', hm', e⟩, hx⟩

/-- What is chosen fits best. -/
theorem best_of_right {lower : Str → Str} {q : Str} {files : List (List TopMsg)} {c : Choice}
    (h : Right lower q (allMessages files) c) :
    (∀ m, c = .use m → ∀ m', Best lower q files m' ↔ m' = m) ∧
    (∀ ms, c = .ask ms → 2 ≤ ms.length ∧ ms.Nodup ∧ ∀ m, m ∈ ms ↔ Best lower q files m) ∧
    (c = .fail → ∀ m, ¬ Best lower q files m) := by
  unfold Right at h
  simp only at h
  have key : ∀ P : Msg → Prop, (∀ m, Best lower q files m ↔ m ∈ allMessages files ∧ P m) →
      ((∃ m, c = .use m ∧ m ∈ allMessages files ∧ P m ∧ ∀ m' ∈ allMessages files, P m' → m' = m) ∨
      (∃ ms, c = .ask ms ∧ 2 ≤ ms.length ∧ ms.Nodup ∧ ∀ m, m ∈ ms ↔ m ∈ allMessages files ∧ P m)) →
      (∀ m, c = .use m → ∀ m', Best lower q files m' ↔ m' = m) ∧
      (∀ ms, c = .ask ms → 2 ≤ ms.length ∧ ms.Nodup ∧ ∀ m, m ∈ ms ↔ Best lower q files m) ∧
      (c = .fail → ∀ m, ¬ Best lower q files m) := by
    intro P hP hh
    rcases hh with ⟨m, rfl, hm, hp, hu⟩ | ⟨ms, rfl, h1, h2, h3⟩
    · refine ⟨?_, by simp, by simp⟩
      rintro _ ⟨⟩ m'
      rw [hP]
      exact ⟨fun ⟨a, b⟩ => hu m' a b, fun e => e ▸ ⟨hm, hp⟩⟩
    · refine ⟨by simp, ?_, by simp⟩
      rintro _ ⟨⟩
      exact ⟨h1, h2, fun m => by rw [hP, h3]⟩
  rcases h with ⟨h1, h⟩ | ⟨h1, h2, h⟩ | ⟨h1, h2, _, h⟩ | ⟨h1, h2, h3, rfl⟩
  · exact key _ (fun m => (best_iff lower q files m).1 h1) h
  · exact key _ (fun m => (best_iff lower q files m).2.1 h1 h2) h
  · exact key _ (fun m => (best_iff lower q files m).2.2 h1 h2) h
  · refine ⟨by simp, by simp, fun _ m hb => ?_⟩
    have := ((best_iff lower q files m).2.2 h1 h2).mp hb
    exact h3 ⟨m, this⟩

theorem decodeWithDescriptor_ok {env : Env V T} {input : List Nat} {m : Msg} {v : V} :
    decodeWithDescriptor env input m = .ok v ↔ ∃ bytes, readInput input = some bytes ∧ env.unmarshal m bytes = some v := by
  unfold decodeWithDescriptor
  cases readInput input with
  | none => simp
  | some bytes => cases h : env.unmarshal m bytes <;> simp [h]

/-- **C105** (typed): what is printed for a type is the value of the input in the format that was asked
for, decoded as a message at the top level that fits the type best; if several do, it is the one that
the user has chosen. -/
theorem C105_typed (env : Env V T) (q output : Str) (input : List Nat) (out : List Str) (hq : q ≠ [])
    (hd : ((allMessages env.files).map Msg.fullName).Nodup)
    (ho : output = "text".toList ∨ output = "json".toList) (h : run env q output input = .ok out) :
    ∃ m bytes v s, Best env.lower q env.files m ∧ readInput input = some bytes ∧ env.unmarshal m bytes = some v ∧
      Format env v output s ∧ out = [s] ∧
      ((∃ m', m' ≠ m ∧ Best env.lower q env.files m') → ∃ names, env.ask names = some m.fullName ∧
        names.Nodup ∧ ∀ n, n ∈ names ↔ ∃ m', Best env.lower q env.files m' ∧ m'.fullName = n) := by
  obtain ⟨b1, b2, b3⟩ := best_of_right (C54_select env.lower q (allMessages env.files) hd)
  have hfmt : ∀ v, decodeWithType env input q = .ok v → ∃ s, Format env v output s ∧ out = [s] := by
    intro v hv
    simp only [run, if_neg hq, hv] at h
    rcases ho with rfl | rfl
    · exact ⟨_, .text, by simpa using h.symm⟩
    · exact ⟨_, .json, by simpa using h.symm⟩
  cases hdt : decodeWithType env input q with
  | error e => simp [run, hq, hdt] at h
  | ok v =>
    obtain ⟨s, hs1, hs2⟩ := hfmt v hdt
    unfold decodeWithType at hdt
    split at hdt
    · rename_i m hsel
      obtain ⟨bytes, h1, h2⟩ := decodeWithDescriptor_ok.mp hdt
      refine ⟨m, bytes, v, s, (b1 m hsel m).mpr rfl, h1, h2, hs1, hs2, ?_⟩
      rintro ⟨m', hne, hb⟩
      exact absurd ((b1 m hsel m').mp hb) hne
    · rename_i ms hsel
      obtain ⟨a1, a2, a3⟩ := b2 ms hsel
      unfold chooseAndDecode at hdt
      split at hdt
      · cases hdt
      · rename_i sel hask
        split at hdt
        · rename_i m hfind
          obtain ⟨bytes, h1, h2⟩ := decodeWithDescriptor_ok.mp hdt
          have hm := List.mem_of_find?_eq_some hfind
          have hn : m.fullName = sel := by simpa using List.find?_some hfind
          refine ⟨m, bytes, v, s, (a3 m).mp hm, h1, h2, hs1, hs2, fun _ => ⟨ms.map Msg.fullName, by rw [hask, hn], ?_, ?_⟩⟩
          · refine List.Nodup.map_on ?_ a2
            intro x hx y hy e
            exact List.inj_on_of_nodup_map hd (mem_allMessages.mpr ((a3 x).mp hx).1) (mem_allMessages.mpr ((a3 y).mp hy).1) e
          · intro n
            simp only [List.mem_map, a3]
        · cases hdt
    · cases hdt

/-- **C105** (choice): if several messages fit best, the user is asked, and each of them can be chosen. -/
theorem C105_choice (env : Env V T) (q output : Str) (input : List Nat) (m m' : Msg) (hq : q ≠ [])
    (hd : ((allMessages env.files).map Msg.fullName).Nodup) (hm : Best env.lower q env.files m)
    (hm' : Best env.lower q env.files m') (hne : m' ≠ m) (hask : ∀ names, m.fullName ∈ names → env.ask names = some m.fullName)
    (bytes : List Nat) (v : V) (hr : readInput input = some bytes) (hu : env.unmarshal m bytes = some v) :
    run env q output input =
      .ok (if output = "text".toList then [env.text v] else if output = "json".toList then [env.json v] else []) := by
  obtain ⟨b1, b2, b3⟩ := best_of_right (C54_select env.lower q (allMessages env.files) hd)
  have hdec : decodeWithDescriptor env input m = .ok v := decodeWithDescriptor_ok.mpr ⟨bytes, hr, hu⟩
  have hdt : decodeWithType env input q = .ok v := by
    unfold decodeWithType
    split
    · rename_i m0 hsel
      exact absurd (((b1 m0 hsel m').mp hm').trans ((b1 m0 hsel m).mp hm).symm) hne
    · rename_i ms hsel
      obtain ⟨a1, a2, a3⟩ := b2 ms hsel
      have hmem := (a3 m).mpr hm
      unfold chooseAndDecode
      rw [hask _ (List.mem_map_of_mem hmem)]
      simp only
      have hf : ms.find? (fun x => decide (x.fullName = m.fullName)) = some m := by
        cases hx : ms.find? (fun x => decide (x.fullName = m.fullName)) with
        | none =>
          have := List.find?_eq_none.mp hx m hmem
          simp at this
        | some x =>
          have h1 := List.mem_of_find?_eq_some hx
          have h2 : x.fullName = m.fullName := by simpa using List.find?_some hx
          rw [List.inj_on_of_nodup_map hd (mem_allMessages.mpr ((a3 x).mp h1).1) (mem_allMessages.mpr hm.1) h2]
      rw [hf]
      exact hdec
    · rename_i hsel
      exact absurd hm (b3 hsel m)
  simp only [run, if_neg hq, hdt]
  split
  · rfl
  · split <;> rfl

/-- **C105** (full name): a message at the top level is found by its full name, without a question. -/
theorem C105_full_name (env : Env V T) (m : Msg) (output : Str) (input bytes : List Nat) (v : V) (hq : m.fullName ≠ [])
    (hm : topLevel env.files m) (hd : ((allMessages env.files).map Msg.fullName).Nodup)
    (hr : readInput input = some bytes) (hu : env.unmarshal m bytes = some v) :
    run env m.fullName output input =
      .ok (if output = "text".toList then [env.text v] else if output = "json".toList then [env.json v] else []) := by
  have hR := C54_select env.lower m.fullName (allMessages env.files) hd
  have hs : select env.lower m.fullName (allMessages env.files) = .use m := by
    unfold Right at hR
    simp only at hR
    have hm' := mem_allMessages.mpr hm
    have hex : ∃ m' ∈ allMessages env.files, ByFull m.fullName m' := ⟨m, hm', rfl⟩
    have hinj : ∀ m₁ ∈ allMessages env.files, ByFull m.fullName m₁ → m₁ = m :=
      fun m₁ h1 h2 => List.inj_on_of_nodup_map hd h1 hm' h2
    rcases hR with ⟨_, h⟩ | ⟨h1, _⟩ | ⟨h1, _⟩ | ⟨h1, _⟩
    · rcases h with ⟨m', e, h1, h2, _⟩ | ⟨ms, e, h1, h2, h3⟩
      · rw [e, hinj m' h1 h2]
      · exfalso
        match ms, h1, h2, h3 with
        | a :: b :: ms, _, h2, h3 =>
          have ha := (h3 a).mp (by simp)
          have hb := (h3 b).mp (by simp)
          have : a = b := (hinj a ha.1 ha.2).trans (hinj b hb.1 hb.2).symm
          simp [this] at h2
    all_goals exact absurd hex h1
  have hdec : decodeWithDescriptor env input m = .ok v := decodeWithDescriptor_ok.mpr ⟨bytes, hr, hu⟩
  simp only [run, decodeWithType, hs, hdec, if_neg hq]
  split
  · rfl
  · split <;> rfl

/-- **C105** (no type): without a type the tokens of the wire format are printed, without tabs. -/
theorem C105_wire (env : Env V T) (output : Str) (input : List Nat) :
    (∀ out, run env [] output input = .ok out ↔ ∃ bytes, readInput input = some bytes ∧ env.wire bytes ≠ [] ∧
      out = [(env.show_ (env.wire bytes) ++ ['\n']).flatMap (fun c => if c = '\t' then [' ', ' '] else [c])]) ∧
    ∀ out, run env [] output input = .ok out → ∀ s ∈ out, '\t' ∉ s := by
  have hx : ∀ s : Str, expandTabs s = s.flatMap (fun c => if c = '\t' then [' ', ' '] else [c]) := by
    intro s
    induction s with
    | nil => rfl
    | cons c t ih =>
      unfold expandTabs
      split <;> simp_all
  have h1 : ∀ out, run env [] output input = .ok out ↔ ∃ bytes, readInput input = some bytes ∧ env.wire bytes ≠ [] ∧
      out = [(env.show_ (env.wire bytes) ++ ['\n']).flatMap (fun c => if c = '\t' then [' ', ' '] else [c])] := by
    intro out
    simp only [run, if_true, decodeWithNoType, hx]
    cases hr : readInput input with
    | none => simp
    | some bytes =>
      simp only [Option.some.injEq, exists_eq_left']
      cases hw : env.wire bytes with
      | nil => simp
      | cons a as =>
        simp only [Except.ok.injEq, ne_eq, reduceCtorEq, not_false_eq_true, true_and]
        exact eq_comm
  refine ⟨h1, ?_⟩
  intro out ho s hs ht
  obtain ⟨bytes, _, _, rfl⟩ := (h1 out).mp ho
  simp only [List.mem_singleton] at hs
  subst hs
  obtain ⟨c, _, hc⟩ := List.mem_flatMap.mp ht
  split at hc
  · simp at hc
  · rename_i hne
    simp only [List.mem_singleton] at hc
    exact hne hc.symm

namespace Demo

def str (s : String) : Str := s.toList

/-- Values are the bytes together with the name of the type; type "b.InnerList" takes everything. -/
def env (files : List (List TopMsg)) : Env (Str × List Nat) Nat where
  files := files
  lower := fun s => s.map Char.toLower
  ask := fun names => names.getLast?
  unmarshal := fun m bs => if bs.length < 5 then some (m.fullName, bs) else none
  text := fun v => v.1
  json := fun v => '{' :: v.1
  wire := fun bs => bs
  show_ := fun ts => ts.map (fun n => if n = 8 then '\t' else 'x')

def outer : TopMsg := ⟨⟨str "a.Outer", str "Outer"⟩, [⟨str "a.Outer.Inner", str "Inner"⟩]⟩
def innerList : TopMsg := ⟨⟨str "b.InnerList", str "InnerList"⟩, []⟩
def foo (p : String) : TopMsg := ⟨⟨str (p ++ ".Foo"), str "Foo"⟩, []⟩

/-- The hypotheses of `C105_typed`, `C105_full_name` and `C105_choice` hold together. -/
example : run (env [[foo "a"], [foo "b", outer]]) (str "Foo") (str "text") [1, 2] = .ok [str "b.Foo"] ∧
    run (env [[foo "a"], [foo "b", outer]]) (str "a.Foo") (str "json") [1, 2] = .ok [str "{a.Foo"] ∧
    run (env [[foo "a"], [foo "b", outer]]) (str "oute") (str "text") [1, 2] = .ok [str "a.Outer"] ∧
    ((allMessages (env [[foo "a"], [foo "b", outer]]).files).map Msg.fullName).Nodup := by decide +kernel

example : run (env []) [] [] [8, 1] = .ok [str "  x\n"] ∧ run (env []) [] [] [32, 32] = .error .noInput := by decide +kernel

end Demo

open Demo in
/-- **C105** (violated): the help says that the wire format is printed if the message is not found; the
command fails. -/
theorem C105_missing_violated (env : Env V T) (q output : Str) (input : List Nat) (hq : q ≠ [])
    (hd : ((allMessages env.files).map Msg.fullName).Nodup) (hno : ∀ m, ¬ Best env.lower q env.files m) :
    run env q output input = .error .notFound := by
  obtain ⟨b1, b2, b3⟩ := best_of_right (C54_select env.lower q (allMessages env.files) hd)
  have : decodeWithType env input q = .error .notFound := by
    unfold decodeWithType
    split
    · rename_i m hsel
      exact absurd ((b1 m hsel m).mpr rfl) (hno m)
    · rename_i ms hsel
      obtain ⟨a1, _, a3⟩ := b2 ms hsel
      match ms, a1, a3 with
      | x :: _, _, a3 => exact absurd ((a3 x).mp (by simp)) (hno x)
    · rfl
  simp [run, hq, this]

/-- The hypotheses of `C105_missing_violated` can be met. -/
example : run (Demo.env []) (Demo.str "a.B") (Demo.str "text") [8, 1] = .error .notFound := by decide +kernel

open Demo in
/-- **C105** (violated): a nested message is not found by its full name, and with its name the input is
decoded as a message with a longer name instead, without a question. -/
theorem C105_nested_violated :
    declared [[outer], [innerList]] ⟨str "a.Outer.Inner", str "Inner"⟩ ∧
    run (env [[outer], [innerList]]) (str "a.Outer.Inner") (str "text") [1, 2] = .error .notFound ∧
    run (env [[outer], [innerList]]) (str "Inner") (str "text") [1, 2] = .ok [str "b.InnerList"] :=
  ⟨⟨[outer], by simp, outer, by simp, .inr (by simp [outer])⟩, by decide +kernel, by decide +kernel⟩

open Demo in
/-- **C105** (violated): with a format that does not exist the command succeeds and prints nothing. -/
theorem C105_format_violated :
    run (env [[outer]]) (str "a.Outer") (str "yaml") [1, 2] = .ok [] ∧
    run (env [[outer]]) (str "a.Outer") (str "text") [1, 2] = .ok [str "a.Outer"] := by decide +kernel

end Verif.DecodeCmd
