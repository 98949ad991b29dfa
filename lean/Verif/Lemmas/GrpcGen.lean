import Verif.Spec.GrpcGen
import Mathlib.Data.List.Nodup
import Mathlib.Data.List.Pairwise
/-!
# Lemmas about generated gRPC code
-/
namespace Verif.GrpcGen

def Method.streaming (m : Method) : Bool := m.cs || m.ss

/-- Which index a client method is generated with. -/
theorem mem_clientMethodsFrom (g : Gen) (s : Service) : ∀ (ms : List Method) (mi si : Nat) (c : ClientMethod),
    c ∈ clientMethodsFrom g s ms mi si ↔ ∃ pre m post, ms = pre ++ m :: post ∧
      c = clientMethod g s m (if m.streaming then si + (pre.filter Method.streaming).length else mi + (pre.filter fun x => !x.streaming).length) := by
  intro ms
  induction ms with
  | nil => intro mi si c; simp [clientMethodsFrom]
  | cons a ms ih =>
    intro mi si c
    have split : ∀ (P : List Method → Method → Prop), (∃ pre m post, a :: ms = pre ++ m :: post ∧ P pre m) ↔
        P [] a ∨ ∃ pre m post, ms = pre ++ m :: post ∧ P (a :: pre) m := by
      intro P
      constructor
      · rintro ⟨pre, m, post, h, hp⟩
        cases pre with
        | nil =>
          simp only [List.nil_append, List.cons.injEq] at h
          obtain ⟨rfl, _⟩ := h
          exact .inl hp
        | cons b pre =>
          simp only [List.cons_append, List.cons.injEq] at h
          obtain ⟨rfl, rfl⟩ := h
          exact .inr ⟨pre, m, post, rfl, hp⟩
      · rintro (hp | ⟨pre, m, post, rfl, hp⟩)
        · exact ⟨[], a, ms, rfl, hp⟩
        · exact ⟨a :: pre, m, post, rfl, hp⟩
    rw [split]
    unfold clientMethodsFrom
    by_cases ha : a.streaming = true
    · have h1 : (!a.ss && !a.cs) = false := by
        revert ha; unfold Method.streaming; cases a.cs <;> cases a.ss <;> simp
      rw [h1, if_neg (by simp), List.mem_cons, ih]
      simp only [ha, if_true, List.filter_nil, List.length_nil, Nat.add_zero, List.filter_cons, List.length_cons, Bool.not_true,
        Bool.false_eq_true, if_false]
      refine or_congr_right (exists_congr fun pre => exists_congr fun m => exists_congr fun post => and_congr_right fun _ => ?_)
      rw [Nat.add_assoc, Nat.add_comm 1]
    · have ha' : a.streaming = false := by simpa using ha
      have h1 : (!a.ss && !a.cs) = true := by
        revert ha'; unfold Method.streaming; cases a.cs <;> cases a.ss <;> simp
      rw [h1, if_pos rfl, List.mem_cons, ih]
      simp only [ha', if_true, List.filter_nil, List.length_nil, Nat.add_zero, List.filter_cons, List.length_cons, Bool.not_false,
        Bool.false_eq_true, if_false]
      refine or_congr_right (exists_congr fun pre => exists_congr fun m => exists_congr fun post => and_congr_right fun _ => ?_)
      rw [Nat.add_assoc, Nat.add_comm 1]

theorem zip_handlers (s : Service) (ms : List Method) : ms.zip (ms.map fun m => (handler s m).name) = ms.map fun m => (m, handlerName s m) := by
  induction ms with
  | nil => rfl
  | cons a t ih => simp only [List.map_cons, List.zip_cons_cons, ih]; rfl

theorem serviceDesc_methods (s : Service) :
    (serviceDesc s).methods = (s.methods.filter fun m => !m.streaming).map fun m => (m.name, handlerName s m) := by
  simp only [serviceDesc, zip_handlers, List.filter_map, List.map_map]
  rfl

theorem serviceDesc_streams (s : Service) :
    (serviceDesc s).streams = (s.methods.filter Method.streaming).map fun m => ⟨m.name, handlerName s m, m.ss, m.cs⟩ := by
  simp only [serviceDesc, zip_handlers, List.filter_map, List.map_map]
  have : ((fun x : Method × Str => !(!x.1.cs && !x.1.ss)) ∘ fun m => (m, handlerName s m)) = Method.streaming := by
    funext m
    simp only [Function.comp, Method.streaming]
    cases m.cs <;> cases m.ss <;> rfl
  rw [this]
  rfl

/-- The element of the description that the client method of `m` uses. -/
theorem streams_at (s : Service) (pre : List Method) (m : Method) (post : List Method) (h : s.methods = pre ++ m :: post) (hm : m.streaming = true) :
    (serviceDesc s).streams[(pre.filter Method.streaming).length]? = some ⟨m.name, handlerName s m, m.ss, m.cs⟩ := by
  rw [serviceDesc_streams, h, List.filter_append, List.filter_cons, if_pos hm, List.map_append, List.map_cons]
  rw [List.getElem?_append_right (by simp)]
  simp

section
variable {g : Gen} {services : List Service} (hc : Compiles g services)
include hc

/-- Services that declare a common name are the same. -/
theorem eq_of_decl {s s' : Service} (hs : s ∈ services) (hs' : s' ∈ services) {x : Str} (h : x ∈ decls g s) (h' : x ∈ decls g s') : s = s' := by
  unfold Compiles at hc
  rw [List.nodup_flatMap] at hc
  by_contra hne
  have : Std.Symm (Function.onFun List.Disjoint (decls g)) := ⟨fun _ _ h _ h1 h2 => h h2 h1⟩
  exact hc.2.forall hs hs' hne h h'

/-- Methods of a service with the same Go name are the same. -/
theorem goNames {s : Service} (hs : s ∈ services) : (s.methods.map (·.goName)).Nodup := by
  unfold Compiles at hc
  rw [List.nodup_flatMap] at hc
  have h := hc.1 s hs
  unfold decls at h
  simp only [List.append_assoc] at h
  have h2 := (List.nodup_append.1 h).1
  unfold fullMethods at h2
  rw [List.map_map] at h2
  have e : (Prod.fst ∘ fun m => (fullMethodSymbol s m, '/' :: (s.fullName ++ '/' :: m.name))) =
      (fun n => s.goName ++ '_' :: (n ++ '_' :: sFullMethodName)) ∘ (·.goName) := rfl
  rw [e, ← List.map_map] at h2
  exact List.Nodup.of_map _ h2

end

theorem symbol_mem (g : Gen) (s : Service) (m : Method) (hm : m ∈ s.methods) : fullMethodSymbol s m ∈ decls g s := by
  unfold decls fullMethods
  simp only [List.append_assoc, List.mem_append]
  exact .inl (by rw [List.map_map]; exact List.mem_map.2 ⟨m, hm, rfl⟩)

theorem handler_mem (g : Gen) (s : Service) (m : Method) (hm : m ∈ s.methods) : handlerName s m ∈ decls g s := by
  unfold decls
  simp only [List.mem_append]
  exact .inl (.inr (List.mem_flatMap.2 ⟨m, hm, by simp⟩))

theorem descVar_mem (g : Gen) (s : Service) : serviceDescVar s ∈ decls g s := by
  unfold decls
  simp

theorem receiver_mem (g : Gen) (s : Service) (h : s.goName ≠ []) : unexport s.goName ++ sClient ∈ decls g s := by
  have e : unexport s.goName ++ sClient = unexport (s.goName ++ sClient) := by
    cases hs : s.goName with
    | nil => exact absurd hs h
    | cons c t => rfl
  rw [e]
  unfold decls
  simp

theorem eq_of_goName {s : Service} (h : (s.methods.map (·.goName)).Nodup) {m m' : Method} (hm : m ∈ s.methods) (hm' : m' ∈ s.methods)
    (he : m.goName = m'.goName) : m = m' := List.inj_on_of_nodup_map h hm hm' he

/-! ## Names -/

theorem underscore_split {a b c d : Str} (ha : '_' ∉ a) (hc : '_' ∉ c) (h : a ++ '_' :: b = c ++ '_' :: d) : a = c ∧ b = d := by
  induction a generalizing c with
  | nil =>
    cases c with
    | nil => simpa using h
    | cons x c => simp at h; simp [← h.1] at hc
  | cons x a ih =>
    cases c with
    | nil => simp at h; simp [h.1] at ha
    | cons y c =>
      simp only [List.cons_append, List.cons.injEq] at h
      simp only [List.mem_cons, not_or] at ha hc
      obtain ⟨rfl, h⟩ := h
      obtain ⟨rfl, h2⟩ := ih ha.2 hc.2 h
      exact ⟨rfl, h2⟩

theorem no_underscore_split {a c d : Str} (ha : '_' ∉ a) (h : a = c ++ '_' :: d) : False := ha (by rw [h]; simp)

theorem toLower_inj : ∀ a b : Char, a.toNat ∈ List.range' 65 26 → b.toNat ∈ List.range' 65 26 → a.toLower = b.toLower → a = b := by
  have key : ∀ n ∈ List.range' 65 26, ∀ k ∈ List.range' 65 26, (Char.ofNat n).toLower = (Char.ofNat k).toLower → Char.ofNat n = Char.ofNat k := by
    decide +kernel
  intro a b ha hb h
  have := key _ ha _ hb
  simp only [Char.ofNat_toNat] at this
  exact this h

theorem toLower_ne : ∀ a b : Char, a.toNat ∈ List.range' 65 26 → b.toNat ∈ List.range' 65 26 → a.toLower ≠ b := by
  have key : ∀ n ∈ List.range' 65 26, ∀ k ∈ List.range' 65 26, (Char.ofNat n).toLower ≠ Char.ofNat k := by decide +kernel
  intro a b ha hb
  have := key _ ha _ hb
  simpa only [Char.ofNat_toNat] using this

/-- What a declared name is made of. -/
inductive Shape
  | full (s m : Str) | client (s : Str) | lower (s : Str) | new (s : Str) | clientStream (s m : Str)
  | server (s : Str) | unimplemented (s : Str) | noUnsafe (s : Str) | register (s : Str)
  | handler (s m : Str) | serverStream (s m : Str) | desc (s : Str)

def Shape.render : Shape → Str
  | .full s m => s ++ '_' :: (m ++ '_' :: sFullMethodName)
  | .client s => s ++ sClient
  | .lower s => unexport (s ++ sClient)
  | .new s => sNew ++ (s ++ sClient)
  | .clientStream s m => s ++ '_' :: (m ++ sClient)
  | .server s => s ++ sServer
  | .unimplemented s => sUnimplemented ++ (s ++ sServer)
  | .noUnsafe s => sUnsafe ++ (s ++ sServer)
  | .register s => sRegister ++ (s ++ sServer)
  | .handler s m => '_' :: (s ++ '_' :: (m ++ '_' :: sHandler))
  | .serverStream s m => s ++ '_' :: (m ++ sServer)
  | .desc s => s ++ '_' :: sServiceDesc

/-- The name of a service as it must be. -/
structure SimpleName (s : Str) : Prop where
  head : ∃ c t, s = c :: t ∧ c.toNat ∈ List.range' 65 26
  underscore : '_' ∉ s
  noNew : ¬ sNew <+: s
  noUnimplemented : ¬ sUnimplemented <+: s
  noUnsafe : ¬ sUnsafe <+: s
  noRegister : ¬ sRegister <+: s

def Shape.Ok : Shape → Prop
  | .full s m | .clientStream s m | .handler s m | .serverStream s m => SimpleName s ∧ '_' ∉ m
  | .client s | .lower s | .new s | .server s | .unimplemented s | .noUnsafe s | .register s | .desc s => SimpleName s

/-- The parts of a name between underscores. -/
def Shape.parts : Shape → List Str
  | .full s m => [s, m, sFullMethodName]
  | .client s => [s ++ sClient]
  | .lower s => [unexport (s ++ sClient)]
  | .new s => [sNew ++ (s ++ sClient)]
  | .clientStream s m => [s, m ++ sClient]
  | .server s => [s ++ sServer]
  | .unimplemented s => [sUnimplemented ++ (s ++ sServer)]
  | .noUnsafe s => [sUnsafe ++ (s ++ sServer)]
  | .register s => [sRegister ++ (s ++ sServer)]
  | .handler s m => [[], s, m, sHandler]
  | .serverStream s m => [s, m ++ sServer]
  | .desc s => [s, sServiceDesc]

theorem Shape.render_parts (x : Shape) : x.render = joinWith '_' x.parts := by
  cases x <;> simp [Shape.render, Shape.parts, joinWith]

theorem joinWith_inj : ∀ (a b : List Str), a ≠ [] → b ≠ [] → (∀ x ∈ a, '_' ∉ x) → (∀ x ∈ b, '_' ∉ x) →
    joinWith '_' a = joinWith '_' b → a = b
  | [], _, h, _, _, _, _ => absurd rfl h
  | _, [], _, h, _, _, _ => absurd rfl h
  | [x], [y], _, _, _, _, h => by simpa [joinWith] using h
  | [x], y :: z :: t, _, _, ha, _, h => by
    exfalso
    refine no_underscore_split (ha x (by simp)) (c := y) (d := joinWith '_' (z :: t)) ?_
    simpa [joinWith] using h
  | x :: z :: t, [y], _, _, _, hb, h => by
    exfalso
    refine no_underscore_split (hb y (by simp)) (c := x) (d := joinWith '_' (z :: t)) ?_
    simpa [joinWith] using h.symm
  | x :: z :: t, y :: z' :: t', _, _, ha, hb, h => by
    have h' : x ++ '_' :: joinWith '_' (z :: t) = y ++ '_' :: joinWith '_' (z' :: t') := by simpa [joinWith] using h
    obtain ⟨rfl, h2⟩ := underscore_split (ha x (by simp)) (hb y (by simp)) h'
    rw [joinWith_inj (z :: t) (z' :: t') (by simp) (by simp) (fun x hx => ha x (List.mem_cons_of_mem _ hx))
      (fun x hx => hb x (List.mem_cons_of_mem _ hx)) h2]

theorem SimpleName.unexport_underscore {s : Str} (h : SimpleName s) (t : Str) (ht : '_' ∉ t) : '_' ∉ unexport (s ++ t) := by
  obtain ⟨c, u, rfl, hc⟩ := h.head
  have h1 := h.underscore
  simp only [List.mem_cons, not_or] at h1
  have key : ∀ n ∈ List.range' 65 26, '_' ≠ (Char.ofNat n).toLower := by decide +kernel
  have h2 := key _ hc
  rw [Char.ofNat_toNat] at h2
  simp only [List.cons_append, unexport, List.mem_cons, List.mem_append, not_or]
  exact ⟨h2, h1.2, ht⟩

theorem Shape.parts_ne (x : Shape) : x.parts ≠ [] := by cases x <;> simp [Shape.parts]

theorem Shape.parts_ok (x : Shape) (h : x.Ok) : ∀ p ∈ x.parts, '_' ∉ p := by
  have f1 : '_' ∉ sFullMethodName := by decide
  have f2 : '_' ∉ sClient := by decide
  have f3 : '_' ∉ sServer := by decide
  have f4 : '_' ∉ sNew := by decide
  have f5 : '_' ∉ sUnimplemented := by decide
  have f6 : '_' ∉ sUnsafe := by decide
  have f7 : '_' ∉ sRegister := by decide
  have f8 : '_' ∉ sServiceDesc := by decide
  have f9 : '_' ∉ sHandler := by decide
  cases x <;> simp only [Shape.Ok] at h <;> simp only [Shape.parts, List.mem_cons, List.not_mem_nil, or_false] <;> intro p hp
  case full => rcases hp with rfl | rfl | rfl; exacts [h.1.underscore, h.2, f1]
  case client => subst hp; simp [h.underscore, f2]
  case lower => subst hp; exact h.unexport_underscore _ f2
  case new => subst hp; simp [h.underscore, f2, f4]
  case clientStream => rcases hp with rfl | rfl; exacts [h.1.underscore, by simp [h.2, f2]]
  case server => subst hp; simp [h.underscore, f3]
  case unimplemented => subst hp; simp [h.underscore, f3, f5]
  case noUnsafe => subst hp; simp [h.underscore, f3, f6]
  case register => subst hp; simp [h.underscore, f3, f7]
  case handler => rcases hp with rfl | rfl | rfl | rfl; exacts [by simp, h.1.underscore, h.2, f9]
  case serverStream => rcases hp with rfl | rfl; exacts [h.1.underscore, by simp [h.2, f3]]
  case desc => rcases hp with rfl | rfl; exacts [h.underscore, f8]

theorem client_server {a b : Str} (h : a ++ sClient = b ++ sServer) : False := by
  have := (List.append_inj' h rfl).2
  revert this
  decide

theorem client_inj {a b : Str} (h : a ++ sClient = b ++ sClient) : a = b := (List.append_inj' h rfl).1
theorem server_inj {a b : Str} (h : a ++ sServer = b ++ sServer) : a = b := (List.append_inj' h rfl).1

/-- A name in lower case is no other name. -/
theorem lower_upper {s : Str} (h : SimpleName s) (t : Str) (x : Str) (hx : ∃ c u, x = c :: u ∧ c.toNat ∈ List.range' 65 26) : unexport (s ++ t) ≠ x := by
  obtain ⟨c, u, rfl, hc⟩ := h.head
  obtain ⟨d, v, rfl, hd⟩ := hx
  intro he
  simp only [List.cons_append, unexport, List.cons.injEq] at he
  exact toLower_ne c d hc hd he.1

theorem lower_inj {s t : Str} (h : SimpleName s) (h' : SimpleName t) (he : unexport (s ++ sClient) = unexport (t ++ sClient)) : s = t := by
  obtain ⟨c, u, rfl, hc⟩ := h.head
  obtain ⟨d, v, rfl, hd⟩ := h'.head
  simp only [List.cons_append, unexport, List.cons.injEq] at he
  rw [toLower_inj c d hc hd he.1, client_inj he.2]

theorem desc_client {m : Str} (h : m ++ sClient = sServiceDesc) : False := by
  have := congrArg List.reverse h
  rw [List.reverse_append] at this
  simp [sClient, sServiceDesc] at this

theorem desc_server {m : Str} (h : m ++ sServer = sServiceDesc) : False := by
  have := congrArg List.reverse h
  rw [List.reverse_append] at this
  simp [sServer, sServiceDesc] at this

theorem head_append {s : Str} (h : SimpleName s) (t : Str) : ∃ c u, s ++ t = c :: u ∧ c.toNat ∈ List.range' 65 26 := by
  obtain ⟨c, u, rfl, hc⟩ := h.head
  exact ⟨c, u ++ t, rfl, hc⟩

theorem Shape.render_inj (x y : Shape) (hx : x.Ok) (hy : y.Ok) (h : x.render = y.render) : x = y := by
  rw [x.render_parts, y.render_parts] at h
  have hp := joinWith_inj _ _ x.parts_ne y.parts_ne (x.parts_ok hx) (y.parts_ok hy) h
  have w1 : ∀ t, ∃ c u, sNew ++ t = c :: u ∧ c.toNat ∈ List.range' 65 26 := fun t => ⟨_, _, rfl, by decide⟩
  have w2 : ∀ t, ∃ c u, sUnimplemented ++ t = c :: u ∧ c.toNat ∈ List.range' 65 26 := fun t => ⟨_, _, rfl, by decide⟩
  have w3 : ∀ t, ∃ c u, sUnsafe ++ t = c :: u ∧ c.toNat ∈ List.range' 65 26 := fun t => ⟨_, _, rfl, by decide⟩
  have w4 : ∀ t, ∃ c u, sRegister ++ t = c :: u ∧ c.toNat ∈ List.range' 65 26 := fun t => ⟨_, _, rfl, by decide⟩
  cases x <;> cases y <;>
    simp only [Shape.parts, Shape.Ok, List.cons.injEq, and_true, true_and, and_false, reduceCtorEq, Shape.full.injEq,
      Shape.client.injEq, Shape.lower.injEq, Shape.new.injEq, Shape.clientStream.injEq, Shape.server.injEq, Shape.unimplemented.injEq,
      Shape.noUnsafe.injEq, Shape.register.injEq, Shape.handler.injEq, Shape.serverStream.injEq, Shape.desc.injEq] at hp hx hy ⊢
  all_goals first
    | exact hp
    | exact client_inj hp
    | exact server_inj hp
    | exact ⟨hp.1, client_inj hp.2⟩
    | exact ⟨hp.1, server_inj hp.2⟩
    | exact client_server hp
    | exact client_server hp.symm
    | exact client_server hp.2
    | exact client_server hp.2.symm
    | exact desc_client hp.2
    | exact desc_client hp.2.symm
    | exact desc_server hp.2
    | exact desc_server hp.2.symm
    | exact lower_inj hx hy hp
    | exact lower_upper hx _ _ (head_append hy _) hp
    | exact lower_upper hy _ _ (head_append hx _) hp.symm
    | exact lower_upper hx _ _ (w1 _) hp
    | exact lower_upper hy _ _ (w1 _) hp.symm
    | exact lower_upper hx _ _ (w2 _) hp
    | exact lower_upper hy _ _ (w2 _) hp.symm
    | exact lower_upper hx _ _ (w3 _) hp
    | exact lower_upper hy _ _ (w3 _) hp.symm
    | exact lower_upper hx _ _ (w4 _) hp
    | exact lower_upper hy _ _ (w4 _) hp.symm
    | exact client_inj (List.append_cancel_left hp)
    | exact server_inj (List.append_cancel_left hp)
    | (rw [← List.append_assoc] at hp; first
        | exact client_server hp
        | exact client_server hp.symm
        | exact hx.noNew ⟨_, (client_inj hp).symm⟩
        | exact hy.noNew ⟨_, client_inj hp⟩
        | exact hx.noUnimplemented ⟨_, (server_inj hp).symm⟩
        | exact hy.noUnimplemented ⟨_, server_inj hp⟩
        | exact hx.noUnsafe ⟨_, (server_inj hp).symm⟩
        | exact hy.noUnsafe ⟨_, server_inj hp⟩
        | exact hx.noRegister ⟨_, (server_inj hp).symm⟩
        | exact hy.noRegister ⟨_, server_inj hp⟩
        | (rw [← List.append_assoc] at hp; first | exact client_server hp | exact client_server hp.symm))
    | (simp [sUnimplemented, sUnsafe, sRegister] at hp)

end Verif.GrpcGen
