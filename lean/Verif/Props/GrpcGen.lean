import Mathlib.Tactic.Tauto
import Verif.Lemmas.GrpcGen
/-!
# C94: generated gRPC clients and servers agree
-/
namespace Verif.GrpcGen

theorem routes_unique {a b c d : Str} (hb : '/' ∉ b) (hd : '/' ∉ d) (h : '/' :: (a ++ '/' :: b) = '/' :: (c ++ '/' :: d)) : a = c ∧ b = d := by
  rw [List.cons.injEq] at h
  have h1 := congrArg List.reverse h.2
  simp only [List.reverse_append, List.reverse_cons, List.append_assoc, List.cons_append, List.nil_append] at h1
  have key : ∀ (x y : Str) (u v : Str), '/' ∉ x → '/' ∉ y → x ++ '/' :: u = y ++ '/' :: v → x = y ∧ u = v := by
    intro x
    induction x with
    | nil =>
      intro y u v _ hy h
      cases y with
      | nil => simpa using h
      | cons z y => simp at h; simp [← h.1] at hy
    | cons w x ih =>
      intro y u v hx hy h
      cases y with
      | nil => simp at h; simp [h.1] at hx
      | cons z y =>
        simp only [List.cons_append, List.cons.injEq] at h
        simp only [List.mem_cons, not_or] at hx hy
        obtain ⟨rfl, h⟩ := h
        obtain ⟨rfl, h2⟩ := ih y u v hx.2 hy.2 h
        exact ⟨rfl, h2⟩
  obtain ⟨h2, h3⟩ := key _ _ _ _ (by simpa using hb) (by simpa using hd) h1
  exact ⟨List.reverse_injective h3, List.reverse_injective h2⟩

/-- **C94** (calls): if the generated package compiles, a call of a method of a generated client leads to exactly the method of the same
name of the server of the same service; client and server use the streaming mode of the method, and the client sends the request at
once if and only if the handler receives it at once. -/
theorem C94_call (g : Gen) (services : List Service) (hn : Named services) (hc : Compiles g services) (s : Service) (hs : s ∈ services)
    (m : Method) (hm : m ∈ s.methods) (o : Outcome) :
    Calls (program g services) (unexport s.goName ++ ['C', 'l', 'i', 'e', 'n', 't']) m.goName o ↔
      o = ⟨s.goName ++ ['S', 'e', 'r', 'v', 'e', 'r'], m.goName, (m.cs, m.ss), (m.cs, m.ss), !m.cs, !m.cs⟩ := by
  have hgo := goNames hc hs
  -- what the constant of the method is
  have hconst : ∀ path, (fullMethodSymbol s m, path) ∈ (program g services).consts ↔ path = '/' :: (s.fullName ++ '/' :: m.name) := by
    intro path
    constructor
    · intro h
      obtain ⟨s', hs', h⟩ := List.mem_flatMap.1 h
      obtain ⟨m', hm', h⟩ := List.mem_map.1 h
      simp only [Prod.mk.injEq] at h
      obtain rfl := eq_of_decl hc hs hs' (symbol_mem g s m hm) (h.1 ▸ symbol_mem g s' m' hm')
      have : m'.goName = m.goName := by
        have h1 := h.1
        unfold fullMethodSymbol at h1
        have h2 := List.append_cancel_left h1
        rw [List.cons.injEq] at h2
        exact List.append_cancel_right h2.2
      obtain rfl := eq_of_goName hgo hm' hm this
      exact h.2.symm
    · rintro rfl
      exact List.mem_flatMap.2 ⟨s, hs, List.mem_map.2 ⟨m, hm, rfl⟩⟩
  -- what the server does for the path
  have hserve : ∀ h mode, Serves (program g services) ('/' :: (s.fullName ++ '/' :: m.name)) h mode ↔
      h = handler s m ∧ mode = (m.cs, m.ss) := by
    intro h mode
    have hname : ∀ h' ∈ (program g services).handlers, h'.name = handlerName s m → h' = handler s m := by
      intro h' hh he
      obtain ⟨s', hs', hh⟩ := List.mem_flatMap.1 hh
      obtain ⟨m', hm', rfl⟩ := List.mem_map.1 hh
      have he' : handlerName s' m' = handlerName s m := he
      obtain rfl := eq_of_decl hc hs hs' (handler_mem g s m hm) (he' ▸ handler_mem g s' m' hm')
      have : m'.goName = m.goName := by
        unfold handlerName at he'
        rw [List.cons.injEq] at he'
        have h2 := List.append_cancel_left he'.2
        rw [List.cons.injEq] at h2
        exact List.append_cancel_right h2.2
      rw [eq_of_goName hgo hm' hm this]
    constructor
    · rintro ⟨svc, meth, ⟨hr, hmeth⟩, d, hd, hsn, hh, -, hcase⟩
      obtain ⟨rfl, rfl⟩ := routes_unique (hn.slash s hs m hm) hmeth hr
      obtain ⟨s', hs', rfl⟩ := List.mem_map.1 hd
      obtain rfl : s' = s := List.inj_on_of_nodup_map hn.full hs' hs hsn
      rcases hcase with ⟨h1, h2, h3⟩ | ⟨sd, h1, h2, h3, h4, h5⟩
      · rw [serviceDesc_methods] at h1
        obtain ⟨m', hm', he⟩ := List.mem_map.1 h1
        simp only [Prod.mk.injEq] at he
        rw [List.mem_filter] at hm'
        obtain rfl : m' = m := List.inj_on_of_nodup_map (hn.meth s' hs) hm'.1 hm he.1
        refine ⟨hname h hh he.2.symm, ?_⟩
        have := hm'.2
        simp only [Method.streaming, Bool.not_eq_true', Bool.or_eq_false_iff] at this
        rw [h3, this.1, this.2]
      · rw [serviceDesc_streams] at h1
        obtain ⟨m', hm', rfl⟩ := List.mem_map.1 h1
        rw [List.mem_filter] at hm'
        obtain rfl : m' = m := List.inj_on_of_nodup_map (hn.meth s' hs) hm'.1 hm h2
        exact ⟨hname h hh h3.symm, h5⟩
    · rintro ⟨rfl, rfl⟩
      refine ⟨s.fullName, m.name, ⟨rfl, hn.slash s hs m hm⟩, serviceDesc s, List.mem_map.2 ⟨s, hs, rfl⟩, rfl,
        List.mem_flatMap.2 ⟨s, hs, List.mem_map.2 ⟨m, hm, rfl⟩⟩, rfl, ?_⟩
      by_cases hst : m.streaming = true
      · refine .inr ⟨⟨m.name, handlerName s m, m.ss, m.cs⟩, ?_, rfl, rfl, ?_, rfl⟩
        · rw [serviceDesc_streams]
          exact List.mem_map.2 ⟨m, List.mem_filter.2 ⟨hm, hst⟩, rfl⟩
        · revert hst
          simp only [Method.streaming, handler]
          cases m.cs <;> cases m.ss <;> simp
      · have hst' : m.streaming = false := by simpa using hst
        have h2 := hst'
        simp only [Method.streaming, Bool.or_eq_false_iff] at h2
        refine .inl ⟨?_, by simp [handler, h2.1, h2.2], by rw [h2.1, h2.2]⟩
        rw [serviceDesc_methods]
        exact List.mem_map.2 ⟨m, List.mem_filter.2 ⟨hm, by simp [hst']⟩, rfl⟩
  constructor
  · rintro ⟨c, hcl, hrecv, hname, path, hopen, h, hsv, h1, h2, h3⟩
    obtain ⟨s', hs', hcl⟩ := List.mem_flatMap.1 hcl
    unfold clientMethods at hcl
    rw [mem_clientMethodsFrom] at hcl
    obtain ⟨pre, m', post, hsplit, rfl⟩ := hcl
    have hrecv' : unexport s'.goName ++ sClient = unexport s.goName ++ sClient := hrecv
    obtain rfl := eq_of_decl hc hs hs' (receiver_mem g s (hn.go s hs)) (hrecv' ▸ receiver_mem g s' (hn.go s' hs'))
    have hm' : m' ∈ s.methods := by rw [hsplit]; simp
    obtain rfl := eq_of_goName hgo hm' hm hname
    have hmode : path = '/' :: (s.fullName ++ '/' :: m'.name) ∧ o.clientMode = (m'.cs, m'.ss) ∧ o.sendFirst = !m'.cs := by
      by_cases hst : m'.streaming = true
      · have hb : (!m'.ss && !m'.cs) = false := by
          revert hst; unfold Method.streaming; cases m'.cs <;> cases m'.ss <;> simp
        simp only [clientMethod, hb, Bool.false_eq_true, if_false, hst, if_true, Nat.zero_add, Opens] at hopen
        obtain ⟨hp, ⟨d, hd, hdv, sd, hsd, hmo⟩, hf⟩ := hopen
        obtain ⟨s', hs'', rfl⟩ := List.mem_map.1 hd
        have hdv' : serviceDescVar s' = serviceDescVar s := hdv
        obtain rfl := eq_of_decl hc hs hs'' (descVar_mem g s) (hdv' ▸ descVar_mem g s')
        rw [streams_at s pre m' post hsplit hst] at hsd
        cases hsd
        exact ⟨(hconst path).1 hp, hmo, hf⟩
      · have hst' : m'.streaming = false := by simpa using hst
        have h2 := hst'
        simp only [Method.streaming, Bool.or_eq_false_iff] at h2
        simp only [clientMethod, h2.1, h2.2, Bool.not_false, Bool.and_self, if_true, Opens] at hopen
        exact ⟨(hconst path).1 hopen.1, by rw [hopen.2.1, h2.1, h2.2], by rw [hopen.2.2, h2.1]; rfl⟩
    obtain ⟨rfl, hcm, hsf⟩ := hmode
    obtain ⟨rfl, hsm⟩ := (hserve h _).1 hsv
    obtain ⟨st, gn, cm, sm, sf, rf⟩ := o
    simp only at hcm hsf hsm h1 h2 h3
    rw [hcm, hsf, hsm, h1, h2, h3]
    rfl
  · rintro rfl
    obtain ⟨pre, post, hsplit⟩ := List.append_of_mem hm
    refine ⟨clientMethod g s m (if m.streaming then 0 + (pre.filter Method.streaming).length else 0 + (pre.filter fun x => !x.streaming).length),
      List.mem_flatMap.2 ⟨s, hs, (mem_clientMethodsFrom g s s.methods 0 0 _).2 ⟨pre, m, post, hsplit, rfl⟩⟩, rfl, rfl,
      '/' :: (s.fullName ++ '/' :: m.name), ?_, handler s m, (hserve _ _).2 ⟨rfl, rfl⟩, rfl, rfl, rfl⟩
    by_cases hst : m.streaming = true
    · have hb : (!m.ss && !m.cs) = false := by
        revert hst; unfold Method.streaming; cases m.cs <;> cases m.ss <;> simp
      simp only [clientMethod, hb, Bool.false_eq_true, if_false, hst, if_true, Nat.zero_add, Opens]
      exact ⟨(hconst _).2 rfl, ⟨serviceDesc s, List.mem_map.2 ⟨s, hs, rfl⟩, rfl, _, streams_at s pre m post hsplit hst, rfl⟩, trivial⟩
    · have hst' : m.streaming = false := by simpa using hst
      have h2 := hst'
      simp only [Method.streaming, Bool.or_eq_false_iff] at h2
      simp only [clientMethod, h2.1, h2.2, Bool.not_false, Bool.and_self, if_true, Opens]
      exact ⟨(hconst _).2 rfl, trivial, trivial⟩

/-- **C94** (interfaces): the generated client has the methods of the client interface, and the type for unimplemented servers has those of
the server interface, with the same signatures. -/
theorem C94_implements (g : Gen) (s : Service) :
    (clientMethods g s).map (·.sig) = clientInterface g s ∧ ∀ x ∈ serverInterface g s, x ∈ unimplementedMethods g s := by
  constructor
  · unfold clientMethods clientInterface
    generalize 0 = a
    have : ∀ (ms : List Method) (a b : Nat), (clientMethodsFrom g s ms a b).map (·.sig) = ms.map (clientSig g s) := by
      intro ms
      induction ms with
      | nil => intros; rfl
      | cons m ms ih =>
        intro a b
        unfold clientMethodsFrom
        split <;> simp only [List.map_cons, ih] <;> rfl
    exact this _ _ _
  · intro x hx
    unfold unimplementedMethods serverInterface at *
    exact List.mem_append_left _ hx

/-- **C94** (embedding): implementations must embed the type for unimplemented servers (or opt out) if and only if the option asks for it. -/
theorem C94_embed (g : Gen) (s : Service) (hm : ∀ m ∈ s.methods, ∃ c t, m.goName = c :: t ∧ c ≠ 'm') :
    (∀ x ∈ serverInterface g s, x ∈ s.methods.map (serverSig g s)) ↔ g.requireUnimplemented = false := by
  unfold serverInterface
  cases hg : g.requireUnimplemented
  · simp
  · simp only [if_true, Bool.true_eq_false, iff_false]
    intro h
    obtain ⟨m, h1, h2⟩ := List.mem_map.1 (h (mustEmbed s) (by simp))
    obtain ⟨c, t, h3, h4⟩ := hm m h1
    have := congrArg Sig.name h2
    simp only [serverSig, mustEmbed, h3, sMustEmbed, List.cons_append, List.cons.injEq] at this
    exact h4 this.1

/-- **C94** (opting out): a type that has the methods of the service and embeds the interface `Unsafe…Server` is a server. -/
theorem C94_opt_out (g : Gen) (s : Service) : ∀ x ∈ serverInterface g s, x ∈ s.methods.map (serverSig g s) ∨ x ∈ unsafeMethods s := by
  intro x hx
  unfold serverInterface at hx
  rcases List.mem_append.1 hx with h | h
  · exact .inl h
  · split at h
    · exact .inr h
    · simp at h

/-- **C94** (signatures): the request is an argument at both sides if and only if the client does not stream; the response is a result
at both sides if and only if nobody streams; otherwise both sides get a stream. -/
theorem C94_signature (g : Gen) (s : Service) (m : Method) :
    (.ptr m.input ∈ (clientSig g s m).args ↔ m.cs = false) ∧ (.ptr m.input ∈ (serverSig g s m).args ↔ m.cs = false) ∧
    ((clientSig g s m).result = some (.ptr m.output) ↔ m.cs = false ∧ m.ss = false) ∧
    ((serverSig g s m).result = some (.ptr m.output) ↔ m.cs = false ∧ m.ss = false) ∧
    ((if g.genericStreams then streamInterface sServer m else .named (s.goName ++ '_' :: (m.goName ++ ['S', 'e', 'r', 'v', 'e', 'r']))) ∈
      (serverSig g s m).args ↔ m.cs = true ∨ m.ss = true) ∧
    ((clientSig g s m).result =
      some (if g.genericStreams then streamInterface sClient m else .named (s.goName ++ '_' :: (m.goName ++ ['C', 'l', 'i', 'e', 'n', 't']))) ↔
      m.cs = true ∨ m.ss = true) ∧
    -- the arguments are those with which the handlers and callers of gRPC call
    (clientSig g s m).args.head? = some .context ∧ (clientSig g s m).args.getLast? = some .options ∧
    ((clientSig g s m).args.length = if m.cs then 2 else 3) ∧
    ((serverSig g s m).args.head? = some .context ↔ m.cs = false ∧ m.ss = false) ∧
    ((serverSig g s m).args.length = if m.cs then 1 else 2) ∧
    ((serverSig g s m).args.head? = some (.ptr m.input) ↔ m.cs = false ∧ m.ss = true) := by
  obtain ⟨n, gn, cs, ss, i, o⟩ := m
  obtain ⟨ru, gs⟩ := g
  cases cs <;> cases ss <;> cases gs <;> simp [clientSig, serverSig, streamInterface, streamName, sServer, sClient]

/-- **C94** (stream modes): the stream types with and without generics have the same operations; a client stream can send if and only if the
server stream can receive, and the other way round. -/
theorem C94_modes (m : Method) (h : m.cs = true ∨ m.ss = true) :
    (∀ ops, GenericOps (streamInterface sServer m) ops ↔ ops = serverOps m) ∧
    (∀ ops, GenericOps (streamInterface sClient m) ops ↔ ops = clientOps m) ∧
    ((.send, m.input) ∈ clientOps m ↔ (.recv, m.input) ∈ serverOps m) ∧
    ((.recv, m.output) ∈ clientOps m ↔ (.send, m.output) ∈ serverOps m) ∧
    ((.closeAndRecv, m.output) ∈ clientOps m ↔ (.sendAndClose, m.output) ∈ serverOps m) := by
  obtain ⟨n, gn, cs, ss, i, o⟩ := m
  refine ⟨?_, ?_, ?_⟩
  · intro ops
    cases cs <;> cases ss <;> simp at h <;>
      simp only [streamInterface, serverOps, sServer, sBidi, sClientStreaming, sServerStreaming, Bool.and_self, Bool.and_false, Bool.false_and, if_true,
        Bool.false_eq_true, if_false, Bool.not_true, Bool.not_false, List.nil_append, List.append_nil, List.cons_append] <;>
      exact ⟨fun h => by cases h; rfl, fun h => by subst h; constructor⟩
  · intro ops
    cases cs <;> cases ss <;> simp at h <;>
      simp only [streamInterface, clientOps, sClient, sBidi, sClientStreaming, sServerStreaming, Bool.and_self, Bool.and_false, Bool.false_and, if_true,
        Bool.false_eq_true, if_false, Bool.not_true, Bool.not_false, List.append_nil, List.cons_append, List.nil_append] <;>
      exact ⟨fun h => by cases h; rfl, fun h => by subst h; constructor⟩
  · cases cs <;> cases ss <;> simp [clientOps, serverOps] at h ⊢

/-- The declared names of a service, taken apart. -/
def shapes (s : Service) : List Shape :=
  s.methods.map (fun m => .full s.goName m.goName) ++
  [.client s.goName, .lower s.goName, .new s.goName] ++
  (s.methods.filter Method.streaming).map (fun m => .clientStream s.goName m.goName) ++
  [.server s.goName, .unimplemented s.goName, .noUnsafe s.goName, .register s.goName] ++
  s.methods.flatMap (fun m => .handler s.goName m.goName :: if m.streaming then [.serverStream s.goName m.goName] else []) ++
  [.desc s.goName]

theorem decls_shapes (g : Gen) (hg : g.genericStreams = true) (s : Service) : decls g s = (shapes s).map Shape.render := by
  have h1 : ∀ ms : List Method, ms.flatMap (streamDecls g sClient s) =
      ((ms.filter Method.streaming).map fun m => Shape.clientStream s.goName m.goName).map Shape.render := by
    intro ms
    induction ms with
    | nil => rfl
    | cons m ms ih =>
      rw [List.flatMap_cons, ih, List.filter_cons]
      unfold streamDecls
      show (if m.streaming = true then _ else _) ++ _ = _
      by_cases h : m.streaming = true
      · rw [if_pos h, if_pos h, if_pos hg]; rfl
      · rw [if_neg h, if_neg h]; rfl
  have h2 : ∀ ms : List Method, ms.flatMap (fun m => handlerName s m :: streamDecls g sServer s m) =
      (ms.flatMap fun m => Shape.handler s.goName m.goName :: if m.streaming then [.serverStream s.goName m.goName] else []).map Shape.render := by
    intro ms
    induction ms with
    | nil => rfl
    | cons m ms ih =>
      rw [List.flatMap_cons, ih, List.flatMap_cons, List.map_append]
      congr 1
      unfold streamDecls
      show _ :: (if m.streaming = true then _ else _) = _
      by_cases h : m.streaming = true
      · rw [if_pos h, if_pos h, if_pos hg]; rfl
      · rw [if_neg h, if_neg h]; rfl
  unfold decls shapes
  rw [h1, h2]
  simp only [List.map_append, fullMethods, List.map_map]
  rfl

/-- The method of a name on the server's side. -/
def shapeMethod : Shape → Str
  | .handler _ m | .serverStream _ m => m
  | _ => []

/-- **C94** (names): the generated package declares no name twice. (Partial: the Go names of services and methods must have no underscores,
those of services must not begin with one of the prefixes that the generator uses, and generics must be used for streams, which is the
default; see the violations below.) -/
theorem C94_names_partial (g : Gen) (hg : g.genericStreams = true) (services : List Service) (hs : ∀ s ∈ services, Simple s)
    (hd : (services.map (·.goName)).Nodup) : Compiles g services := by
  have hok : ∀ s ∈ services, ∀ x ∈ shapes s, x.Ok := by
    intro s hm x hx
    have h := hs s hm
    have hsn : SimpleName s.goName := ⟨h.head, h.underscore, h.noNew, h.noUnimplemented, h.noUnsafe, h.noRegister⟩
    unfold shapes at hx
    simp only [List.mem_append, List.mem_map, List.mem_filter, List.mem_cons, List.not_mem_nil, or_false, List.mem_flatMap] at hx
    rcases hx with ((((⟨m, h1, rfl⟩ | rfl | rfl | rfl) | ⟨m, h1, rfl⟩) | rfl | rfl | rfl | rfl) | ⟨m, h1, hx⟩) | rfl
    all_goals first
      | exact hsn
      | exact ⟨hsn, h.methods m h1⟩
      | exact ⟨hsn, h.methods m h1.1⟩
      | (rcases hx with rfl | hx
         · exact ⟨hsn, h.methods m h1⟩
         · split at hx
           · simp only [List.mem_cons, List.not_mem_nil, or_false] at hx
             subst hx
             exact ⟨hsn, h.methods m h1⟩
           · simp at hx)
  have hown : ∀ s, ∀ x ∈ shapes s, (match x with
      | .full s _ | .client s | .lower s | .new s | .clientStream s _ | .server s | .unimplemented s | .noUnsafe s | .register s
      | .handler s _ | .serverStream s _ | .desc s => s) = s.goName := by
    intro s x hx
    unfold shapes at hx
    simp only [List.mem_append, List.mem_map, List.mem_filter, List.mem_cons, List.not_mem_nil, or_false, List.mem_flatMap] at hx
    rcases hx with ((((⟨m, h1, rfl⟩ | rfl | rfl | rfl) | ⟨m, h1, rfl⟩) | rfl | rfl | rfl | rfl) | ⟨m, h1, hx⟩) | rfl
    all_goals first
      | rfl
      | (rcases hx with rfl | hx
         · rfl
         · split at hx
           · simp only [List.mem_cons, List.not_mem_nil, or_false] at hx
             subst hx
             rfl
           · simp at hx)
  have hnd : ∀ s ∈ services, (shapes s).Nodup := by
    intro s hm
    have hgo := (hs s hm).distinct
    have hinj : ∀ f : Str → Shape, (∀ a b, f a = f b → a = b) → (s.methods.map fun m => f m.goName).Nodup := by
      intro f hf
      have : (s.methods.map fun m => f m.goName) = (s.methods.map (·.goName)).map f := by rw [List.map_map]; rfl
      rw [this]
      exact hgo.map fun a b h => hf a b h
    have n1 := hinj (.full s.goName) (by simp)
    have n2 : ((s.methods.filter Method.streaming).map fun m => Shape.clientStream s.goName m.goName).Nodup :=
      (hinj (.clientStream s.goName) (by simp)).sublist (List.Sublist.map _ List.filter_sublist)
    have n3 : (s.methods.flatMap fun m => Shape.handler s.goName m.goName :: if m.streaming then [.serverStream s.goName m.goName] else []).Nodup := by
      rw [List.nodup_flatMap]
      constructor
      · intro m _
        split <;> simp
      · have := List.pairwise_map.1 hgo
        refine this.imp fun {a b} hab => ?_
        intro x h1 h2
        have e1 : shapeMethod x = a.goName := by
          rcases List.mem_cons.1 h1 with rfl | h1
          · rfl
          · split at h1
            · simp at h1; subst h1; rfl
            · simp at h1
        have e2 : shapeMethod x = b.goName := by
          rcases List.mem_cons.1 h2 with rfl | h2
          · rfl
          · split at h2
            · simp at h2; subst h2; rfl
            · simp at h2
        exact hab (e1.symm.trans e2)
    have m3 : ∀ x ∈ (s.methods.flatMap fun m => Shape.handler s.goName m.goName :: if m.streaming then [.serverStream s.goName m.goName] else []),
        (∃ n, x = .handler s.goName n) ∨ ∃ n, x = .serverStream s.goName n := by
      intro x hx
      obtain ⟨m, _, hx⟩ := List.mem_flatMap.1 hx
      rcases List.mem_cons.1 hx with rfl | hx
      · exact .inl ⟨_, rfl⟩
      · split at hx
        · simp at hx; exact .inr ⟨_, hx⟩
        · simp at hx
    unfold shapes
    generalize hL : (s.methods.flatMap fun m => Shape.handler s.goName m.goName :: if m.streaming then [.serverStream s.goName m.goName] else []) = L at n3 m3
    simp only [List.nodup_append, n1, n2, n3, List.mem_append, List.mem_map, List.mem_cons, List.not_mem_nil, or_false]
    refine ⟨⟨⟨⟨⟨trivial, by simp, ?_⟩, trivial, ?_⟩, by simp, ?_⟩, trivial, ?_⟩, by simp, ?_⟩
    · rintro a ⟨m, _, rfl⟩ b (rfl | rfl | rfl) <;> simp
    · rintro a (⟨m, _, rfl⟩ | rfl | rfl | rfl) b ⟨m', _, rfl⟩ <;> simp
    · rintro a ((⟨m, _, rfl⟩ | rfl | rfl | rfl) | ⟨m, _, rfl⟩) b (rfl | rfl | rfl | rfl) <;> simp
    · rintro a (((⟨m, _, rfl⟩ | rfl | rfl | rfl) | ⟨m, _, rfl⟩) | rfl | rfl | rfl | rfl) b hb <;> rcases m3 b hb with ⟨n, rfl⟩ | ⟨n, rfl⟩ <;> simp
    · rintro a ((((⟨m, _, rfl⟩ | rfl | rfl | rfl) | ⟨m, _, rfl⟩) | rfl | rfl | rfl | rfl) | ha) b rfl
      all_goals first
        | (rcases m3 a ha with ⟨n, rfl⟩ | ⟨n, rfl⟩ <;> simp)
        | simp
  unfold Compiles
  have e : services.flatMap (decls g) = (services.flatMap shapes).map Shape.render := by
    rw [List.map_flatMap]
    congr 1
    funext s
    exact decls_shapes g hg s
  rw [e]
  refine List.Nodup.map_on ?_ ?_
  · intro x hx y hy h
    obtain ⟨s, h1, h2⟩ := List.mem_flatMap.1 hx
    obtain ⟨s', h3, h4⟩ := List.mem_flatMap.1 hy
    exact Shape.render_inj x y (hok s h1 x h2) (hok s' h3 y h4) h
  · rw [List.nodup_flatMap]
    refine ⟨hnd, ?_⟩
    refine (List.pairwise_map.1 hd).imp fun {a b} hab => ?_
    intro x h1 h2
    exact hab ((hown a x h1).symm.trans (hown b x h2))

/-- **C94** (files): exactly the files that are to be generated and have services get a file of their own, with the options set in the
file, by default without mandatory embedding and with generics. -/
theorem C94_files (files : List File) :
    generate files = (files.filter fun f => decide (f.generate = true ∧ f.services ≠ [])).map fun f =>
      (f.filenamePrefix ++ ['_', 'g', 'r', 'p', 'c', '.', 'p', 'b', '.', 'g', 'o'],
        ⟨f.requireUnimplemented.getD false, f.useGenericStreams.getD true⟩, f.services) := by
  induction files with
  | nil => rfl
  | cons f fs ih =>
    rw [generate] at ih ⊢
    rw [List.filterMap_cons, ih, List.filter_cons]
    obtain ⟨gen, pre, sv, ru, us⟩ := f
    cases gen
    · simp
    · by_cases hs : sv = []
      · simp [generateFile, hs]
      · cases ru <;> cases us <;> simp [generateFile, hs, suffix]

/-! ## Violations -/

def method (n : Str) (cs ss : Bool) : Method := ⟨n, n, cs, ss, ['I'], ['O']⟩

/-- **C94** (declared names): the names that programs use are declared: the constant with the path of each method, client, constructor,
server, the two structs to embed, the function to register a server, the description, and the streams of streaming methods. -/
theorem C94_declared (g : Gen) (s : Service) :
    (∀ x ∈ ["NewXClient", "RegisterXServer", "UnimplementedXServer", "UnsafeXServer", "XClient", "XServer", "X_ServiceDesc"],
      x.toList.flatMap (fun c => if c = 'X' then s.goName else [c]) ∈ decls g s) ∧
    ∀ m ∈ s.methods, s.goName ++ "_".toList ++ m.goName ++ "_FullMethodName".toList ∈ decls g s ∧
      "_".toList ++ s.goName ++ "_".toList ++ m.goName ++ "_Handler".toList ∈ decls g s ∧
      (m.cs = true ∨ m.ss = true → s.goName ++ "_".toList ++ m.goName ++ "Client".toList ∈ decls g s ∧
        s.goName ++ "_".toList ++ m.goName ++ "Server".toList ∈ decls g s) := by
  refine ⟨?_, fun m hm => ⟨?_, ?_, fun h => ⟨?_, ?_⟩⟩⟩
  · intro x hx
    simp only [List.mem_cons, List.not_mem_nil, or_false] at hx
    rcases hx with rfl | rfl | rfl | rfl | rfl | rfl | rfl <;>
      simp [decls, serviceDescVar, sNew, sClient, sRegister, sServer, sUnimplemented, sUnsafe, sServiceDesc]
  · have : (fullMethodSymbol s m) ∈ (fullMethods s).map (·.1) := by
      simp only [fullMethods, List.map_map, List.mem_map, Function.comp]
      exact ⟨m, hm, rfl⟩
    have e : fullMethodSymbol s m = s.goName ++ "_".toList ++ m.goName ++ "_FullMethodName".toList := by
      simp [fullMethodSymbol, sFullMethodName]
    rw [← e]
    simp only [decls, List.mem_append]
    tauto
  · have e : handlerName s m = "_".toList ++ s.goName ++ "_".toList ++ m.goName ++ "_Handler".toList := by
      simp [handlerName, sHandler]
    have : handlerName s m ∈ s.methods.flatMap (fun m => handlerName s m :: streamDecls g sServer s m) :=
      List.mem_flatMap.2 ⟨m, hm, List.mem_cons_self⟩
    rw [← e]
    simp only [decls, List.mem_append]
    tauto
  · have e : streamName sClient s m = s.goName ++ "_".toList ++ m.goName ++ "Client".toList := by
      simp [streamName, sClient]
    have hb : (m.cs || m.ss) = true := by simpa using h
    have : streamName sClient s m ∈ s.methods.flatMap (streamDecls g sClient s) :=
      List.mem_flatMap.2 ⟨m, hm, by rw [streamDecls, if_pos hb]; exact List.mem_cons_self⟩
    rw [← e]
    simp only [decls, List.mem_append]
    tauto
  · have e : streamName sServer s m = s.goName ++ "_".toList ++ m.goName ++ "Server".toList := by
      simp [streamName, sServer]
    have hb : (m.cs || m.ss) = true := by simpa using h
    have : streamName sServer s m ∈ s.methods.flatMap (fun m => handlerName s m :: streamDecls g sServer s m) :=
      List.mem_flatMap.2 ⟨m, hm, by rw [streamDecls, if_pos hb]; exact List.mem_cons_of_mem _ List.mem_cons_self⟩
    rw [← e]
    simp only [decls, List.mem_append]
    tauto

/-- **C94** (embedding): if it is required, a server has to have the method `mustEmbedUnimplemented…Server`, which only the structs to embed
have; the registration can find out that the struct is embedded by value. -/
theorem C94_embed_names (g : Gen) (s : Service) :
    (⟨"mustEmbedUnimplemented".toList ++ s.goName ++ "Server".toList, [], none⟩ ∈ unsafeMethods s) ∧
    (g.requireUnimplemented = true →
      ⟨"mustEmbedUnimplemented".toList ++ s.goName ++ "Server".toList, [], none⟩ ∈ serverInterface g s) ∧
    ⟨"testEmbeddedByValue".toList, [], none⟩ ∈ unimplementedMethods g s := by
  have e : mustEmbed s = ⟨"mustEmbedUnimplemented".toList ++ s.goName ++ "Server".toList, [], none⟩ := by
    simp [mustEmbed, sMustEmbed, sUnimplemented, sServer]
  have e2 : sTestEmbedded = "testEmbeddedByValue".toList := by rfl
  rw [← e, ← e2]
  refine ⟨by simp [unsafeMethods], fun h => ?_, ?_⟩
  · simp [serverInterface, h]
  · simp [unimplementedMethods]

/-- Service `A` with method `B_C` and service `A_B` with method `C`: the names of the constants collide, the package does not compile. -/
theorem C94_underscore_violated (g : Gen) (m m' : Method) (hm : m.goName = ['B', '_', 'C']) (hm' : m'.goName = ['C']) (f f' : Str) :
    ¬ Compiles g [⟨f, ['A'], [m]⟩, ⟨f', ['A', '_', 'B'], [m']⟩] := by
  intro h
  have := eq_of_decl h (s := ⟨f, ['A'], [m]⟩) (s' := ⟨f', ['A', '_', 'B'], [m']⟩) (by simp) (by simp)
    (symbol_mem g ⟨f, ['A'], [m]⟩ m (by simp)) (by
      have h2 := symbol_mem g ⟨f', ['A', '_', 'B'], [m']⟩ m' (by simp)
      simpa [fullMethodSymbol, hm, hm'] using h2)
  simp at this

/-- Services `X` and `UnsafeX` (or `NewX`, `UnimplementedX`, `RegisterX`) in one package: types collide. -/
theorem C94_prefix_violated (g : Gen) (x f f' : Str) (ms ms' : List Method) :
    ¬ Compiles g [⟨f, x, ms⟩, ⟨f', ['U', 'n', 's', 'a', 'f', 'e'] ++ x, ms'⟩] := by
  intro h
  have := eq_of_decl h (s := ⟨f, x, ms⟩) (s' := ⟨f', ['U', 'n', 's', 'a', 'f', 'e'] ++ x, ms'⟩) (by simp) (by simp)
    (x := ['U', 'n', 's', 'a', 'f', 'e'] ++ (x ++ sServer)) (by simp [decls, sUnsafe]) (by simp [decls])
  have h2 := congrArg (fun s => s.goName.length) this
  simp at h2
  omega

/-- Methods `get` and `Get` of one service get the same name in Go. -/
theorem C94_methods_violated (g : Gen) (s : Service) (m m' : Method) (h : s.methods = [m, m']) (he : m.goName = m'.goName) : ¬ Compiles g [s] := by
  intro hc
  have := goNames hc (s := s) (by simp)
  simp [h, he] at this

/-- Without generics, service `A` with the streaming method `B` and service `AB` collide. -/
theorem C94_stream_violated (g : Gen) (hg : g.genericStreams = false) (m : Method) (hm : m.goName = ['B']) (hs : m.cs = true) (f f' : Str) (ms : List Method) :
    ¬ Compiles g [⟨f, ['A'], [m]⟩, ⟨f', ['A', 'B'], ms⟩] := by
  intro h
  have := eq_of_decl h (s := ⟨f, ['A'], [m]⟩) (s' := ⟨f', ['A', 'B'], ms⟩) (by simp) (by simp)
    (x := ['a', 'B'] ++ sClient) (by
      have : unexport ['A'] = ['a'] := by decide
      simp [decls, streamDecls, hs, hg, hm, this]) (by
      have h2 := receiver_mem g ⟨f', ['A', 'B'], ms⟩ (by simp)
      have : unexport ['A', 'B'] = ['a', 'B'] := by decide
      simpa [this] using h2)
  simp at this

/-! ## Examples -/

/-- Service `a.Foo` with a unary method, one in which the client streams and one in which the server streams. -/
def foo : Service := ⟨['a', '.', 'F', 'o', 'o'], ['F', 'o', 'o'], [method ['G', 'e', 't'] false false, method ['P', 'u', 't'] true false, method ['L'] false true]⟩
def bar : Service := ⟨['a', '.', 'B', 'a', 'r'], ['B', 'a', 'r'], [method ['G', 'e', 't'] true true]⟩

theorem simple_foo : Simple foo := ⟨⟨'F', ['o', 'o'], rfl, by decide⟩, by decide, by decide, by decide, by decide, by decide, by decide, by decide⟩
theorem simple_bar : Simple bar := ⟨⟨'B', ['a', 'r'], rfl, by decide⟩, by decide, by decide, by decide, by decide, by decide, by decide, by decide⟩

/-- The hypotheses of `C94_names_partial` and `C94_call` are met by two services. -/
example : Compiles ⟨true, true⟩ [foo, bar] :=
  C94_names_partial _ rfl _ (by intro s hs; simp at hs; rcases hs with rfl | rfl; exacts [simple_foo, simple_bar]) (by decide)

example (o : Outcome) : Calls (program ⟨true, true⟩ [foo, bar]) ['f', 'o', 'o', 'C', 'l', 'i', 'e', 'n', 't'] ['L'] o ↔
    o = ⟨['F', 'o', 'o', 'S', 'e', 'r', 'v', 'e', 'r'], ['L'], (false, true), (false, true), true, true⟩ :=
  C94_call ⟨true, true⟩ [foo, bar] ⟨by decide, by decide, by decide, by decide⟩
    (C94_names_partial _ rfl _ (by intro s hs; simp at hs; rcases hs with rfl | rfl; exacts [simple_foo, simple_bar]) (by decide))
    foo (by simp) (method ['L'] false true) (by decide) o

/-- `C94_call` does not need generics. -/
example : Compiles ⟨false, false⟩ [foo, bar] := by unfold Compiles; decide +kernel

example : (clientMethods ⟨true, true⟩ foo).map (·.body) =
    [.invoke (fullMethodSymbol foo (method ['G', 'e', 't'] false false)),
     .stream (serviceDescVar foo) 0 (fullMethodSymbol foo (method ['P', 'u', 't'] true false)) false,
     .stream (serviceDescVar foo) 1 (fullMethodSymbol foo (method ['L'] false true)) true] := by decide +kernel

/-- The hypothesis of `C94_embed`. -/
example : ∀ m ∈ foo.methods, ∃ c t, m.goName = c :: t ∧ c ≠ 'm' := by
  intro m hm
  simp only [foo, List.mem_cons, List.not_mem_nil, or_false] at hm
  rcases hm with rfl | rfl | rfl
  · exact ⟨'G', ['e', 't'], rfl, by decide⟩
  · exact ⟨'P', ['u', 't'], rfl, by decide⟩
  · exact ⟨'L', [], rfl, by decide⟩

/-- `C94_modes`: the hypothesis is met by a method in which both sides stream. -/
example : clientOps (method ['G', 'e', 't'] true true) = [(.send, ['I']), (.recv, ['O'])] := rfl

example : generate [⟨true, ['x'], [foo], some true, none⟩, ⟨true, ['y'], [], none, none⟩, ⟨false, ['z'], [bar], none, none⟩] =
    [(['x'] ++ ['_', 'g', 'r', 'p', 'c', '.', 'p', 'b', '.', 'g', 'o'], ⟨true, true⟩, [foo])] := rfl

end Verif.GrpcGen
