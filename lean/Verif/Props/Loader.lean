import Verif.Props.Protocol

/-!
# C45, C49, C50: byte order, imports and loading
-/

namespace Proto.Props

open Proto

/-! ## C45 -/

theorem ordered_of_fromModels {p : Profile} {structs : List (Name × Structure)} {enums : List (Name × Enum)}
    {e : Endian} (hs : ∀ n s, structs.lookup n = some s → s.Ordered e) {vs : List Model.SField} :
    ∀ {last : Nat} {fs : List SField} {final : Nat},
      SField.fromModels p structs enums e last vs = .ok (fs, final) → SField.ListOrdered e fs := by
  induction vs with
  | nil => intro last fs final h; cases h; simp [SField.ListOrdered]
  | cons v vs ih =>
    intro last fs final h
    unfold SField.fromModels at h
    obtain ⟨⟨f, next⟩, h1, h⟩ := Res.bind_eq_ok.1 h
    obtain ⟨⟨fs', fin⟩, h2, h⟩ := Res.bind_eq_ok.1 h
    cases h
    refine ⟨?_, ih h2⟩
    unfold SField.fromModel at h1
    split at h1
    · obtain ⟨r, hr, h1⟩ := Res.bind_eq_ok.1 h1
      obtain ⟨_, _, h1⟩ := Res.bind_eq_ok.1 h1
      cases h1
      exact hs _ _ (Res.ofOption_eq_ok hr)
    · obtain ⟨_, _, h1⟩ := Res.bind_eq_ok.1 h1
      obtain ⟨_, _, h1⟩ := Res.bind_eq_ok.1 h1
      obtain ⟨_, _, h1⟩ := Res.bind_eq_ok.1 h1
      obtain ⟨_, _, h1⟩ := Res.bind_eq_ok.1 h1
      simp only at h1
      split at h1
      · split at h1
        · cases h1
        · obtain ⟨_, _, h1⟩ := Res.bind_eq_ok.1 h1
          cases h1
          exact rfl
      · obtain ⟨_, _, h1⟩ := Res.bind_eq_ok.1 h1
        cases h1
        exact rfl

/-- C45: whatever is declared, everything compiled is little-endian. -/
theorem C45_always_little {p : Profile} {l : Loader} {solver : SimpleImportSolver} {w w' : World}
    {protos : List Protocol} (hs : solver.importMap = [])
    (h : Loader.compile p l solver w = .ok (protos, w')) {proto : Protocol} (hp : proto ∈ protos) :
    proto.endianness = .little ∧ proto.Ordered .little := by
  have c := heapClosed p (fun _ => True) (Structure.Ordered .little)
    (fun structs enums id v s _ hs h => by
      unfold Structure.fromModel at h
      obtain ⟨⟨fs, last⟩, h1, h⟩ := Res.bind_eq_ok.1 h
      cases h
      exact ordered_of_fromModels hs h1)
  obtain ⟨T, _, _, hT⟩ := c.compile (k := fun _ => none) (fun _ _ => rfl)
    (by intro x hx; rw [hs] at hx; simp at hx) (fun _ _ _ _ => trivial) (fun _ _ _ _ => trivial) h
  have hT := hT proto hp
  exact ⟨hT.little, fun s hs => (hT.structs s hs).2, fun u hu => (hT.unions u hu).2.2.2,
    fun m hm => (hT.messages m hm).mono fun m h f hf => ⟨h.little f hf, h.structs f hf⟩⟩

/-- The whole C45: everything compiled from a model is in the byte order the model declares
(little-endian when it declares none). -/
def C45_full : Prop :=
  ∀ (p : Profile) (v : Model.Protocol) (proto : Protocol) (w' : World),
    Loader.compile p ⟨[v], []⟩ SimpleImportSolver.default ⟨0, []⟩ = .ok ([proto], w') →
    proto.Ordered (v.endianness.getD .little)

/-- C45 for models that declare little-endian or nothing. -/
theorem C45_byte_order {p : Profile} {v : Model.Protocol} {proto : Protocol} {w' : World}
    (hv : v.endianness = none ∨ v.endianness = some .little)
    (h : Loader.compile p ⟨[v], []⟩ SimpleImportSolver.default ⟨0, []⟩ = .ok ([proto], w')) :
    proto.Ordered (v.endianness.getD .little) := by
  have : v.endianness.getD .little = .little := by rcases hv with hv | hv <;> rw [hv] <;> rfl
  rw [this]
  exact (C45_always_little rfl h (by simp)).2

namespace Ex

/-- A model declared big-endian. -/
def bigModel : Model.Protocol :=
  { name := ['p'], endianness := some .big, structs := [⟨['A'], [⟨['x'], .unsigned 16, none, none⟩]⟩] }

end Ex

/-- C45 is false of the code: the declared byte order is ignored. -/
theorem C45_full_false : ¬ C45_full := by
  intro h
  have := (h .checked Ex.bigModel _ _ rfl).1 _ (.head _)
  simp [Structure.Ordered, SField.ListOrdered, SField.Ordered, Ex.bigModel, Protocol.empty] at this

/-! ## C49 -/

/-- C49: an import of a known type adds exactly that type under its name, and the path
base + separator + name for it; structures, enums, unions and messages are tried in that order. -/
theorem C49_import {s : SimpleImportSolver} {v : Model.Import} {base : Name} {r : Protocol}
    (h : s.importMap.lookup v.protocol = some (base, r)) (proto : Protocol) :
    (∀ x, r.structsByName.lookup v.typeName = some x → Protocol.addImport s.resolver proto v =
      .ok { proto with structsByName := (v.typeName, x) :: proto.structsByName,
                       typePathByName := (x.name, base ++ s.separator ++ v.typeName) :: proto.typePathByName }) ∧
    (r.structsByName.lookup v.typeName = none →
      (∀ x, r.enumsByName.lookup v.typeName = some x → Protocol.addImport s.resolver proto v =
        .ok { proto with enumsByName := (v.typeName, x) :: proto.enumsByName,
                         typePathByName := (x.name, base ++ s.separator ++ v.typeName) :: proto.typePathByName }) ∧
      (r.enumsByName.lookup v.typeName = none →
        (∀ x, r.unionsByName.lookup v.typeName = some x → Protocol.addImport s.resolver proto v =
          .ok { proto with unionsByName := (v.typeName, x) :: proto.unionsByName,
                           typePathByName := (x.name, base ++ s.separator ++ v.typeName) :: proto.typePathByName }) ∧
        (r.unionsByName.lookup v.typeName = none →
          (∀ x, r.messagesByName.lookup v.typeName = some x → Protocol.addImport s.resolver proto v =
            .ok { proto with messagesByName := (v.typeName, x) :: proto.messagesByName,
                             typePathByName := (x.name, base ++ s.separator ++ v.typeName) :: proto.typePathByName }) ∧
          (r.messagesByName.lookup v.typeName = none → Protocol.addImport s.resolver proto v =
            .err (.undefinedReference (v.protocol ++ "::".toList ++ v.typeName)))))) := by
  refine ⟨fun x hx => ?_, fun h1 => ⟨fun x hx => ?_, fun h2 => ⟨fun x hx => ?_, fun h3 => ⟨fun x hx => ?_, fun h4 => ?_⟩⟩⟩⟩
  · simp [Protocol.addImport, SimpleImportSolver.resolver, h, hx]
  · simp [Protocol.addImport, SimpleImportSolver.resolver, h, h1, hx]
  · simp [Protocol.addImport, SimpleImportSolver.resolver, h, h1, h2, hx]
  · simp [Protocol.addImport, SimpleImportSolver.resolver, h, h1, h2, h3, hx]
  · simp [Protocol.addImport, SimpleImportSolver.resolver, h, h1, h2, h3, h4]

/-- C49: importing from a protocol that is not registered is an undefined reference. -/
theorem C49_unregistered {s : SimpleImportSolver} {v : Model.Import}
    (h : s.importMap.lookup v.protocol = none) (proto : Protocol) :
    Protocol.addImport s.resolver proto v = .err (.undefinedReference v.protocol) := by
  simp [Protocol.addImport, SimpleImportSolver.resolver, h]

/-- C49: without solver every import is rejected. -/
theorem C49_no_solver (v : Model.Import) (proto : Protocol) :
    Protocol.addImport Resolver.none proto v = .err (.undefinedReference v.protocol) := rfl

/-- C49: registering a protocol makes it known under its name and base path, in place of any earlier
one of that name, and changes nothing else. -/
theorem C49_register (s : SimpleImportSolver) (base : Name) (proto : Protocol) (n t : Name) :
    ((s.register base proto).resolver.protocolByName n =
      if n = proto.name then some proto else s.resolver.protocolByName n) ∧
    ((s.register base proto).resolver.fullTypePath n t =
      if n = proto.name then some (base ++ s.separator ++ t) else s.resolver.fullTypePath n t) := by
  simp only [SimpleImportSolver.register, SimpleImportSolver.resolver, List.lookup_cons]
  by_cases h : n = proto.name
  · simp [h]
  · have : (n == proto.name) = false := by simpa using h
    simp [h, this]

/-- C49: a new solver knows nothing; the default separator is `::`. -/
theorem C49_new (sep n t : Name) :
    (SimpleImportSolver.new sep).resolver.protocolByName n = none ∧
    (SimpleImportSolver.new sep).resolver.fullTypePath n t = none ∧
    (SimpleImportSolver.new sep).separator = sep ∧ SimpleImportSolver.default.separator = [':', ':'] := by
  refine ⟨?_, ?_, rfl, rfl⟩ <;> simp [SimpleImportSolver.new, SimpleImportSolver.resolver]

/-- C49: the path used for a type is the one given by the latest import of that name; a type that was
not imported is used under its own name, or the default prefix and its name. -/
theorem C49_type_path (paths : List (Name × Name)) (n m path pre : Name) :
    typePath ((n, path) :: paths) m = (if m = n then path else typePath paths m) ∧
    typePathWithPrefix ((n, path) :: paths) m pre = (if m = n then path else typePathWithPrefix paths m pre) ∧
    ((∀ x ∈ paths, x.1 ≠ m) → typePath paths m = m ∧ typePathWithPrefix paths m pre = pre ++ m) := by
  unfold typePath typePathWithPrefix
  refine ⟨?_, ?_, fun h => ?_⟩
  · rw [List.lookup_cons]
    by_cases hm : m = n
    · simp [hm]
    · rw [show (m == n) = false by simpa using hm]; simp [hm]
  · rw [List.lookup_cons]
    by_cases hm : m = n
    · simp [hm]
    · rw [show (m == n) = false by simpa using hm]; simp [hm]
  · have : paths.lookup m = none := by
      rw [List.lookup_eq_none_iff]
      intro x hx
      simpa using fun e => h x hx e.symm
    simp [this]

/-- The types a protocol knows are known under their own name. -/
structure Named (proto : Protocol) : Prop where
  structs : ∀ x ∈ proto.structsByName, x.2.name = x.1
  enums : ∀ x ∈ proto.enumsByName, x.2.name = x.1
  unions : ∀ x ∈ proto.unionsByName, x.2.name = x.1
  messages : ∀ x ∈ proto.messagesByName, x.2.name = x.1

theorem named_import {s : Resolver} (hs : ∀ n r, s.protocolByName n = some r → Named r)
    {proto proto' : Protocol} (h : Named proto) {v : Model.Import}
    (hok : Protocol.addImport s proto v = .ok proto') : Named proto' := by
  unfold Protocol.addImport at hok
  obtain ⟨r, hr, hok⟩ := Res.bind_eq_ok.1 hok
  have hr := hs _ _ (Res.ofOption_eq_ok hr)
  split at hok
  · next x hl =>
    obtain ⟨path, _, hok⟩ := Res.bind_eq_ok.1 hok
    cases hok
    exact ⟨List.forall_mem_cons.2 ⟨hr.structs _ (mem_of_lookup hl), h.structs⟩, h.enums, h.unions, h.messages⟩
  · split at hok
    · next x hl =>
      obtain ⟨path, _, hok⟩ := Res.bind_eq_ok.1 hok
      cases hok
      exact ⟨h.structs, List.forall_mem_cons.2 ⟨hr.enums _ (mem_of_lookup hl), h.enums⟩, h.unions, h.messages⟩
    · split at hok
      · next x hl =>
        obtain ⟨path, _, hok⟩ := Res.bind_eq_ok.1 hok
        cases hok
        exact ⟨h.structs, h.enums, List.forall_mem_cons.2 ⟨hr.unions _ (mem_of_lookup hl), h.unions⟩, h.messages⟩
      · obtain ⟨x, hl, hok⟩ := Res.bind_eq_ok.1 hok
        obtain ⟨path, _, hok⟩ := Res.bind_eq_ok.1 hok
        cases hok
        exact ⟨h.structs, h.enums, h.unions,
          List.forall_mem_cons.2 ⟨hr.messages _ (mem_of_lookup (Res.ofOption_eq_ok hl)), h.messages⟩⟩

theorem named_imports {s : Resolver} (hs : ∀ n r, s.protocolByName n = some r → Named r)
    {vs : List Model.Import} {proto proto' : Protocol} (h : Named proto)
    (hok : Protocol.addImports s proto vs = .ok proto') : Named proto' := by
  induction vs generalizing proto with
  | nil => cases hok; exact h
  | cons v vs ih =>
    obtain ⟨p1, h1, hok⟩ := Res.bind_eq_ok.1 hok
    exact ih (named_import hs h h1) hok

theorem named_scope {α : Type} {name : α → Name} {ds : List α} {outer : List (Name × α)}
    (h : ∀ x ∈ outer, name x.2 = x.1) : ∀ x ∈ scope name ds outer, name x.2 = x.1 := by
  intro x hx
  simp only [scope, List.mem_append, List.mem_map, List.mem_reverse] at hx
  rcases hx with ⟨d, _, rfl⟩ | hx
  · rfl
  · exact h x hx

/-- C49: the types a compiled protocol knows, declared or imported, are known under their own name. -/
theorem C49_named {p : Profile} {s : Resolver} (hs : ∀ n r, s.protocolByName n = some r → Named r)
    {w w' : World} {v : Model.Protocol} {proto : Protocol}
    (h : Protocol.fromModel p s w v = .ok (proto, w')) : Named proto := by
  obtain ⟨p1, p2, p3, p4, next, h1, h2, h3, h4, h5⟩ := (C44_phases _ _ _ _ _ _).1 h
  have n1 : Named p1 := named_imports hs ⟨by simp [Protocol.empty], by simp [Protocol.empty],
    by simp [Protocol.empty], by simp [Protocol.empty]⟩ h1
  obtain ⟨es, _, rfl, _⟩ := (C44_enums _ _ _).1 h2
  obtain ⟨ss, _, _, rfl, _⟩ := (C44_structs _ _ _ _ _ _).1 h3
  obtain ⟨us, _, rfl, _⟩ := (C44_unions _ _ _).1 h4
  obtain ⟨ms, _, _, _, _, rfl, _⟩ := (C44_messages _ _ _ _ _).1 h5
  exact ⟨named_scope n1.structs, named_scope n1.enums, named_scope n1.unions, named_scope n1.messages⟩

/-- C49: so after a successful import the imported name is used under base + separator + name. -/
theorem C49_import_path {s : SimpleImportSolver} (hs : ∀ n r, s.resolver.protocolByName n = some r → Named r)
    {v : Model.Import} {proto proto' : Protocol} (h : Protocol.addImport s.resolver proto v = .ok proto') :
    ∃ base r, s.importMap.lookup v.protocol = some (base, r) ∧
      typePath proto'.typePathByName v.typeName = base ++ s.separator ++ v.typeName ∧
      ∀ n, n ≠ v.typeName → typePath proto'.typePathByName n = typePath proto.typePathByName n := by
  cases hl : s.importMap.lookup v.protocol with
  | none => rw [C49_unregistered hl] at h; cases h
  | some x =>
    obtain ⟨base, r⟩ := x
    have hr : Named r := hs v.protocol r (by simp [SimpleImportSolver.resolver, hl])
    have key : ∀ n : Name, n = v.typeName →
        typePath ((n, base ++ s.separator ++ v.typeName) :: proto.typePathByName) v.typeName =
          base ++ s.separator ++ v.typeName ∧
        ∀ m, m ≠ v.typeName → typePath ((n, base ++ s.separator ++ v.typeName) :: proto.typePathByName) m =
          typePath proto.typePathByName m := by
      rintro n rfl
      refine ⟨?_, fun m hm => ?_⟩
      · rw [(C49_type_path _ _ _ _ []).1, if_pos rfl]
      · rw [(C49_type_path _ _ _ _ []).1, if_neg hm]
    refine ⟨base, r, rfl, ?_⟩
    obtain ⟨h1, h1'⟩ := C49_import hl proto
    cases e1 : r.structsByName.lookup v.typeName with
    | some x =>
      rw [h1 x e1] at h
      cases h
      exact key _ (hr.structs _ (mem_of_lookup e1))
    | none =>
      obtain ⟨h2, h2'⟩ := h1' e1
      cases e2 : r.enumsByName.lookup v.typeName with
      | some x =>
        rw [h2 x e2] at h
        cases h
        exact key _ (hr.enums _ (mem_of_lookup e2))
      | none =>
        obtain ⟨h3, h3'⟩ := h2' e2
        cases e3 : r.unionsByName.lookup v.typeName with
        | some x =>
          rw [h3 x e3] at h
          cases h
          exact key _ (hr.unions _ (mem_of_lookup e3))
        | none =>
          obtain ⟨h4, h4'⟩ := h3' e3
          cases e4 : r.messagesByName.lookup v.typeName with
          | some x =>
            rw [h4 x e4] at h
            cases h
            exact key _ (hr.messages _ (mem_of_lookup e4))
          | none => rw [h4' e4] at h; cases h

/-- C49: imports are processed in order. -/
theorem C49_imports_append (s : Resolver) (proto : Protocol) (xs ys : List Model.Import) :
    Protocol.addImports s proto (xs ++ ys) =
      (Protocol.addImports s proto xs >>= fun proto => Protocol.addImports s proto ys) ∧
    ∀ v, Protocol.addImports s proto [v] = Protocol.addImport s proto v := by
  refine ⟨?_, fun v => ?_⟩
  · induction xs generalizing proto with
    | nil => rfl
    | cons x xs ih =>
      simp only [List.cons_append, Protocol.addImports]
      cases Protocol.addImport s proto x with
      | ok p1 => exact ih p1
      | err e => rfl
      | panic => rfl
  · simp only [Protocol.addImports]
    cases Protocol.addImport s proto v <;> rfl

/-! ## C50 -/

/-- C50: imports are compiled one after the other, each against the imports before it, and registered
under their path. -/
theorem C50_imports (p : Profile) (s : SimpleImportSolver) (w : World) :
    Loader.compileImports p s w [] = .ok (s, w) ∧
    (∀ path v, Loader.compileImports p s w [(path, v)] =
      (Protocol.fromModel p s.resolver w v >>= fun r => .ok (s.register path r.1, r.2))) ∧
    ∀ xs ys, Loader.compileImports p s w (xs ++ ys) =
      (Loader.compileImports p s w xs >>= fun r => Loader.compileImports p r.1 r.2 ys) := by
  refine ⟨rfl, fun path v => ?_, fun xs ys => ?_⟩
  · simp only [Loader.compileImports]
    cases Protocol.fromModel p s.resolver w v <;> rfl
  · induction xs generalizing s w with
    | nil => rfl
    | cons x xs ih =>
      obtain ⟨path, v⟩ := x
      simp only [List.cons_append, Loader.compileImports]
      cases Protocol.fromModel p s.resolver w v with
      | ok r => exact ih _ _
      | err e => rfl
      | panic => rfl

/-- C50: the models are compiled one after the other, all against the same imports, and the result
lists them in order. -/
theorem C50_models (p : Profile) (s : Resolver) (w : World) :
    Loader.compileModels p s w [] = .ok ([], w) ∧
    (∀ v, Loader.compileModels p s w [v] =
      (Protocol.fromModel p s w v >>= fun r => .ok ([r.1], r.2))) ∧
    ∀ xs ys, Loader.compileModels p s w (xs ++ ys) =
      (Loader.compileModels p s w xs >>= fun r =>
        Loader.compileModels p s r.2 ys >>= fun r' => .ok (r.1 ++ r'.1, r'.2)) := by
  refine ⟨rfl, fun v => ?_, fun xs ys => ?_⟩
  · simp only [Loader.compileModels]
    cases Protocol.fromModel p s w v <;> rfl
  · induction xs generalizing w with
    | nil =>
      simp only [List.nil_append, Loader.compileModels, Res.pure_eq, Res.bind_ok]
      cases Loader.compileModels p s w ys <;> rfl
    | cons x xs ih =>
      simp only [List.cons_append, Loader.compileModels]
      cases Protocol.fromModel p s w x with
      | ok r =>
        simp only [Res.bind_ok, ih]
        cases Loader.compileModels p s r.2 xs with
        | ok r' =>
          simp only [Res.bind_ok, Res.pure_eq]
          cases Loader.compileModels p s r'.2 ys <;> rfl
        | err e => rfl
        | panic => rfl
      | err e => rfl
      | panic => rfl

/-- C50: loading appends; compiling is compiling the imports, then the models against them. -/
theorem C50_loader (p : Profile) (l : Loader) (s : SimpleImportSolver) (w : World) (v : Model.Protocol)
    (path : Name) :
    Loader.new.models = [] ∧ Loader.new.importedModels = [] ∧
    (l.load v).models = l.models ++ [v] ∧ (l.load v).importedModels = l.importedModels ∧
    (l.import' v path).importedModels = l.importedModels ++ [(path, v)] ∧ (l.import' v path).models = l.models ∧
    Loader.compile p l s w = (Loader.compileImports p s w l.importedModels >>= fun r =>
      Loader.compileModels p r.1.resolver r.2 l.models) := by
  refine ⟨rfl, rfl, rfl, rfl, rfl, rfl, ?_⟩
  unfold Loader.compile
  cases Loader.compileImports p s w l.importedModels <;> rfl

/-- C50: the first import or model that fails decides the error. -/
theorem C50_first_failure {p : Profile} {s s' : SimpleImportSolver} {w w' w'' : World} {e : CError} :
    (∀ {xs ys path v ms}, Loader.compileImports p s w xs = .ok (s', w') →
      Protocol.fromModel p s'.resolver w' v = .err e →
      Loader.compile p ⟨ms, xs ++ (path, v) :: ys⟩ s w = .err e) ∧
    (∀ {xs ms protos v rest}, Loader.compileImports p s w xs = .ok (s', w') →
      Loader.compileModels p s'.resolver w' ms = .ok (protos, w'') →
      Protocol.fromModel p s'.resolver w'' v = .err e →
      Loader.compile p ⟨ms ++ v :: rest, xs⟩ s w = .err e) := by
  constructor
  · intro xs ys path v ms h1 h2
    unfold Loader.compile
    simp only [(C50_imports p s w).2.2, h1, Res.bind_ok, Loader.compileImports, h2, Res.bind_err]
  · intro xs ms protos v rest h1 h2 h3
    unfold Loader.compile
    simp only [h1, Res.bind_ok, (C50_models p s'.resolver w').2.2, h2, Loader.compileModels, h3, Res.bind_err]

theorem fromModel_name {p : Profile} {s : Resolver} {w w' : World} {v : Model.Protocol} {proto : Protocol}
    (h : Protocol.fromModel p s w v = .ok (proto, w')) : proto.name = v.name := by
  have himp : ∀ (vs : List Model.Import) (a b : Protocol), Protocol.addImports s a vs = .ok b → b.name = a.name := by
    intro vs
    induction vs with
    | nil => intro a b h; cases h; rfl
    | cons v vs ih =>
      intro a b h
      obtain ⟨c, h1, h⟩ := Res.bind_eq_ok.1 h
      rw [ih _ _ h]
      unfold Protocol.addImport at h1
      obtain ⟨r, _, h1⟩ := Res.bind_eq_ok.1 h1
      split at h1
      · obtain ⟨_, _, h1⟩ := Res.bind_eq_ok.1 h1; cases h1; rfl
      · split at h1
        · obtain ⟨_, _, h1⟩ := Res.bind_eq_ok.1 h1; cases h1; rfl
        · split at h1
          · obtain ⟨_, _, h1⟩ := Res.bind_eq_ok.1 h1; cases h1; rfl
          · obtain ⟨_, _, h1⟩ := Res.bind_eq_ok.1 h1
            obtain ⟨_, _, h1⟩ := Res.bind_eq_ok.1 h1
            cases h1; rfl
  obtain ⟨p1, p2, p3, p4, next, h1, h2, h3, h4, h5⟩ := (C44_phases _ _ _ _ _ _).1 h
  obtain ⟨es, _, rfl, _⟩ := (C44_enums _ _ _).1 h2
  obtain ⟨ss, _, _, rfl, _⟩ := (C44_structs _ _ _ _ _ _).1 h3
  obtain ⟨us, _, rfl, _⟩ := (C44_unions _ _ _).1 h4
  obtain ⟨ms, _, _, _, _, rfl, _⟩ := (C44_messages _ _ _ _ _).1 h5
  exact himp _ _ _ h1

/-- C50: a successful load yields one protocol per model, in load order; the `i`-th is the `i`-th
model compiled against the imports (it sees no other model). -/
theorem C50_order {p : Profile} {l : Loader} {s : SimpleImportSolver} {w w' : World} {protos : List Protocol}
    (h : Loader.compile p l s w = .ok (protos, w')) :
    protos.length = l.models.length ∧ protos.map Protocol.name = l.models.map Model.Protocol.name ∧
    ∃ s' w1, Loader.compileImports p s w l.importedModels = .ok (s', w1) ∧
      ∀ i (hi : i < protos.length) (hv : i < l.models.length), ∃ wi wj,
        Protocol.fromModel p s'.resolver wi l.models[i] = .ok (protos[i], wj) := by
  rw [(C50_loader p l s w { name := [] } []).2.2.2.2.2.2] at h
  obtain ⟨⟨s', w1⟩, h1, h⟩ := Res.bind_eq_ok.1 h
  have key : ∀ (vs : List Model.Protocol) (w : World) (protos : List Protocol) (w' : World),
      Loader.compileModels p s'.resolver w vs = .ok (protos, w') →
      protos.length = vs.length ∧ protos.map Protocol.name = vs.map Model.Protocol.name ∧
      ∀ i (hi : i < protos.length) (hv : i < vs.length), ∃ wi wj,
        Protocol.fromModel p s'.resolver wi vs[i] = .ok (protos[i], wj) := by
    intro vs
    induction vs with
    | nil => intro w protos w' h; cases h; simp
    | cons v vs ih =>
      intro w protos w' h
      simp only [Loader.compileModels] at h
      obtain ⟨⟨proto, w2⟩, h2, h⟩ := Res.bind_eq_ok.1 h
      obtain ⟨⟨ps, w3⟩, h3, h⟩ := Res.bind_eq_ok.1 h
      cases h
      obtain ⟨i1, i2, i3⟩ := ih _ _ _ h3
      refine ⟨by simp [i1], by simp [i2, fromModel_name h2], fun i hi hv => ?_⟩
      cases i with
      | zero => exact ⟨_, _, h2⟩
      | succ i => exact i3 i (by simpa using hi) (by simpa using hv)
  obtain ⟨k1, k2, k3⟩ := key _ _ _ _ h
  exact ⟨k1, k2, s', w1, h1, k3⟩

namespace Ex

/-- A library model and a model importing from it. -/
def lib : Model.Protocol :=
  { name := "Lib".toList, structs := [⟨['A'], [⟨['x'], .unsigned 8, none, none⟩, ⟨['y'], .unsigned 8, none, none⟩]⟩] }

def user : Model.Protocol :=
  { name := "User".toList, imports := [⟨"Lib".toList, ['A']⟩],
    structs := [⟨['B'], [⟨['a'], .struct ['A'], none, none⟩]⟩] }

end Ex

example : (match Loader.compile .checked ⟨[Ex.user, Ex.lib], [("lib".toList, Ex.lib)]⟩
      SimpleImportSolver.default ⟨0, []⟩ with
    | .ok (protos, w) => some (protos.map fun q => (q.name, q.structs.map Structure.byteSize,
        typePath q.typePathByName ['A']), w.next)
    | _ => none) =
    some ([("User".toList, [2], "lib::A".toList), ("Lib".toList, [2], ['A'])], 3) := by decide +kernel

/-- C50: a model does not see the other models loaded with it. -/
theorem C50_models_isolated : Loader.compile .checked ⟨[Ex.lib, Ex.user], []⟩ SimpleImportSolver.default ⟨0, []⟩ =
    .err (.undefinedReference "Lib".toList) := by rfl

namespace Ex

/-- `Lib` compiled and registered under the path `lib`. -/
def libC : Protocol :=
  match Protocol.fromModel .checked Resolver.none ⟨0, []⟩ lib with
  | .ok (r, _) => r
  | _ => Protocol.empty lib

def solver : SimpleImportSolver := SimpleImportSolver.default.register "lib".toList libC

end Ex

example : ∃ proto', Protocol.addImport Ex.solver.resolver (Protocol.empty Ex.user) ⟨"Lib".toList, ['A']⟩ = .ok proto' ∧
    typePath proto'.typePathByName ['A'] = "lib::A".toList := by
  have h := (C49_import (s := Ex.solver) (v := ⟨"Lib".toList, ['A']⟩) (base := "lib".toList) (r := Ex.libC) rfl
    (Protocol.empty Ex.user)).1 _ rfl
  exact ⟨_, h, rfl⟩

example : Protocol.addImport Ex.solver.resolver (Protocol.empty Ex.user) ⟨"Other".toList, ['A']⟩ =
    .err (.undefinedReference "Other".toList) := C49_unregistered rfl _

example : Protocol.addImport Ex.solver.resolver (Protocol.empty Ex.user) ⟨"Lib".toList, ['Z']⟩ =
    .err (.undefinedReference "Lib::Z".toList) :=
  ((((C49_import (s := Ex.solver) (v := ⟨"Lib".toList, ['Z']⟩) (base := "lib".toList) (r := Ex.libC) rfl
    (Protocol.empty Ex.user)).2 rfl).2 rfl).2 rfl).2 rfl

example : Ex.solver.resolver.protocolByName "Lib".toList = some Ex.libC :=
  (C49_register SimpleImportSolver.default "lib".toList Ex.libC "Lib".toList []).1

example : typePath [(['A'], "lib::A".toList)] ['B'] = ['B'] :=
  ((C49_type_path [(['A'], "lib::A".toList)] [] ['B'] [] []).2.2 (by simp)).1

example : Named Ex.libC :=
  C49_named (s := Resolver.none) (by intro n r h; cases h) (w := ⟨0, []⟩) (v := Ex.lib) (p := .checked) (w' := ⟨1, []⟩)
    rfl

example : ∃ protos w', Loader.compile .checked ⟨[Ex.user], [("lib".toList, Ex.lib)]⟩ SimpleImportSolver.default ⟨0, []⟩ =
      .ok (protos, w') ∧ ∀ proto ∈ protos, proto.endianness = .little := by
  refine ⟨_, _, rfl, fun proto hp => ?_⟩
  exact (C45_always_little (p := .checked) (l := ⟨[Ex.user], [("lib".toList, Ex.lib)]⟩)
    (solver := SimpleImportSolver.default) (w := ⟨0, []⟩) rfl rfl hp).1

example : ∃ proto w', Loader.compile .checked ⟨[Ex.lib], []⟩ SimpleImportSolver.default ⟨0, []⟩ = .ok ([proto], w') ∧
    proto.Ordered .little :=
  ⟨_, _, rfl, C45_byte_order (p := .checked) (v := Ex.lib) (w' := ⟨1, []⟩) (.inl rfl) rfl⟩

example : Loader.compile .checked ⟨[Ex.lib, Ex.user, Ex.lib], []⟩ SimpleImportSolver.default ⟨0, []⟩ =
    .err (.undefinedReference "Lib".toList) :=
  (C50_first_failure).2 (xs := []) (ms := [Ex.lib]) (v := Ex.user) (rest := [Ex.lib]) rfl rfl rfl

end Proto.Props
