import Verif.Compiler.MessageLemmas
import Verif.Compiler.FlagLemmas

/-!
# Invariants of whole protocol compilations
-/

namespace Proto

theorem mem_of_lookup {α β : Type} [BEq α] [LawfulBEq α] {l : List (α × β)} {a : α} {b : β}
    (h : l.lookup a = some b) : (a, b) ∈ l := by
  induction l with
  | nil => simp at h
  | cons x l ih =>
    obtain ⟨a', b'⟩ := x
    rw [List.lookup_cons] at h
    by_cases hc : (a == a') = true
    · rw [hc] at h
      simp only [Option.some.injEq] at h
      rw [beq_iff_eq] at hc
      subst hc h
      simp
    · simp only [Bool.not_eq_true] at hc
      rw [hc] at h
      exact List.mem_cons_of_mem _ (ih h)

variable {S S' : Structure → Prop} {U U' : Union → Prop} {M M' : Message → Prop}

theorem Protocol.Types.mono {proto : Protocol} (h : proto.Types S U M) (hS : ∀ s, S s → S' s)
    (hU : ∀ u, U u → U' u) (hM : ∀ m, M m → M' m) : proto.Types S' U' M' where
  structsByName x hx := hS _ (h.structsByName x hx)
  unionsByName x hx := hU _ (h.unionsByName x hx)
  messagesByName x hx := hM _ (h.messagesByName x hx)
  structs x hx := hS _ (h.structs x hx)
  unions x hx := hU _ (h.unions x hx)
  messages x hx := hM _ (h.messages x hx)
  little := h.little

theorem Protocol.empty_types (v : Model.Protocol) : (Protocol.empty v).Types S U M where
  structsByName := by simp [Protocol.empty]
  unionsByName := by simp [Protocol.empty]
  messagesByName := by simp [Protocol.empty]
  structs := by simp [Protocol.empty]
  unions := by simp [Protocol.empty]
  messages := by simp [Protocol.empty]
  little := rfl

theorem Protocol.Types.addStruct {proto : Protocol} (h : proto.Types S U M) {n : Name} {s : Structure}
    (hs : S s) (l : List Structure) (hl : ∀ x ∈ l, S x) (paths : List (Name × Name)) :
    Protocol.Types S U M { proto with structsByName := (n, s) :: proto.structsByName,
                                      structs := l, typePathByName := paths } where
  structsByName := by
    intro x hx
    rcases List.mem_cons.1 hx with rfl | hx
    · exact hs
    · exact h.structsByName x hx
  unionsByName := h.unionsByName
  messagesByName := h.messagesByName
  structs := hl
  unions := h.unions
  messages := h.messages
  little := h.little

theorem Protocol.Types.addEnum {proto : Protocol} (h : proto.Types S U M) (l : List (Name × Enum))
    (es : List Enum) (paths : List (Name × Name)) :
    Protocol.Types S U M { proto with enumsByName := l, enums := es, typePathByName := paths } where
  structsByName := h.structsByName
  unionsByName := h.unionsByName
  messagesByName := h.messagesByName
  structs := h.structs
  unions := h.unions
  messages := h.messages
  little := h.little

theorem Protocol.Types.addUnion {proto : Protocol} (h : proto.Types S U M) {n : Name} {u : Union}
    (hu : U u) (l : List Union) (hl : ∀ x ∈ l, U x) (paths : List (Name × Name)) :
    Protocol.Types S U M { proto with unionsByName := (n, u) :: proto.unionsByName,
                                      unions := l, typePathByName := paths } where
  structsByName := h.structsByName
  unionsByName := by
    intro x hx
    rcases List.mem_cons.1 hx with rfl | hx
    · exact hu
    · exact h.unionsByName x hx
  messagesByName := h.messagesByName
  structs := h.structs
  unions := hl
  messages := h.messages
  little := h.little

theorem Protocol.Types.addMessage {proto : Protocol} (h : proto.Types S U M) {n : Name} {m : Message}
    (hm : M m) (l : List Message) (hl : ∀ x ∈ l, M x) (paths : List (Name × Name)) :
    Protocol.Types S U M { proto with messagesByName := (n, m) :: proto.messagesByName,
                                      messages := l, typePathByName := paths } where
  structsByName := h.structsByName
  unionsByName := h.unionsByName
  messagesByName := by
    intro x hx
    rcases List.mem_cons.1 hx with rfl | hx
    · exact hm
    · exact h.messagesByName x hx
  structs := h.structs
  unions := h.unions
  messages := hl
  little := h.little

theorem Protocol.addImport_types {solver : Resolver} (hs : solver.Types S U M) {proto proto' : Protocol}
    (h : proto.Types S U M) {v : Model.Import} (hok : Protocol.addImport solver proto v = .ok proto') :
    proto'.Types S U M := by
  unfold Protocol.addImport at hok
  obtain ⟨r, hr, hok⟩ := Res.bind_eq_ok.1 hok
  have hr := hs _ _ (Res.ofOption_eq_ok hr)
  split at hok
  · next s hl =>
    obtain ⟨path, _, hok⟩ := Res.bind_eq_ok.1 hok
    cases hok
    exact h.addStruct (hr.structsByName _ (mem_of_lookup hl)) _ h.structs _
  · split at hok
    · obtain ⟨path, _, hok⟩ := Res.bind_eq_ok.1 hok
      cases hok
      exact h.addEnum _ _ _
    · split at hok
      · next u hl =>
        obtain ⟨path, _, hok⟩ := Res.bind_eq_ok.1 hok
        cases hok
        exact h.addUnion (hr.unionsByName _ (mem_of_lookup hl)) _ h.unions _
      · obtain ⟨m, hm, hok⟩ := Res.bind_eq_ok.1 hok
        obtain ⟨path, _, hok⟩ := Res.bind_eq_ok.1 hok
        cases hok
        exact h.addMessage (hr.messagesByName _ (mem_of_lookup (Res.ofOption_eq_ok hm))) _ h.messages _

theorem Protocol.addImports_types {solver : Resolver} (hs : solver.Types S U M) {vs : List Model.Import}
    {proto proto' : Protocol} (h : proto.Types S U M)
    (hok : Protocol.addImports solver proto vs = .ok proto') : proto'.Types S U M := by
  induction vs generalizing proto with
  | nil => cases hok; exact h
  | cons v vs ih =>
    obtain ⟨proto1, h1, hok⟩ := Res.bind_eq_ok.1 hok
    exact ih (Protocol.addImport_types hs h h1) hok

theorem Protocol.addEnums_types {vs : List Model.Enum} {proto proto' : Protocol} (h : proto.Types S U M)
    (hok : Protocol.addEnums proto vs = .ok proto') : proto'.Types S U M := by
  induction vs generalizing proto with
  | nil => cases hok; exact h
  | cons v vs ih =>
    obtain ⟨e, h1, hok⟩ := Res.bind_eq_ok.1 hok
    exact ih (h.addEnum _ _ _) hok

/-- The steps of an invariant of compilation: `k` is what is known of the allocations made so far,
`inv k next` relates it to the next identity, `dS` is assumed of the declared structures. -/
structure Closed (p : Profile) (dS : Model.Structure → Prop) (κ : Type) (ext : κ → κ → Prop) (inv : κ → Nat → Prop)
    (S : κ → Structure → Prop) (U : κ → Union → Prop) (M : κ → Message → Prop) : Prop where
  refl : ∀ k, ext k k
  trans : ∀ k₁ k₂ k₃, ext k₁ k₂ → ext k₂ k₃ → ext k₁ k₃
  monoS : ∀ k k' s, ext k k' → S k s → S k' s
  monoU : ∀ k k' u, ext k k' → U k u → U k' u
  monoM : ∀ k k' m, ext k k' → M k m → M k' m
  struct : ∀ k next (proto : Protocol) v s, dS v → inv k next → proto.Types (S k) (U k) (M k) →
    Structure.fromModel p proto.structsByName proto.enumsByName proto.endianness next v = .ok s →
    ∃ k', ext k k' ∧ inv k' (next + 1) ∧ S k' s
  union : ∀ k (proto : Protocol) v u, proto.Types (S k) (U k) (M k) → Union.fromModel proto v = .ok u → U k u
  message : ∀ k next (proto : Protocol) v m emb emb', inv k next → proto.Types (S k) (U k) (M k) →
    Message.fromModel proto emb next v = .ok (m, emb') → ∃ k', ext k k' ∧ inv k' (next + 1) ∧ M k' m

namespace Closed

variable {p : Profile} {dS : Model.Structure → Prop} {κ : Type} {ext : κ → κ → Prop} {inv : κ → Nat → Prop}
    {S : κ → Structure → Prop} {U : κ → Union → Prop} {M : κ → Message → Prop}

theorem mono (c : Closed p dS κ ext inv S U M) {k k' : κ} (he : ext k k') {proto : Protocol}
    (h : proto.Types (S k) (U k) (M k)) : proto.Types (S k') (U k') (M k') :=
  h.mono (fun _ => c.monoS _ _ _ he) (fun _ => c.monoU _ _ _ he) (fun _ => c.monoM _ _ _ he)

theorem addStructs (c : Closed p dS κ ext inv S U M) {vs : List Model.Structure} {k : κ} {next next' : Nat}
    {proto proto' : Protocol} (hi : inv k next) (h : proto.Types (S k) (U k) (M k))
    (hd : ∀ v ∈ vs, dS v) (hok : Protocol.addStructs p next proto vs = .ok (proto', next')) :
    ∃ k', ext k k' ∧ inv k' next' ∧ proto'.Types (S k') (U k') (M k') := by
  induction vs generalizing proto k next with
  | nil => cases hok; exact ⟨k, c.refl k, hi, h⟩
  | cons v vs ih =>
    obtain ⟨s, h1, hok⟩ := Res.bind_eq_ok.1 hok
    obtain ⟨k1, he, hi1, hs⟩ := c.struct _ _ _ _ _ (hd v (by simp)) hi h h1
    have h' := c.mono he h
    obtain ⟨k2, he2, h2⟩ := ih hi1 (h'.addStruct hs (proto.structs ++ [s]) (by
      intro x hx
      rcases List.mem_append.1 hx with hx | hx
      · exact h'.structs x hx
      · simp only [List.mem_singleton] at hx; exact hx ▸ hs) proto.typePathByName)
      (fun v hv => hd v (by simp [hv])) hok
    exact ⟨k2, c.trans _ _ _ he he2, h2⟩

theorem addUnions (c : Closed p dS κ ext inv S U M) {vs : List Model.Union} {k : κ}
    {proto proto' : Protocol} (h : proto.Types (S k) (U k) (M k))
    (hok : Protocol.addUnions proto vs = .ok proto') : proto'.Types (S k) (U k) (M k) := by
  induction vs generalizing proto with
  | nil => cases hok; exact h
  | cons v vs ih =>
    obtain ⟨u, h1, hok⟩ := Res.bind_eq_ok.1 hok
    have hu := c.union _ _ _ _ h h1
    exact ih (h.addUnion hu (proto.unions ++ [u]) (by
      intro x hx
      rcases List.mem_append.1 hx with hx | hx
      · exact h.unions x hx
      · simp only [List.mem_singleton] at hx; exact hx ▸ hu) proto.typePathByName) hok

theorem addMessages (c : Closed p dS κ ext inv S U M) {vs : List Model.Message} {k : κ} {w w' : World}
    {proto proto' : Protocol} (hi : inv k w.next) (h : proto.Types (S k) (U k) (M k))
    (hok : Protocol.addMessages w proto vs = .ok (proto', w')) :
    ∃ k', ext k k' ∧ inv k' w'.next ∧ proto'.Types (S k') (U k') (M k') := by
  induction vs generalizing proto k w with
  | nil => cases hok; exact ⟨k, c.refl k, hi, h⟩
  | cons v vs ih =>
    obtain ⟨⟨m, emb⟩, h1, hok⟩ := Res.bind_eq_ok.1 hok
    obtain ⟨k1, he, hi1, hm⟩ := c.message _ _ _ _ _ _ _ hi h h1
    have h' := c.mono he h
    obtain ⟨k2, he2, h2⟩ := ih (w := ⟨w.next + 1, emb⟩) hi1 (h'.addMessage hm (proto.messages ++ [m]) (by
      intro x hx
      rcases List.mem_append.1 hx with hx | hx
      · exact h'.messages x hx
      · simp only [List.mem_singleton] at hx; exact hx ▸ hm) proto.typePathByName) hok
    exact ⟨k2, c.trans _ _ _ he he2, h2⟩

/-- The invariant holds of every compiled protocol. -/
theorem fromModel (c : Closed p dS κ ext inv S U M) {k : κ} {solver : Resolver} {w w' : World}
    {v : Model.Protocol} {proto : Protocol} (hi : inv k w.next) (hs : solver.Types (S k) (U k) (M k))
    (hd : ∀ x ∈ v.structs, dS x) (hok : Protocol.fromModel p solver w v = .ok (proto, w')) :
    ∃ k', ext k k' ∧ inv k' w'.next ∧ proto.Types (S k') (U k') (M k') := by
  unfold Protocol.fromModel at hok
  obtain ⟨p1, h1, hok⟩ := Res.bind_eq_ok.1 hok
  obtain ⟨p2, h2, hok⟩ := Res.bind_eq_ok.1 hok
  obtain ⟨⟨p3, next⟩, h3, hok⟩ := Res.bind_eq_ok.1 hok
  obtain ⟨p4, h4, hok⟩ := Res.bind_eq_ok.1 hok
  have t1 := Protocol.addImports_types hs (Protocol.empty_types v) h1
  have t2 := Protocol.addEnums_types t1 h2
  obtain ⟨k3, e3, i3, t3⟩ := c.addStructs hi t2 hd h3
  have t4 := c.addUnions t3 h4
  obtain ⟨k5, e5, h5⟩ := c.addMessages (w := ⟨next, w.embedded⟩) i3 t4 hok
  exact ⟨k5, c.trans _ _ _ e3 e5, h5⟩

theorem monoSolver (c : Closed p dS κ ext inv S U M) {k k' : κ} (he : ext k k') {s : SimpleImportSolver}
    (h : s.Types (S k) (U k) (M k)) : s.Types (S k') (U k') (M k') :=
  fun x hx => c.mono he (h x hx)

theorem resolver {S : Structure → Prop} {U : Union → Prop} {M : Message → Prop} {s : SimpleImportSolver}
    (h : s.Types S U M) : s.resolver.Types S U M := by
  intro n proto hl
  simp only [SimpleImportSolver.resolver, Option.map_eq_some_iff] at hl
  obtain ⟨x, hx, rfl⟩ := hl
  exact h _ (mem_of_lookup hx)

theorem compileImports (c : Closed p dS κ ext inv S U M) {vs : List (Name × Model.Protocol)} {k : κ}
    {solver solver' : SimpleImportSolver} {w w' : World} (hi : inv k w.next)
    (hs : solver.Types (S k) (U k) (M k))
    (hd : ∀ v ∈ vs, ∀ x ∈ v.2.structs, dS x)
    (hok : Loader.compileImports p solver w vs = .ok (solver', w')) :
    ∃ k', ext k k' ∧ inv k' w'.next ∧ solver'.Types (S k') (U k') (M k') := by
  induction vs generalizing solver k w with
  | nil => cases hok; exact ⟨k, c.refl k, hi, hs⟩
  | cons v vs ih =>
    obtain ⟨path, v⟩ := v
    obtain ⟨⟨proto, w1⟩, h1, hok⟩ := Res.bind_eq_ok.1 hok
    obtain ⟨k1, e1, i1, t1⟩ := c.fromModel hi (resolver hs) (hd (path, v) (by simp)) h1
    obtain ⟨k2, e2, h2⟩ := ih i1 (by
      intro x hx
      rcases List.mem_cons.1 hx with rfl | hx
      · exact t1
      · exact c.monoSolver e1 hs x hx) (fun v hv => hd v (by simp [hv])) hok
    exact ⟨k2, c.trans _ _ _ e1 e2, h2⟩

theorem compileModels (c : Closed p dS κ ext inv S U M) {vs : List Model.Protocol} {k : κ}
    {solver : SimpleImportSolver} {w w' : World} {protos : List Protocol} (hi : inv k w.next)
    (hs : solver.Types (S k) (U k) (M k))
    (hd : ∀ v ∈ vs, ∀ x ∈ v.structs, dS x)
    (hok : Loader.compileModels p solver.resolver w vs = .ok (protos, w')) :
    ∃ k', ext k k' ∧ inv k' w'.next ∧ ∀ proto ∈ protos, proto.Types (S k') (U k') (M k') := by
  induction vs generalizing k w protos with
  | nil => cases hok; exact ⟨k, c.refl k, hi, by simp⟩
  | cons v vs ih =>
    obtain ⟨⟨proto, w1⟩, h1, hok⟩ := Res.bind_eq_ok.1 hok
    obtain ⟨⟨protos1, w2⟩, h2, hok⟩ := Res.bind_eq_ok.1 hok
    cases hok
    obtain ⟨k1, e1, i1, t1⟩ := c.fromModel hi (resolver hs) (hd _ (by simp)) h1
    obtain ⟨k2, e2, i2, t2⟩ := ih i1 (c.monoSolver e1 hs) (fun v hv => hd v (by simp [hv])) h2
    refine ⟨k2, c.trans _ _ _ e1 e2, i2, fun x hx => ?_⟩
    rcases List.mem_cons.1 hx with rfl | hx
    · exact c.mono e2 t1
    · exact t2 x hx

/-- The invariant holds of everything a loader compiles. -/
theorem compile (c : Closed p dS κ ext inv S U M) {l : Loader} {k : κ} {solver : SimpleImportSolver}
    {w w' : World} {protos : List Protocol} (hi : inv k w.next) (hs : solver.Types (S k) (U k) (M k))
    (hdi : ∀ v ∈ l.importedModels, ∀ x ∈ v.2.structs, dS x) (hdm : ∀ v ∈ l.models, ∀ x ∈ v.structs, dS x)
    (hok : Loader.compile p l solver w = .ok (protos, w')) :
    ∃ k', ext k k' ∧ inv k' w'.next ∧ ∀ proto ∈ protos, proto.Types (S k') (U k') (M k') := by
  unfold Loader.compile at hok
  obtain ⟨⟨solver1, w1⟩, h1, hok⟩ := Res.bind_eq_ok.1 hok
  obtain ⟨k1, e1, i1, t1⟩ := c.compileImports hi hs hdi h1
  obtain ⟨k2, e2, h2⟩ := c.compileModels i1 t1 hdm hok
  exact ⟨k2, c.trans _ _ _ e1 e2, h2⟩

end Closed

/-! ## The invariant -/

theorem Referenced.lookup_types {proto : Protocol} (h : proto.Types S U M) {n : Name} {r : Referenced}
    (hl : Referenced.lookup proto n = some r) :
    (∃ s, r = .struct s ∧ S s) ∨ (∃ m, r = .message m ∧ M m) := by
  rcases Referenced.lookup_eq_some.1 hl with ⟨s, hs, rfl⟩ | ⟨_, m, hm, rfl⟩
  · exact .inl ⟨s, rfl, h.structsByName _ (mem_of_lookup hs)⟩
  · exact .inr ⟨m, rfl, h.messagesByName _ (mem_of_lookup hm)⟩

theorem casesFromModel_mem {proto : Protocol} {d : Discriminant} {vs : List Model.UCase} {ks : List UCase}
    (h : Union.casesFromModel proto d vs = .ok ks) :
    ∀ k ∈ ks, ∀ r, k.itemType = some r → ∃ n, Referenced.lookup proto n = some r := by
  induction vs generalizing ks with
  | nil => cases h; simp
  | cons v vs ih =>
    unfold Union.casesFromModel at h
    obtain ⟨leaf, _, h⟩ := Res.bind_eq_ok.1 h
    obtain ⟨k0, hk0, h⟩ := Res.bind_eq_ok.1 h
    obtain ⟨ks1, hks, h⟩ := Res.bind_eq_ok.1 h
    cases h
    intro k hk r hr
    rcases List.mem_cons.1 hk with rfl | hk
    · unfold UCase.fromModel at hk0
      obtain ⟨c, _, hk0⟩ := Res.bind_eq_ok.1 hk0
      obtain ⟨t, ht, hk0⟩ := Res.bind_eq_ok.1 hk0
      cases hk0
      simp only [UCase.itemType] at hr
      subst hr
      cases hn : v.itemType with
      | none => rw [hn] at ht; cases ht
      | some n =>
        rw [hn] at ht
        obtain ⟨r', hr', ht⟩ := Res.bind_eq_ok.1 ht
        cases ht
        exact ⟨n, Res.ofOption_eq_ok hr'⟩
    · exact ih hks k hk r hr

/-- Inversion of `Union.fromModel`. -/
theorem Union.fromModel_eq_ok {proto : Protocol} {v : Model.Union} {u : Union} :
    Union.fromModel proto v = .ok u ↔ ∃ d ks, Discriminant.fromModel proto v.discriminant = .ok d ∧
      Union.casesFromModel proto d v.cases = .ok ks ∧
      u = .mk v.name d ks ⟨Union.anySize SizeInfo.isDynSized ks, Union.anySize SizeInfo.isElementDynSized ks⟩ := by
  unfold Union.fromModel
  constructor
  · intro h
    obtain ⟨d, hd, h⟩ := Res.bind_eq_ok.1 h
    obtain ⟨ks, hk, h⟩ := Res.bind_eq_ok.1 h
    cases h
    exact ⟨d, ks, hd, hk, rfl⟩
  · rintro ⟨d, ks, hd, hk, rfl⟩
    rw [hd, Res.bind_ok, hk, Res.bind_ok]
    rfl

theorem anySize_of_mem {flag : SizeInfo → Bool} {ks : List UCase} {k : UCase} {r : Referenced}
    (hk : k ∈ ks) (hr : k.itemType = some r) (hf : flag r.size = true) : Union.anySize flag ks = true := by
  unfold Union.anySize
  rw [List.any_eq_true]
  exact ⟨k, hk, by rw [hr]; exact hf⟩

theorem Union.fromModel_flagged {proto : Protocol} {v : Model.Union} {u : Union}
    (h : Union.fromModel proto v = .ok u) : u.Flagged := by
  obtain ⟨d, ks, _, _, rfl⟩ := Union.fromModel_eq_ok.1 h
  intro k hk r hr
  exact ⟨anySize_of_mem hk hr, anySize_of_mem hk hr⟩

theorem Discriminant.fromModel_root {proto : Protocol} {n : Name} {d : Discriminant}
    (h : Discriminant.fromModel proto n = .ok d) : ∃ m, proto.structsByName.lookup m = some d.root := by
  unfold Discriminant.fromModel at h
  split at h
  · cases h
  · next name parts _ =>
    obtain ⟨root, hr, h⟩ := Res.bind_eq_ok.1 h
    obtain ⟨⟨leaf, is⟩, hw, h⟩ := Res.bind_eq_ok.1 h
    simp only at h
    split at h
    · cases h; exact ⟨name, Res.ofOption_eq_ok hr⟩
    · cases h

/-- The allocations: which structure lives at which identity. -/
abbrev Heap := Nat → Option Structure

/-- The invariant of structures: the heap holds it at its identity, and `good`. -/
def HeapS (good : Structure → Prop) (T : Heap) (s : Structure) : Prop := T s.id = some s ∧ good s

/-- The invariant of unions. -/
def HeapU (good : Structure → Prop) (T : Heap) (u : Union) : Prop :=
  HeapS good T u.discriminant.root ∧ u.Flagged ∧ u.AllMessages (Message.Accepted good) ∧ u.Structs good

theorem FieldOf.structs {proto : Protocol} {q : Structure → Prop} {before : List MField}
    {v : Model.MField} {f : MField} (h : FieldOf proto before v f)
    (hs : ∀ n s, proto.structsByName.lookup n = some s → q s)
    (hu : ∀ n u, proto.unionsByName.lookup n = some u → u.Structs q) : f.ty.Structs q := by
  obtain ⟨-, -, h⟩ := h
  split at h
  · rcases h with ⟨_, ⟨s, ty, _, _, ht, _⟩ | ⟨s, hl, _, ht, _⟩ | ⟨_, m, _, ht, _⟩⟩ <;> rw [ht] <;>
      simp only [MFieldTy.Structs]
    exact hs _ _ hl
  · rcases h with ⟨_, ty, _, ⟨s, hl, ht, _⟩ | ⟨_, m, _, ht, _⟩⟩ <;> rw [ht] <;>
      simp only [MFieldTy.Structs]
    exact hs _ _ hl
  · obtain ⟨_, ht, _⟩ := h; rw [ht]; simp only [MFieldTy.Structs]
  · obtain ⟨_, ty, _, ht, _⟩ := h; rw [ht]; simp only [MFieldTy.Structs]
  · obtain ⟨_, u, i, g, s, hl, _, _, _, _, ht, _⟩ := h
    rw [ht]
    simp only [MFieldTy.Structs]
    exact hu _ _ hl
  · obtain ⟨_, ht, _⟩ := h; rw [ht]; simp only [MFieldTy.Structs]

theorem FieldOf.allMessages {proto : Protocol} {q : Message → Prop} {before : List MField}
    {v : Model.MField} {f : MField} (h : FieldOf proto before v f)
    (hm : ∀ n m, proto.messagesByName.lookup n = some m → m.AllMessages q)
    (hu : ∀ n u, proto.unionsByName.lookup n = some u → u.AllMessages q) : f.ty.AllMessages q := by
  obtain ⟨-, -, h⟩ := h
  split at h
  · rcases h with ⟨_, ⟨s, ty, _, _, ht, hs⟩ | ⟨s, _, _, ht, hs⟩ | ⟨_, m, hl, ht, hs⟩⟩ <;> rw [ht] <;>
      simp only [MFieldTy.AllMessages, Referenced.AllMessages]
    exact hm _ _ hl
  · rcases h with ⟨_, ty, _, ⟨s, _, ht, hs⟩ | ⟨_, m, hl, ht, hs⟩⟩ <;> rw [ht] <;>
      simp only [MFieldTy.AllMessages]
    exact hm _ _ hl
  · obtain ⟨_, ht, hs⟩ := h; rw [ht]; simp only [MFieldTy.AllMessages]
  · obtain ⟨_, ty, _, ht, hs⟩ := h; rw [ht]; simp only [MFieldTy.AllMessages]
  · obtain ⟨_, u, i, g, s, hl, _, _, _, _, ht, hs⟩ := h
    rw [ht]
    simp only [MFieldTy.AllMessages]
    exact hu _ _ hl
  · obtain ⟨_, ht, hs⟩ := h; rw [ht]; simp only [MFieldTy.AllMessages]

/-- Every field of a compiled list, with the fields before it. -/
theorem Fields.split {proto : Protocol} {vs : List Model.MField} {emb emb' : List Nat}
    {before fs : List MField} (h : Fields proto emb before vs fs emb') :
    ∀ pre f post, fs = pre ++ f :: post → ∃ v ∈ vs, FieldOf proto (before ++ pre) v f := by
  induction h with
  | nil => intro pre f post h; simp at h
  | @cons emb emb1 emb2 before fs v vs f hf _ ih =>
    intro pre g post heq
    cases pre with
    | nil =>
      simp only [List.nil_append, List.cons.injEq] at heq
      obtain ⟨rfl, rfl⟩ := heq
      exact ⟨v, by simp, by simpa using (MField.fromModel_spec hf).1⟩
    | cons x pre =>
      simp only [List.cons_append, List.cons.injEq] at heq
      obtain ⟨rfl, rfl⟩ := heq
      obtain ⟨v', hv', h'⟩ := ih pre g post rfl
      exact ⟨v', by simp [hv'], by simpa using h'⟩

theorem find?_of_findIdx? {α : Type} {p : α → Bool} {l : List α} {i : Nat} (h : l.findIdx? p = some i) :
    l.find? p = l[i]? := by
  obtain ⟨hlt, hx, hmin⟩ := List.findIdx?_eq_some_iff_getElem.1 h
  rw [List.getElem?_eq_getElem hlt, List.find?_eq_some_iff_getElem]
  exact ⟨hx, i, hlt, rfl, fun j hj => by simpa using hmin j hj⟩

/-- Messages compiled against a protocol within the invariant are within the invariant. -/
theorem Message.fromModel_accepted {good : Structure → Prop} {T : Heap} {proto : Protocol}
    (h : proto.Types (HeapS good T) (HeapU good T) (fun m => m.AllMessages (Message.Accepted good)))
    {emb emb' : List Nat} {id : Nat} {v : Model.Message} {m : Message}
    (hok : Message.fromModel proto emb id v = .ok (m, emb')) : m.AllMessages (Message.Accepted good) := by
  obtain ⟨fs, hf, hl, rfl⟩ := Message.fromModel_eq_ok.1 hok
  have hsplit := hf.split
  have hmem : ∀ f ∈ fs, ∃ pre v, FieldOf proto pre v f := by
    intro f hf
    obtain ⟨pre, post, rfl⟩ := List.append_of_mem hf
    obtain ⟨v, _, hv⟩ := hsplit pre f post rfl
    exact ⟨_, v, hv⟩
  rw [Message.allMessages_iff]
  refine ⟨⟨⟨rfl, fun f hf => ?_⟩, hl, ?_, fun f hf => ?_, fun f hf => ?_⟩, fun f hf => ?_⟩
  · obtain ⟨pre, v, hv⟩ := hmem f hf
    exact hv.flagged fun n u hu => (h.unionsByName _ (mem_of_lookup hu)).2.1
  · intro before f after heq u on i ht
    obtain ⟨v, _, hv⟩ := hsplit before f after heq
    rw [List.nil_append] at hv
    obtain ⟨-, -, hv⟩ := hv
    split at hv
    · rcases hv with ⟨_, ⟨s, ty, _, _, ht', _⟩ | ⟨s, _, _, ht', _⟩ | ⟨_, m, _, ht', _⟩⟩ <;>
        rw [ht'] at ht <;> cases ht
    · rcases hv with ⟨_, ty, _, ⟨s, _, ht', _⟩ | ⟨_, m, _, ht', _⟩⟩ <;> rw [ht'] at ht <;> cases ht
    · rw [hv.2.1] at ht; cases ht
    · obtain ⟨_, ty, _, ht', _⟩ := hv; rw [ht'] at ht; cases ht
    · obtain ⟨_, u', i', g, s, hlk, hidx, hget, hgt, hid, ht', _⟩ := hv
      rw [ht'] at ht
      cases ht
      have hroot := (h.unionsByName _ (mem_of_lookup hlk)).1.1
      have hs : T s.id = some s := by
        have hg : g ∈ fs := by
          have := List.mem_of_getElem? hget
          simp only [Message.fields] at heq
          rw [heq]; simp [this]
        obtain ⟨pre, v, _, _, hv⟩ := hmem g hg
        split at hv
        · rcases hv with ⟨_, ⟨s', ty, _, _, ht', _⟩ | ⟨s', hl', _, ht', _⟩ | ⟨_, m, _, ht', _⟩⟩ <;>
            rw [ht'] at hgt <;> cases hgt
          exact (h.structsByName _ (mem_of_lookup hl')).1
        · rcases hv with ⟨_, ty, _, ⟨s, _, ht', _⟩ | ⟨_, m, _, ht', _⟩⟩ <;> rw [ht'] at hgt <;> cases hgt
        · rw [hv.2.1] at hgt; cases hgt
        · obtain ⟨_, ty, _, ht', _⟩ := hv; rw [ht'] at hgt; cases hgt
        · obtain ⟨_, u', i', g, s, _, _, _, _, _, ht', _⟩ := hv
          rw [ht'] at hgt; cases hgt
        · rw [hv.2.1] at hgt; cases hgt
      rw [← hid, hroot] at hs
      cases hs
      exact ⟨g, by rw [find?_of_findIdx? hidx]; exact hget, hget, hgt⟩
    · rw [hv.2.1] at ht; cases ht
  · obtain ⟨pre, v, hv⟩ := hmem f hf
    rw [hv.2.1]
    exact h.little
  · obtain ⟨pre, v, hv⟩ := hmem f hf
    exact hv.structs (fun n s hs => (h.structsByName _ (mem_of_lookup hs)).2)
      (fun n u hu => (h.unionsByName _ (mem_of_lookup hu)).2.2.2)
  · obtain ⟨pre, v, hv⟩ := hmem f hf
    exact hv.allMessages (fun n m hm => h.messagesByName _ (mem_of_lookup hm))
      (fun n u hu => (h.unionsByName _ (mem_of_lookup hu)).2.2.1)

/-- The invariant of compilation: distinct allocations have distinct identities, every structure is
`good`, every message `Accepted`. -/
theorem heapClosed (p : Profile) (dS : Model.Structure → Prop) (good : Structure → Prop)
    (hgood : ∀ structs enums id v s, dS v → (∀ n s, structs.lookup n = some s → good s) →
      Structure.fromModel p structs enums .little id v = .ok s → good s) :
    Closed p dS Heap (fun T T' => ∀ i s, T i = some s → T' i = some s)
      (fun T next => ∀ i, next ≤ i → T i = none) (HeapS good) (HeapU good)
      (fun _ m => m.AllMessages (Message.Accepted good)) where
  refl _ _ _ h := h
  trans _ _ _ h1 h2 i s h := h2 i s (h1 i s h)
  monoS _ _ _ he h := ⟨he _ _ h.1, h.2⟩
  monoU _ _ _ he h := ⟨⟨he _ _ h.1.1, h.1.2⟩, h.2⟩
  monoM _ _ _ _ h := h
  struct T next proto v s hd hi ht hok := by
    have hid : s.id = next := by
      unfold Structure.fromModel at hok
      obtain ⟨_, _, hok⟩ := Res.bind_eq_ok.1 hok
      cases hok
      rfl
    refine ⟨fun i => if i = next then some s else T i, fun i t h => ?_, fun i hi' => ?_, ?_, ?_⟩
    · have : i ≠ next := by
        rintro rfl
        rw [hi _ (Nat.le_refl _)] at h
        cases h
      simp [this, h]
    · have : i ≠ next := by omega
      simp only [this, if_false]
      exact hi i (by omega)
    · simp [hid]
    · rw [ht.little] at hok
      exact hgood _ _ _ _ _ hd (fun n s hl => (ht.structsByName _ (mem_of_lookup hl)).2) hok
  union T proto v u ht hok := by
    refine ⟨?_, Union.fromModel_flagged hok, ?_, ?_⟩
    · obtain ⟨d, ks, hd, _, rfl⟩ := Union.fromModel_eq_ok.1 hok
      obtain ⟨m, hm⟩ := Discriminant.fromModel_root hd
      exact ht.structsByName _ (mem_of_lookup hm)
    · obtain ⟨d, ks, _, hk, rfl⟩ := Union.fromModel_eq_ok.1 hok
      rw [Union.allMessages_iff]
      intro k hk' r hr
      obtain ⟨n, hn⟩ := casesFromModel_mem hk k hk' r hr
      rcases Referenced.lookup_types ht hn with ⟨s, rfl, _⟩ | ⟨m, rfl, hm⟩
      · simp [Referenced.AllMessages]
      · simpa only [Referenced.AllMessages] using hm
    · obtain ⟨d, ks, hd, hk, rfl⟩ := Union.fromModel_eq_ok.1 hok
      obtain ⟨m, hm⟩ := Discriminant.fromModel_root hd
      refine ⟨(ht.structsByName _ (mem_of_lookup hm)).2, fun k hk' s hs => ?_⟩
      obtain ⟨n, hn⟩ := casesFromModel_mem hk k hk' _ hs
      rcases Referenced.lookup_types ht hn with ⟨s', h1, h2⟩ | ⟨m, h1, _⟩
      · cases h1; exact h2.2
      · cases h1
  message T next proto v m emb emb' hi ht hok :=
    ⟨T, fun _ _ h => h, fun i hi' => hi i (by omega), Message.fromModel_accepted ht hok⟩

end Proto
