import Verif.Fixtures.Compiled
import Verif.Fixtures.Reading
import Verif.Props.Compile
import Verif.Props.Rust
import Verif.Props.Driver

/-!
# Reading, compiling and generating the schemas of `testprog`
-/

namespace Proto.Fix

open Proto.Input

/-! ## Reading -/

/-- The model with the variants of its only enum in another order. -/
def reordered (m : Model.Protocol) (l : List (Name × Nat)) : Model.Protocol :=
  { m with enums := m.enums.map fun e => { e with variants := l } }

/-- The variants of the enum `Type` as the file lists them. -/
def typeVariants : List (Name × Nat) :=
  [("Null".toList, 0), ("String".toList, 1), ("Int8".toList, 2), ("Int16".toList, 3),
    ("Int32".toList, 4), ("Int64".toList, 5), ("UInt8".toList, 6), ("UInt16".toList, 7),
    ("UInt32".toList, 8), ("UInt64".toList, 9), ("Float".toList, 10), ("Double".toList, 11)]

/-- The variants of the enum `Test` as the file lists them. -/
def testVariants : List (Name × Nat) := [("V1".toList, 0), ("V2".toList, 1)]

section
variable (s : Serde)

theorem test_reads : protocol s testJson = some testM := protocol_below s _ _ (by krfl)
theorem structs_reads : protocol s structsJson = some structsM := protocol_below s _ _ (by krfl)
theorem bits_reads : protocol s bitsJson = some bitsM := protocol_below s _ _ (by krfl)
theorem bits2_reads : protocol s bits2Json = some bits2M := protocol_below s _ _ (by krfl)
theorem views_reads : protocol s viewsJson = some viewsM := protocol_below s _ _ (by krfl)
theorem structArrays_reads : protocol s structArraysJson = some structArraysM :=
  protocol_below s _ _ (by krfl)
theorem enums_reads : protocol s enumsJson = some (reordered enumsM (s.order typeVariants)) :=
  protocol_below s _ _ (by krfl)
theorem values_reads : protocol s valuesJson = some valuesM := protocol_below s _ _ (by krfl)
theorem unions2_reads : protocol s unions2Json = some (reordered unions2M (s.order testVariants)) :=
  protocol_below s _ _ (by krfl)
theorem arrays_reads : protocol s arraysJson = some arraysM := protocol_below s _ _ (by krfl)
theorem unions_reads : protocol s unionsJson = some unionsM := protocol_below s _ _ (by krfl)
theorem lists_reads : protocol s listsJson = some listsM := protocol_below s _ _ (by krfl)

end

/-! ## Compiling -/

/-- `Protocol.addEnums` of enums compiled beforehand. -/
def addEnums : Protocol → List (C Enum) → C Protocol
  | proto, [] => pure proto
  | proto, v :: vs => do
    let e ← v
    addEnums { proto with enumsByName := (e.name, e) :: proto.enumsByName
                          enums := proto.enums ++ [e] } vs

theorem addEnums_eq (proto : Protocol) (vs : List Model.Enum) :
    Protocol.addEnums proto vs = addEnums proto (vs.map Enum.fromModel) := by
  induction vs generalizing proto with
  | nil => rfl
  | cons v vs ih => simp only [Protocol.addEnums, List.map_cons, addEnums, ih]

/-- `Protocol.fromModel` with the enums compiled beforehand. -/
def fromModel (p : Profile) (solver : Resolver) (w : World) (value : Model.Protocol)
    (enums : List (C Enum)) : C (Protocol × World) := do
  let proto ← Protocol.addImports solver (Protocol.empty value) value.imports
  let proto ← addEnums proto enums
  let (proto, next) ← Protocol.addStructs p w.next proto value.structs
  let proto ← Protocol.addUnions proto value.unions
  Protocol.addMessages ⟨next, w.embedded⟩ proto value.messages

theorem fromModel_eq {p : Profile} {solver : Resolver} {w : World} {v : Model.Protocol}
    (es : List (C Enum)) (h : v.enums.map Enum.fromModel = es) :
    Protocol.fromModel p solver w v = fromModel p solver w v es := by
  subst h
  simp only [Protocol.fromModel, fromModel, addEnums_eq]

theorem type_compiles {l : List (Name × Nat)} (h : l.Perm typeVariants) :
    Enum.fromModel ⟨"Type".toList, l⟩ = .ok enumsType := by
  rw [Props.C46_order h ((h.map _).nodup_iff.2 (by decide))]
  unfold Enum.fromModel
  rw [List.mergeSort_of_pairwise]
  · rfl
  · decide

theorem test_compiles {l : List (Name × Nat)} (h : l.Perm testVariants) :
    Enum.fromModel ⟨"Test".toList, l⟩ = .ok unions2Test := by
  rw [Props.C46_order h ((h.map _).nodup_iff.2 (by decide))]
  unfold Enum.fromModel
  rw [List.mergeSort_of_pairwise]
  · rfl
  · decide

/-- Compiling a model after another. -/
theorem models_cons {p : Profile} {r : Resolver} {w w' w'' : World} {m : Model.Protocol}
    {ms : List Model.Protocol} {x : Protocol} {xs : List Protocol}
    (h : Protocol.fromModel p r w m = .ok (x, w')) (hs : Loader.compileModels p r w' ms = .ok (xs, w'')) :
    Loader.compileModels p r w (m :: ms) = .ok (x :: xs, w'') := by
  simp only [Loader.compileModels, h, Res.bind_ok, hs, Res.pure_eq]

/-- Compiling an import after another. -/
theorem imports_cons {p : Profile} {sv : SimpleImportSolver} {w w' : World} {m : Model.Protocol}
    {path : Name} {ms : List (Name × Model.Protocol)} {x : Protocol}
    (h : Protocol.fromModel p sv.resolver w m = .ok (x, w')) :
    Loader.compileImports p sv w ((path, m) :: ms) =
      Loader.compileImports p (sv.register path x) w' ms := by
  simp only [Loader.compileImports, h, Res.bind_ok]

section
variable {l : List (Name × Nat)}

theorem enums_compiles (hl : l.Perm typeVariants) (p : Profile) (r : Resolver) (n : Nat)
    (e : List Nat) :
    Protocol.fromModel p r ⟨n, e⟩ (reordered enumsM l) = .ok (enumsP n, ⟨n + 1, e⟩) := by
  rw [fromModel_eq [.ok enumsType] (by
    show [Enum.fromModel ⟨"Type".toList, l⟩] = _
    rw [type_compiles hl])]
  cases p <;> krfl

theorem unions2_compiles (hl : l.Perm testVariants) (p : Profile) (r : Resolver) (n : Nat)
    (e : List Nat) :
    Protocol.fromModel p r ⟨n, e⟩ (reordered unions2M l) =
      .ok (plain "unions2".toList [unions2Header n, unions2Header2 (n + 1)] [] [unions2Test]
        [unions2NestedDiscriminant n], ⟨n + 2, e⟩) := by
  rw [fromModel_eq [.ok unions2Test] (by
    show [Enum.fromModel ⟨"Test".toList, l⟩] = _
    rw [test_compiles hl])]
  cases p <;> krfl

end

theorem values_compiles (p : Profile) (r : Resolver) (n : Nat) (e : List Nat) :
    Protocol.fromModel p r ⟨n, e⟩ valuesM = .ok (valuesP n, ⟨n + 11, e⟩) := by
  cases p <;> krfl

/-- The solver once `enums.json5` and `values.json5` are imported. -/
def solver2 : SimpleImportSolver :=
  (SimpleImportSolver.default.register "crate::enums".toList (enumsP 0)).register
    "crate::values".toList (valuesP 1)

theorem unions_compiles (p : Profile) :
    Protocol.fromModel p solver2.resolver ⟨12, []⟩ unionsM = .ok (unionsP, ⟨13, []⟩) := by
  cases p <;> krfl

theorem first_compiles (p : Profile) {l l' : List (Name × Nat)} (hl : l.Perm typeVariants)
    (hl' : l'.Perm testVariants) :
    Loader.compile p ⟨[testM, structsM, bitsM, bits2M, viewsM, structArraysM, reordered enumsM l,
      valuesM, reordered unions2M l', arraysM], []⟩ SimpleImportSolver.default ⟨0, []⟩ =
      .ok (first, ⟨28, []⟩) := by
  show Loader.compileModels p SimpleImportSolver.default.resolver ⟨0, []⟩ _ = _
  refine models_cons (w' := ⟨3, []⟩) (by cases p <;> krfl) ?_
  refine models_cons (w' := ⟨7, []⟩) (by cases p <;> krfl) ?_
  refine models_cons (w' := ⟨8, []⟩) (by cases p <;> krfl) ?_
  refine models_cons (w' := ⟨9, []⟩) (by cases p <;> krfl) ?_
  refine models_cons (w' := ⟨10, []⟩) (by cases p <;> krfl) ?_
  refine models_cons (w' := ⟨11, []⟩) (by cases p <;> krfl) ?_
  refine models_cons (w' := ⟨12, []⟩) (enums_compiles hl p _ 11 []) ?_
  refine models_cons (w' := ⟨23, []⟩) (values_compiles p _ 12 []) ?_
  refine models_cons (w' := ⟨25, []⟩) (unions2_compiles hl' p _ 23 []) ?_
  exact models_cons (w' := ⟨28, []⟩) (by cases p <;> krfl) rfl

theorem second_compiles (p : Profile) {l : List (Name × Nat)} (hl : l.Perm typeVariants) :
    Loader.compile p ⟨[unionsM], [("crate::enums".toList, reordered enumsM l),
      ("crate::values".toList, valuesM)]⟩ SimpleImportSolver.default ⟨0, []⟩ =
      .ok (second, ⟨13, []⟩) := by
  have h : Loader.compileImports p SimpleImportSolver.default ⟨0, []⟩
      [("crate::enums".toList, reordered enumsM l), ("crate::values".toList, valuesM)] =
      .ok (solver2, ⟨12, []⟩) := by
    rw [imports_cons (enums_compiles hl p _ 0 []), imports_cons (values_compiles p _ 1 [])]
    rfl
  simp only [Loader.compile, h, Res.bind_ok]
  exact models_cons (unions_compiles p) rfl

theorem third_compiles (p : Profile) {l : List (Name × Nat)} (hl : l.Perm typeVariants) :
    Loader.compile p ⟨[listsM], [("crate::enums".toList, reordered enumsM l),
      ("crate::values".toList, valuesM), ("crate::unions".toList, unionsM)]⟩
      SimpleImportSolver.default ⟨0, []⟩ = .ok (third, ⟨16, [14, 12]⟩) := by
  have h : Loader.compileImports p SimpleImportSolver.default ⟨0, []⟩
      [("crate::enums".toList, reordered enumsM l), ("crate::values".toList, valuesM),
        ("crate::unions".toList, unionsM)] =
      .ok (solver2.register "crate::unions".toList unionsP, ⟨13, []⟩) := by
    rw [imports_cons (enums_compiles hl p _ 0 []), imports_cons (values_compiles p _ 1 [])]
    exact (imports_cons (sv := solver2) (w := ⟨12, []⟩) (unions_compiles p)).trans rfl
  simp only [Loader.compile, h, Res.bind_ok]
  exact models_cons (w' := ⟨16, [14, 12]⟩) (by cases p <;> krfl) rfl

/-! ## Generating -/

open Tpl Drv

theorem allOk_of_total {fs : Fs} (hfs : ∀ t o, (∀ d, o ≠ .exists d) → fs t o = true)
    (t ops : List FsOp) : AllOk fs t ops := by
  induction ops generalizing t with
  | nil => trivial
  | cons o ops ih =>
    cases o with
    | «exists» d => exact ih _
    | createDir d => exact ⟨hfs _ _ (by simp), ih _⟩
    | write d b => exact ⟨hfs _ _ (by simp), ih _⟩

/-- What is reported for a protocol. -/
def report (out : Bytes) (q : Protocol) : Proto :=
  ⟨Name.utf8 q.name, Path.join (Path.join out (Name.utf8 q.name)) (utf8 "umbrella.rs")⟩

theorem plans_of_total {lib : Lib} {p : Profile} {emb : Nat → Bool} {fs : Fs} {out : Bytes}
    {c : Protoc} (hfs : ∀ t o, (∀ d, o ≠ .exists d) → fs t o = true) (ps : List Protocol)
    (hg : ∀ q ∈ ps, ∃ files, (Rust.generator lib p emb).generate q = .ok files) (t : List FsOp) :
    ∃ ops, Plans (Rust.generator lib p emb) fs out c t ps ops (ps.map (report out)) := by
  induction ps generalizing t with
  | nil => exact ⟨[], .nil t⟩
  | cons q ps ih =>
    obtain ⟨files, hf⟩ := hg q (by simp)
    obtain ⟨ops, ho⟩ := ih (fun x hx => hg x (by simp [hx]))
      (t ++ plan (Rust.generator lib p emb) out c q (fs t (.exists (Path.join out (Name.utf8 q.name)))))
    refine ⟨_, .cons _ rfl ?_ (allOk_of_total hfs _ _) ho⟩
    simp only [outcome, hf]
    simp only [Rust.generator, Rust.umbrella, report]
    rw [if_pos]
    simp

/-- When no operation on files fails, a build whose protocols compile and can be generated reports them
all. -/
theorem generateRust_total {lib : Lib} {p : Profile} {emb : Nat → Bool} {fs : Fs} {out : Bytes}
    {loader : Loader} {protos : List Protocol} {w : World} {configure : Protoc → Protoc}
    (hc : loader.compile p SimpleImportSolver.default ⟨0, []⟩ = .ok (protos, w))
    (hp : (configure (Protoc.new protos)).protocols = protos)
    (hg : ∀ q ∈ protos, ∃ files, (Rust.generator lib p emb).generate q = .ok files)
    (hfs : ∀ t o, (∀ d, o ≠ .exists d) → fs t o = true) :
    ∃ t, generateRust p (Rust.generator lib p emb) fs (some loader) configure (some out) =
      (t, .ok (protos.map fun q => utf8 "cargo::rustc-env=BP3D_PROTOC_" ++
        (Name.utf8 q.name).map (fun c => if 'a'.toNat ≤ c.toNat ∧ c.toNat ≤ 'z'.toNat then c - 32 else c) ++
        utf8 "=" ++ Path.join (Path.join out (Name.utf8 q.name)) (utf8 "umbrella.rs"))) := by
  obtain ⟨ops, ho⟩ := plans_of_total (out := out) (c := configure (Protoc.new protos)) hfs protos hg []
  refine ⟨ops, (C63_prints ..).2 ⟨loader, protos, w, out, protos.map (report out), rfl, rfl, hc, ?_, ?_⟩⟩
  · rw [C57_all]
    exact ⟨ops, rfl, by rw [hp]; exact ho⟩
  · rw [List.map_map]
    rfl

instance (f : SField) : Decidable (Text.Accessible f) := by
  cases f <;> unfold Text.Accessible <;> infer_instance

instance (f : MField) : Decidable (Text.Nameable f) := by
  unfold Text.Nameable
  infer_instance

/-- Every structure has accessors, every alias can be named. -/
def Fine (q : Protocol) : Prop :=
  (∀ s ∈ q.structs, ∀ f ∈ s.fields, Text.Accessible f) ∧
  ∀ m ∈ q.messages, ∀ f ∈ m.fields, Text.Nameable f

instance (q : Protocol) : Decidable (Fine q) := by
  unfold Fine
  infer_instance

theorem first_fine : ∀ q ∈ first, Fine q := by decide +kernel
theorem second_fine : ∀ q ∈ second, Fine q := by decide +kernel
theorem third_fine : ∀ q ∈ third, Fine q := by decide +kernel

theorem fine_generates {p : Profile} {l : Loader} {w w' : World} {protos : List Protocol}
    (h : Loader.compile p l SimpleImportSolver.default w = .ok (protos, w'))
    (hf : ∀ q ∈ protos, Fine q) (lib : Lib) (emb : Nat → Bool) :
    ∀ q ∈ protos, ∃ files, (Rust.generator lib p emb).generate q = .ok files := by
  intro q hq
  obtain ⟨names, hn⟩ := compiled_names rfl h hq
  exact ⟨_, C52_files lib p emb q names (hf q hq).1 hn (hf q hq).2⟩

end Proto.Fix
