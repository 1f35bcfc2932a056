import Verif.Gen.SwiftLemmas
import Verif.Props.Rust

/-!
# The generated Swift source (C65)
-/

namespace Proto

open Props

theorem Swift.getter_eq (lib : Lib) (p : Profile) (paths : List (Name × Name)) (n : Bytes) (f : SField)
    (h : Text.Accessible f) :
    Code.fieldGetter lib p Swift.utils paths (Tmpl.swiftStructureFieldT.var b!"struct_name" n) f =
      .ok (Text.Swift.fieldGetter lib paths f) := by
  cases f with
  | fixed f => exact fixedGetter_eq lib p paths n f h.2.1 h.2.2 h.1
  | array f => exact arrayGetter_eq lib p paths n f h.2 h.1
  | struct m r l => exact structGetter_eq lib p paths n m r l h

theorem Swift.setter_eq (lib : Lib) (p : Profile) (paths : List (Name × Name)) (n : Bytes) (f : SField)
    (h : Text.Accessible f) :
    Code.fieldSetter lib p Swift.utils paths (Tmpl.swiftStructureFieldT.var b!"struct_name" n) f =
      .ok (Text.Swift.fieldSetter lib paths f) := by
  cases f with
  | fixed f => exact fixedSetter_eq lib p paths n f h.2.1 h.2.2 h.1
  | array f => exact arraySetter_eq lib p paths n f h.2 h.1
  | struct m r l => exact structSetter_eq lib p paths n m r l h

/-- C65: what is generated for a structure all of whose fields are accessible. -/
theorem C65_structure (lib : Lib) (p : Profile) (paths : List (Name × Name)) (s : Structure)
    (h : ∀ f ∈ s.fields, Text.Accessible f) :
    Swift.structureDecl lib p paths s = .ok (Text.Swift.structureText lib paths s) := by
  unfold Swift.structureDecl Code.structureDecl
  rw [Tmpl.swiftStructure_compile, unwrap_ok, Res.bind_ok, Tmpl.swiftStructureField_compile, unwrap_ok,
    Res.bind_ok]
  simp only [Swift.structureHead_eq, unwrap_ok, Res.bind_ok, Code.structureGetters, Code.structureSetters]
  rw [joinMap_all _ (Text.Swift.fieldGetter lib paths) s.fields
      (by exact fun f hf => Swift.getter_eq lib p paths _ f (h f hf)), Res.bind_ok, Swift.getters_eq,
    unwrap_ok, Res.bind_ok, joinMap_all _ (Text.Swift.fieldSetter lib paths) s.fields
      (by exact fun f hf => Swift.setter_eq lib p paths _ f (h f hf)), Res.bind_ok, Swift.setters_eq,
    unwrap_ok, Res.bind_ok]
  rfl

/-- C65: the generator panics on a structure with an inaccessible field, and (with overflow checks)
only then. -/
theorem C65_structure_panics (lib : Lib) (paths : List (Name × Name)) (s : Structure) :
    (Swift.structureDecl lib .checked paths s = .panic ↔ ∃ f ∈ s.fields, ¬ Text.Accessible f) ∧
    ∀ p, (∃ f ∈ s.fields, Text.Hopeless f) → Swift.structureDecl lib p paths s = .panic := by
  have key : ∀ p, (∃ f ∈ s.fields, Text.Hopeless f ∨
      p = .checked ∧ 2 ^ 64 ≤ f.loc.byteOffset + f.loc.byteSize) →
      Swift.structureDecl lib p paths s = .panic := by
    rintro p ⟨f, hf, h⟩
    unfold Swift.structureDecl Code.structureDecl
    rw [Tmpl.swiftStructure_compile, unwrap_ok, Res.bind_ok, Tmpl.swiftStructureField_compile, unwrap_ok,
      Res.bind_ok]
    simp only [Swift.structureHead_eq, unwrap_ok, Res.bind_ok, Code.structureGetters]
    rw [(joinMap_panic [] _ s.fields).2 ⟨f, hf, getter_panic h⟩]
    rfl
  refine ⟨⟨fun h => ?_, fun ⟨f, hf, h⟩ => key _ ⟨f, hf, ?_⟩⟩, fun p ⟨f, hf, h⟩ => key p ⟨f, hf, .inl h⟩⟩
  · refine Classical.byContradiction fun hn => ?_
    rw [C65_structure lib .checked paths s fun f hf =>
      Classical.byContradiction fun e => hn ⟨f, hf, e⟩] at h
    cases h
  · cases f with
    | fixed f =>
      simp only [Text.Accessible, Text.Hopeless, SField.loc, true_and] at h ⊢
      omega
    | array f =>
      simp only [Text.Accessible, Text.Hopeless, SField.loc, true_and] at h ⊢
      omega
    | struct n r l =>
      simp only [Text.Accessible, Text.Hopeless, SField.loc, true_and] at h ⊢
      omega

/-- C65: one file, with the structures of the protocol in order. -/
theorem C65_files (lib : Lib) (p : Profile) (proto : Protocol)
    (hs : ∀ s ∈ proto.structs, ∀ f ∈ s.fields, Text.Accessible f) :
    (Swift.generator lib p).generate proto = .ok [⟨b!"structures.rs",
      Text.spaced (proto.structs.map (Text.Swift.structureText lib proto.typePathByName)),
      .structure⟩] := by
  show (match Swift.generate lib p proto with
    | .ok files => Res.ok files
    | _ => Res.panic) = _
  unfold Swift.generate
  rw [joinMap_ok _ _ (Text.Swift.structureText lib proto.typePathByName) _
    (fun s h => C65_structure lib p _ s (hs s h)), Res.bind_ok]
  rfl

/-- C65: with overflow checks, generating Swift panics exactly when a structure has a field without
accessor. -/
theorem C65_panics_iff (lib : Lib) (proto : Protocol) :
    ((Swift.generator lib .checked).generate proto = .panic ↔
      ∃ s ∈ proto.structs, ∃ f ∈ s.fields, ¬ Text.Accessible f) ∧
    ∀ p, (∃ s ∈ proto.structs, ∃ f ∈ s.fields, Text.Hopeless f) →
      (Swift.generator lib p).generate proto = .panic := by
  have key : ∀ p, (∃ s ∈ proto.structs, Swift.structureDecl lib p proto.typePathByName s = .panic) →
      (Swift.generator lib p).generate proto = .panic := by
    intro p h
    show (match Swift.generate lib p proto with
      | .ok files => Res.ok files
      | _ => Res.panic) = _
    unfold Swift.generate
    rw [(joinMap_panic _ _ proto.structs).2 h]
    rfl
  refine ⟨⟨fun h => Classical.byContradiction fun hn => ?_, fun ⟨s, hs, h⟩ =>
    key _ ⟨s, hs, ((C65_structure_panics lib _ s).1).2 h⟩⟩, fun p ⟨s, hs, h⟩ =>
    key p ⟨s, hs, (C65_structure_panics lib _ s).2 p h⟩⟩
  rw [C65_files lib .checked proto fun s hs f hf =>
    Classical.byContradiction fun e => hn ⟨s, hs, f, hf, e⟩] at h
  cases h

/-- C65: no umbrella module. -/
theorem C65_umbrella (lib : Lib) (p : Profile) (name : Bytes) (files : List Bytes) :
    (Swift.generator lib p).umbrella name files = .ok [] := rfl

/-- C65: generating Swift for a compiled protocol of ranged fields succeeds. -/
theorem C65_compiled {l : Loader} {solver : SimpleImportSolver} {w w' : World}
    {protos : List Protocol}
    (hr : ∀ v ∈ l.importedModels.map Prod.snd ++ l.models, ∀ s ∈ v.structs, ∀ f ∈ s.fields, Ranged f)
    (hs : solver.importMap = []) (h : Loader.compile .checked l solver w = .ok (protos, w'))
    {proto : Protocol} (hp : proto ∈ protos) (lib : Lib) (p : Profile) :
    (Swift.generator lib p).generate proto = .ok [⟨b!"structures.rs",
      Text.spaced (proto.structs.map (Text.Swift.structureText lib proto.typePathByName)),
      .structure⟩] :=
  C65_files lib p proto fun _ hm _ hf => accessible_of_usable ((C60_structures hr hs h hp).1 _ hm) hf

/-- C65 as one would want it: whatever compiles is generated, and the generated file is Swift: it has
no `impl`, which is not a Swift keyword. -/
def C65_full : Prop :=
  ∀ (lib : Lib) (p : Profile) (v : Model.Protocol) (proto : Protocol) (w : World),
    Protocol.fromModel p Resolver.none ⟨0, []⟩ v = .ok (proto, w) →
    ∃ files, (Swift.generator lib p).generate proto = .ok files ∧
      ∀ f ∈ files, ¬ b!"impl<T: AsMut<[u8]>>" <:+: f.data

/-- C65 is false of the code: some protocols make the generator panic, and every generated structure
has its setters in Rust. -/
theorem C65_full_false : ¬ C65_full ∧
    (∀ (lib : Lib) (p : Profile), ∃ proto w,
      Protocol.fromModel p Resolver.none ⟨0, []⟩ RustEx.noBit = .ok (proto, w) ∧
      (Swift.generator lib p).generate proto = .panic) ∧
    ∀ (lib : Lib) (p : Profile) (paths : List (Name × Name)) (s : Structure) (text : Bytes),
      (∀ f ∈ s.fields, Text.Accessible f) → Swift.structureDecl lib p paths s = .ok text →
      b!"impl<T: AsMut<[u8]>>" <:+: text := by
  have key : ∀ (lib : Lib) (p : Profile), ∃ proto w,
      Protocol.fromModel p Resolver.none ⟨0, []⟩ RustEx.noBit = .ok (proto, w) ∧
      (Swift.generator lib p).generate proto = .panic := by
    intro lib p
    have hp : ∀ proto : Protocol, (∃ s ∈ proto.structs, ∃ f ∈ s.fields, Text.Hopeless f) →
        (Swift.generator lib p).generate proto = .panic := by
      rintro proto ⟨s, hs, h⟩
      show (match Swift.generate lib p proto with
        | .ok files => Res.ok files
        | _ => Res.panic) = _
      unfold Swift.generate
      rw [(joinMap_panic _ _ proto.structs).2 ⟨s, hs, (C65_structure_panics lib _ s).2 p h⟩]
      rfl
    cases p
    all_goals exact ⟨_, _, rfl, hp _ ⟨_, List.mem_singleton.2 rfl, _, List.mem_singleton.2 rfl, .inl rfl⟩⟩
  refine ⟨fun h => ?_, key, fun lib p paths s text ha h => ?_⟩
  · obtain ⟨proto, w, h1, h2⟩ := key RustEx.lib .checked
    obtain ⟨files, h3, _⟩ := h _ _ _ _ _ h1
    rw [h2] at h3
    cases h3
  · rw [C65_structure lib p paths s ha] at h
    cases h
    unfold Text.Swift.structureText
    exact ⟨_, _, List.append_assoc _ _ _⟩

/-- A structure with one 12-bit signed field. -/
example (lib : Lib) : Swift.structureDecl lib .wrapping []
    (.mk 0 "Packed".toList [.fixed ⟨"level".toList, .i16, ⟨0, 0, 2, 12⟩, .signedCast 2047, .little⟩] 2 12) = .ok
    b!"#[derive(Copy, Clone, Default, Debug)]
public struct Packed<T>: BP3DProto.FixedSize {
    data: T
    public static var size: Int { 2 }
    public init(_ data: T) {
        self.data = data;
    }
}
extension Packed: BP3DProto.WriteTo where T: BP3DProto.Buffer {
    public associatedtype Input = Packed;
    public static func write<B: BP3DProto.WritableBuffer>(input: Input, to out: inout B) throws {
        out.write(bytes: input.data.toData());
    }
}
extension Packed: BP3DProto.FromSlice where T: BP3DProto.Buffer {
    public associatedtype Output = Packed;
    public static func from<B: BP3DProto.Buffer>(slice: B) throws -> BP3DProto.Message<Output> {
        if slice.size < 2 {
            throw BP3DProto.Error.truncated;
        }
        return BP3DProto.Message(size: 2, data: Packed(slice[...2]));
    }
}
extension Packed where T: BP3DProto.Buffer {
    public raw_level: UInt16 {
        BP3DProto.BP3DProto.BitCodecLE.readAligned(UInt16.self, self.data[0...2], bitOffset: 0, bitSize: 12)

    }
    public level: Int16 {
        let raw_value = self.raw_level;
        if raw_value > 2047 {
            return -((((~raw_value) & 2047) + 1) as Int16);
        } else {
            return (raw_value & 2047) as Int16;
        }
    }

}
impl<T: AsMut<[u8]>> Packed<T> {
    pub fn set_raw_level(&mut self, value: UInt16) {
        unsafe { BP3DProto.BitCodecLE::writeAligned::<UInt16, 0, 12>(&mut self.data.as_mut()[0..2], value) }

    }
    pub fn set_level(&mut self, value: Int16) -> &mut Self {
        self.set_raw_level(unsafe { std::mem::transmute::<Int16, UInt16>(value) });

        self
    }

}
" := by
  rw [C65_structure _ _ _ _ (by intro f hf; rw [List.mem_singleton.1 hf]; simp [Text.Accessible])]
  exact congrArg Res.ok (by krfl)

end Proto
