import Verif.Gen.RustMessageLemmas
import Verif.Gen.EffLemmas
import Verif.Props.Protocol
import Verif.Props.Driver

/-!
# C52, C64: the generated Rust source
-/

namespace Proto

open Rust Props

/-! ## Numbers, names and separators -/

theorem utf8_append (a b : Name) : Name.utf8 (a ++ b) = Name.utf8 a ++ Name.utf8 b := by
  simp [Name.utf8]

theorem utf8_digit {d : Nat} (h : d < 10) : Name.utf8 [Nat.digitChar d] = [UInt8.ofNat (48 + d)] := by
  rcases d with _ | _ | _ | _ | _ | _ | _ | _ | _ | _ | d
  all_goals first | decide +kernel | omega

/-- C52: numbers are written in display: a number below ten is its digit; otherwise the digits of its
tenth come first. -/
theorem C52_decimal (n : Nat) :
    (n < 10 → display n = [UInt8.ofNat (48 + n)]) ∧
    (10 ≤ n → display n = display (n / 10) ++ [UInt8.ofNat (48 + n % 10)]) := by
  unfold display
  constructor
  · intro h
    rw [Nat.toDigits_of_lt_base h, utf8_digit h]
  · intro h
    rw [Nat.toDigits_of_base_le (by decide) h, utf8_append, utf8_digit (Nat.mod_lt _ (by decide))]

example : display 307 = b!"307" := by decide +kernel

/-- C52: a type is referred to by the path recorded for it, if any. -/
theorem C52_paths (paths : List (Name × Name)) (name : Name) :
    (∀ q, paths.lookup name = some q → pathOf paths name = Tpl.utf8 (String.ofList q)) ∧
    (paths.lookup name = none → pathOf paths name = Tpl.utf8 (String.ofList name)) := by
  constructor
  · intro q h
    simp [pathOf, typePath, h, Name.utf8, Tpl.utf8]
  · intro h
    simp [pathOf, typePath, h, Name.utf8, Tpl.utf8]

/-! ## Structures -/

theorem getter_eq (lib : Lib) (p : Profile) (paths : List (Name × Name)) (n : Bytes) (f : SField)
    (h : Text.Accessible f) :
    Code.fieldGetter lib p utils.toStructUtils paths (Tmpl.rustStructureFieldT.var b!"struct_name" n) f =
      .ok (Text.fieldGetter lib paths f) := by
  cases f with
  | fixed f => exact fixedGetter_eq lib p paths n f h.2.1 h.2.2 h.1
  | array f => exact arrayGetter_eq lib p paths n f h.2 h.1
  | struct m r l => exact structGetter_eq lib p paths n m r l h

theorem setter_eq (lib : Lib) (p : Profile) (paths : List (Name × Name)) (n : Bytes) (f : SField)
    (h : Text.Accessible f) :
    Code.fieldSetter lib p utils.toStructUtils paths (Tmpl.rustStructureFieldT.var b!"struct_name" n) f =
      .ok (Text.fieldSetter lib paths f) := by
  cases f with
  | fixed f => exact fixedSetter_eq lib p paths n f h.2.1 h.2.2 h.1
  | array f => exact arraySetter_eq lib p paths n f h.2 h.1
  | struct m r l => exact structSetter_eq lib p paths n m r l h

/-- C52: what is generated for a structure all of whose fields are accessible. -/
theorem C52_structure (lib : Lib) (p : Profile) (paths : List (Name × Name)) (s : Structure)
    (h : ∀ f ∈ s.fields, Text.Accessible f) :
    structureDecl lib p paths s = .ok (Text.structureText lib paths s) := by
  unfold structureDecl Code.structureDecl
  rw [Tmpl.rustStructure_compile, unwrap_ok, Res.bind_ok, Tmpl.rustStructureField_compile, unwrap_ok,
    Res.bind_ok]
  simp only [structureHead_eq, unwrap_ok, Res.bind_ok, Code.structureGetters, Code.structureSetters]
  rw [joinMap_all _ (Text.fieldGetter lib paths) s.fields
      (by exact fun f hf => getter_eq lib p paths _ f (h f hf)), Res.bind_ok, getters_eq, unwrap_ok,
    Res.bind_ok, joinMap_all _ (Text.fieldSetter lib paths) s.fields
      (by exact fun f hf => setter_eq lib p paths _ f (h f hf)), Res.bind_ok, setters_eq, unwrap_ok,
    Res.bind_ok]
  rfl

/-- A field for which the generator panics whatever the profile: a scalar without an integer type, an
array without items. -/
def Text.Hopeless : SField → Prop
  | .fixed f => f.loc.bitSize = 0 ∨ 64 < f.loc.bitSize
  | .array f => f.arrayLen = 0
  | .struct _ _ _ => False

theorem getter_panic {lib : Lib} {p : Profile} {u : StructUtils} {paths : List (Name × Name)}
    {t : Template Fn} {f : SField}
    (h : Text.Hopeless f ∨ p = .checked ∧ 2 ^ 64 ≤ f.loc.byteOffset + f.loc.byteSize) :
    Code.fieldGetter lib p u paths t f = .panic := by
  unfold Code.fieldGetter
  rcases h with h | ⟨rfl, h⟩
  · cases ha : (addU p usizeBits f.loc.byteOffset f.loc.byteSize : G Nat) with
    | panic => rfl
    | err e => exact e.elim
    | ok last =>
      rw [Res.bind_ok]
      cases f with
      | fixed f =>
        simp only [SField.loc] at ha ⊢
        rw [unsignedTy_panic _ h]
        rfl
      | array f =>
        simp only [Text.Hopeless] at h
        simp only [ArrayField.itemBits, h, if_true]
        rfl
      | struct => exact h.elim
  · have ha : (addU .checked usizeBits f.loc.byteOffset f.loc.byteSize : G Nat) = .panic := by
      simp [addU, usizeBits, Nat.not_lt.2 h]
    rw [ha]
    rfl

/-- C52: the generator panics on a structure with an inaccessible field, and (with overflow checks)
only then. -/
theorem C52_structure_panics (lib : Lib) (paths : List (Name × Name)) (s : Structure) :
    (structureDecl lib .checked paths s = .panic ↔ ∃ f ∈ s.fields, ¬ Text.Accessible f) ∧
    ∀ p, (∃ f ∈ s.fields, Text.Hopeless f) → structureDecl lib p paths s = .panic := by
  have key : ∀ p, (∃ f ∈ s.fields, Text.Hopeless f ∨
      p = .checked ∧ 2 ^ 64 ≤ f.loc.byteOffset + f.loc.byteSize) →
      structureDecl lib p paths s = .panic := by
    rintro p ⟨f, hf, h⟩
    unfold structureDecl Code.structureDecl
    rw [Tmpl.rustStructure_compile, unwrap_ok, Res.bind_ok, Tmpl.rustStructureField_compile, unwrap_ok,
      Res.bind_ok]
    simp only [structureHead_eq, unwrap_ok, Res.bind_ok, Code.structureGetters]
    rw [(joinMap_panic [] _ s.fields).2 ⟨f, hf, getter_panic h⟩]
    rfl
  refine ⟨⟨fun h => ?_, fun ⟨f, hf, h⟩ => key _ ⟨f, hf, ?_⟩⟩, fun p ⟨f, hf, h⟩ => key p ⟨f, hf, .inl h⟩⟩
  · refine Classical.byContradiction fun hn => ?_
    rw [C52_structure lib .checked paths s fun f hf =>
      Classical.byContradiction fun e => hn ⟨f, hf, e⟩] at h
    cases h
  · cases f with
    | fixed f =>
      simp only [Text.Accessible, Text.Hopeless, SField.loc, true_and] at h ⊢
      omega
    | array f =>
      simp only [Text.Accessible, Text.Hopeless, SField.loc, true_and] at h ⊢
      omega
    | struct n r l =>
      simp only [Text.Accessible, Text.Hopeless, SField.loc, true_and] at h ⊢
      omega

/-! ## Enums, unions, messages -/

/-- C52: what is generated for an enum. -/
theorem C52_enum (lib : Lib) (e : Enum) : enumDecl lib e = .ok (Text.enumText e) := enumDecl_eq lib e

/-- C52: what is generated for a union whose discriminant path passes the structures `ns` and ends on
the field `leaf`. -/
theorem C52_union (lib : Lib) (paths : List (Name × Name)) {u : Union} {ns : List Name}
    {leaf : Option Name} (h : Text.Chain u.discriminant.root u.discriminant.indexList ns leaf) :
    unionDecl lib paths u =
      .ok (Text.unionText paths u (Text.readPath ns leaf) (Text.writePath ns leaf)) :=
  unionDecl_eq lib paths h

/-- C52: the declaration of a message, with the aliases of its arrays and lists. -/
theorem C52_message (lib : Lib) (paths : List (Name × Name)) (m : Message)
    (h : ∀ f ∈ m.fields, Text.Nameable f) : messageDecl lib paths m = .ok (Text.messageText paths m) :=
  messageDecl_eq lib paths m h

/-- C52: the generator panics exactly on the messages with an array or list field whose name begins
with a character of several bytes. -/
theorem C52_message_panics (lib : Lib) (paths : List (Name × Name)) (m : Message) :
    messageDecl lib paths m = .panic ↔ ∃ f ∈ m.fields, ¬ Text.Nameable f := by
  constructor
  · intro h
    refine Classical.byContradiction fun hn => ?_
    rw [C52_message lib paths m fun f hf => Classical.byContradiction fun e => hn ⟨f, hf, e⟩] at h
    cases h
  · rintro ⟨f, hf, h⟩
    have hc : Text.aliased f.ty = true ∧ capitalize (Name.utf8 f.name) = .panic := by
      unfold Text.Nameable at h
      by_cases ha : Text.aliased f.ty = true
      · refine ⟨ha, ?_⟩
        cases hn : Name.utf8 f.name with
        | nil => exact absurd (fun _ => by simp [hn]) h
        | cons c cs =>
          refine capitalize_panics ?_
          refine Classical.byContradiction fun e => h fun _ d hd => ?_
          rw [hn] at hd
          cases hd
          exact UInt8.not_le.1 e
      · exact absurd (fun e => absurd e ha) h
    unfold messageDecl Code.messageDecl
    rw [Tmpl.rustMessage_compile, unwrap_ok, Res.bind_ok]
    have e : ∀ n g : Bytes, (Tmpl.rustMessageT.var b!"msg_name" n).var b!"generics" g =
      msgT n g Tmpl.rustMessageT := fun _ _ => rfl
    simp only [e]
    rw [joinMap_all _ (Text.fieldDecl paths) m.fields (by exact fun f _ => fieldDecl_eq lib paths _ _ f),
      Res.bind_ok, declMessage_eq, unwrap_ok, Res.bind_ok]
    unfold messageArrayTypeDecls
    rw [Tmpl.rustMessageExt_compile, unwrap_ok, Res.bind_ok]
    dsimp only
    rw [(joinMap_panic [] _ m.fields).2 ⟨f, hf, ?_⟩]
    · rfl
    · obtain ⟨ha, hc⟩ := hc
      revert ha
      generalize f.ty = t
      intro ha
      cases t with
      | array ty s =>
        simp only [aliasArray_render, hc]
        rfl
      | list ty s =>
        simp only [aliasList_render, hc]
        rfl
      | _ => simp [Text.aliased] at ha

/-- C52: the decoder of a message. -/
theorem C52_from_slice (lib : Lib) (paths : List (Name × Name)) (emb : Nat → Bool) (m : Message) :
    messageFromSlice lib paths emb m = .ok (Text.fromSliceText paths (emb m.id) m) :=
  messageFromSlice_eq lib paths emb m

/-- C52: the encoder of a message. -/
theorem C52_write (lib : Lib) (paths : List (Name × Name)) (emb : Nat → Bool) (m : Message) :
    messageWrite lib paths emb m = .ok (Text.writeText paths m) := messageWrite_eq lib paths emb m

/-- C52: the decoder of a message that records offsets. -/
theorem C52_offsets (lib : Lib) (paths : List (Name × Name)) (emb : Nat → Bool) (m : Message) :
    messageOffsets lib paths emb m = .ok (Text.offsetsText paths (emb m.id) m) :=
  messageOffsets_eq lib paths emb m

/-! ## Protocols -/

/-- C52: generating code for a protocol whose structures have accessible fields, whose unions have a
path and whose arrays and lists are nameable succeeds, with seven files. -/
theorem C52_files (lib : Lib) (p : Profile) (emb : Nat → Bool) (proto : Protocol)
    (names : Union → List Name × Option Name)
    (hs : ∀ s ∈ proto.structs, ∀ f ∈ s.fields, Text.Accessible f)
    (hu : ∀ u ∈ proto.unions,
      Text.Chain u.discriminant.root u.discriminant.indexList (names u).1 (names u).2)
    (hm : ∀ m ∈ proto.messages, ∀ f ∈ m.fields, Text.Nameable f) :
    (generator lib p emb).generate proto = .ok (Text.files lib emb proto names) := by
  show (match generate lib p emb proto with
    | .ok files => Res.ok files
    | _ => Res.panic) = _
  unfold generate
  dsimp only
  rw [joinMap_ok _ _ (Text.messageText proto.typePathByName) _
      (by exact fun m h => C52_message lib _ m (hm m h)), Res.bind_ok,
    joinMap_ok _ _ (fun m : Message => Text.fromSliceText proto.typePathByName (emb m.id) m) _
      (by exact fun m _ => C52_from_slice lib _ emb m), Res.bind_ok,
    joinMap_ok _ _ (Text.writeText proto.typePathByName) _
      (by exact fun m _ => C52_write lib _ emb m), Res.bind_ok,
    joinMap_ok _ _ (Text.structureText lib proto.typePathByName) _
      (by exact fun s h => C52_structure lib p _ s (hs s h)), Res.bind_ok,
    joinMap_ok _ _ Text.enumText _ (by exact fun e _ => C52_enum lib e), Res.bind_ok,
    joinMap_ok _ _ (fun u : Union => Text.unionText proto.typePathByName u
        (Text.readPath (names u).1 (names u).2) (Text.writePath (names u).1 (names u).2)) _
      (by exact fun u h => C52_union lib _ (hu u h)), Res.bind_ok,
    joinMap_ok _ _ (fun m : Message => Text.offsetsText proto.typePathByName (emb m.id) m) _
      (by exact fun m _ => C52_offsets lib _ emb m), Res.bind_ok]
  rfl

/-- C52: the umbrella module includes every file, in order. -/
theorem C52_umbrella (lib : Lib) (p : Profile) (emb : Nat → Bool) (name : Bytes) (files : List Bytes) :
    (generator lib p emb).umbrella name files = .ok (Text.umbrellaText lib name files) :=
  congrArg Res.ok (umbrella_eq lib name files)

theorem chain_of_leads {s leaf : Structure} {parts : List Name} {f : FixedField} {is : List Nat}
    (h : Leads s parts leaf f is) : ∃ ns, Text.Chain s is ns (some f.name) := by
  induction h with
  | here _ hf => exact ⟨[], .leaf hf⟩
  | down _ hf _ ih =>
    obtain ⟨ns, ih⟩ := ih
    exact ⟨_, .step hf ih⟩

theorem chain_of_stops {s leaf : Structure} {parts : List Name} {is : List Nat}
    (h : Stops s parts leaf is) : ∃ ns, Text.Chain s is ns none := by
  induction h with
  | here => exact ⟨[], .stop⟩
  | down _ hf _ ih =>
    obtain ⟨ns, ih⟩ := ih
    exact ⟨_, .step hf ih⟩

/-- C52: the discriminant of a compiled union has a path. -/
theorem C52_chain {proto : Protocol} {v : Model.Union} {u : Union}
    (h : Union.fromModel proto v = .ok u) :
    ∃ ns leaf, Text.Chain u.discriminant.root u.discriminant.indexList ns leaf := by
  obtain ⟨d, ks, hd, _, rfl⟩ := Union.fromModel_eq_ok.1 h
  obtain ⟨_, _, _, _, _, ⟨f, h⟩ | h⟩ := C47_accepted hd
  · obtain ⟨ns, h⟩ := chain_of_leads h
    exact ⟨ns, _, h⟩
  · obtain ⟨ns, h⟩ := chain_of_stops h
    exact ⟨ns, _, h⟩

/-- Every union of a compiled protocol was compiled from a model. -/
theorem compiled_unions {p : Profile} {l : Loader} {solver : SimpleImportSolver} {w w' : World}
    {protos : List Protocol} (hs : solver.importMap = [])
    (h : Loader.compile p l solver w = .ok (protos, w')) {proto : Protocol} (hp : proto ∈ protos)
    {u : Union} (hu : u ∈ proto.unions) : ∃ proto v, Union.fromModel proto v = .ok u := by
  have c : Closed p (fun _ => True) Unit (fun _ _ => True) (fun _ _ => True) (fun _ _ => True)
      (fun _ u => ∃ proto v, Union.fromModel proto v = .ok u) (fun _ _ => True) := by
    constructor
    · exact fun _ => trivial
    · exact fun _ _ _ _ _ => trivial
    · exact fun _ _ _ _ _ => trivial
    · exact fun _ _ _ _ h => h
    · exact fun _ _ _ _ _ => trivial
    · exact fun _ _ _ _ _ _ _ _ _ => ⟨(), trivial, trivial, trivial⟩
    · exact fun _ proto v u _ h => ⟨proto, v, h⟩
    · exact fun _ _ _ _ _ _ _ _ _ _ => ⟨(), trivial, trivial, trivial⟩
  obtain ⟨_, _, _, hT⟩ := c.compile (k := ()) trivial
    (by intro x hx; rw [hs] at hx; simp at hx) (fun _ _ _ _ => trivial) (fun _ _ _ _ => trivial) h
  exact (hT proto hp).unions u hu

theorem accessible_of_usable {s : Structure} (h : s.Usable) {f : SField} (hf : f ∈ s.fields) :
    Text.Accessible f := by
  obtain ⟨hw, hz, hb⟩ := h
  have h1 := hw.stop_le hf
  have h2 := hz.mem f hf
  cases f with
  | fixed f =>
    simp only [SField.Sized] at h2
    simp only [SField.loc, Loc.stop] at h1
    exact ⟨by omega, h2.1, h2.2.1⟩
  | array f =>
    obtain ⟨h3, _, _⟩ := SField.listWF_mem hw.list _ hf
    have h4 := (ArrayField.item_facts h3).2
    simp only [SField.loc, Loc.stop] at h1
    exact ⟨by omega, by omega⟩
  | struct n r l =>
    simp only [SField.loc, Loc.stop] at h1
    simp only [Text.Accessible]
    omega

/-- C52, from the declarations (booleans have 1 to 64 bits and no array length is 0; no array or list field of a
message has a name beginning with a character of several bytes): generating code for every protocol a
loader compiles succeeds in both profiles. -/
theorem C52_compiled {l : Loader} {solver : SimpleImportSolver} {w w' : World}
    {protos : List Protocol}
    (hr : ∀ v ∈ l.importedModels.map Prod.snd ++ l.models, ∀ s ∈ v.structs, ∀ f ∈ s.fields, Ranged f)
    (hs : solver.importMap = []) (h : Loader.compile .checked l solver w = .ok (protos, w'))
    {proto : Protocol} (hp : proto ∈ protos)
    (hn : ∀ m ∈ proto.messages, ∀ f ∈ m.fields, Text.Nameable f)
    (lib : Lib) (p : Profile) (emb : Nat → Bool) :
    ∃ names : Union → List Name × Option Name,
      (∀ u ∈ proto.unions,
        Text.Chain u.discriminant.root u.discriminant.indexList (names u).1 (names u).2) ∧
      (generator lib p emb).generate proto = .ok (Text.files lib emb proto names) := by
  have hu : ∀ u : Union, ∃ x : List Name × Option Name, u ∈ proto.unions →
      Text.Chain u.discriminant.root u.discriminant.indexList x.1 x.2 := by
    intro u
    by_cases hu : u ∈ proto.unions
    · obtain ⟨_, _, hm⟩ := compiled_unions hs h hp hu
      obtain ⟨ns, leaf, hc⟩ := C52_chain hm
      exact ⟨(ns, leaf), fun _ => hc⟩
    · exact ⟨([], none), fun e => absurd e hu⟩
  obtain ⟨names, hnames⟩ := Classical.axiomOfChoice hu
  exact ⟨names, hnames, C52_files lib p emb proto names
    (fun s hs' f hf => accessible_of_usable ((C60_structures hr hs h hp).1 s hs') hf) hnames hn⟩

/-- The whole C52: generating code for a compiled protocol never panics. -/
def C52_full : Prop := ∀ (lib : Lib) (p : Profile) (emb : Nat → Bool) (s : Resolver) (w w' : World)
  (v : Model.Protocol) (proto : Protocol), Protocol.fromModel p s w v = .ok (proto, w') →
    (generator lib p emb).generate proto ≠ .panic

namespace RustEx

/-- Some library. -/
def lib : Lib := ⟨⟨id, id⟩, fun _ => b!"0.0", fun p => b!"\"" ++ p ++ b!"\""⟩

/-- A boolean of no bit. -/
def noBit : Model.Protocol :=
  { name := ['p'], structs := [⟨['A'], [⟨['x'], .boolean 0, none, none⟩]⟩] }

/-- An array of no item. -/
def noItem : Model.Protocol :=
  { name := ['p'], structs := [⟨['A'], [⟨['x'], .unsigned 8, none, some 0⟩]⟩] }

/-- A list whose name begins with a character of two bytes. -/
def accented : Model.Protocol :=
  { name := ['p'], structs := [⟨['A'], [⟨['x'], .unsigned 8, none, none⟩, ⟨['y'], .unsigned 8, none, none⟩]⟩],
    messages := [⟨['F'], [⟨['é'], .list 3 ['A'], none⟩]⟩] }

theorem generate_panics_of_structure {lib : Lib} {p : Profile} {emb : Nat → Bool} {proto : Protocol}
    (h : ∃ s ∈ proto.structs, structureDecl lib p proto.typePathByName s = .panic) :
    (generator lib p emb).generate proto = .panic := by
  show (match generate lib p emb proto with
    | .ok files => Res.ok files
    | _ => Res.panic) = _
  suffices h : generate lib p emb proto = .panic by rw [h]
  unfold generate
  dsimp only
  cases hm : joinMap b!"\n" (messageDecl lib proto.typePathByName) proto.messages with
  | err e => exact e.elim
  | panic => rfl
  | ok x =>
    rw [Res.bind_ok, joinMap_ok _ _ _ _ (fun m _ => C52_from_slice lib _ emb m), Res.bind_ok,
      joinMap_ok _ _ _ _ (fun m _ => C52_write lib _ emb m), Res.bind_ok,
      (joinMap_panic _ _ proto.structs).2 h]
    rfl

theorem generate_panics {lib : Lib} {p : Profile} {emb : Nat → Bool} {proto : Protocol}
    (h : (∃ s ∈ proto.structs, ∃ f ∈ s.fields, Text.Hopeless f) ∨
      ∃ m ∈ proto.messages, ∃ f ∈ m.fields, ¬ Text.Nameable f) :
    (generator lib p emb).generate proto = .panic := by
  rcases h with ⟨s, hs, h⟩ | ⟨m, hm, h⟩
  · exact generate_panics_of_structure ⟨s, hs, (C52_structure_panics lib _ s).2 p h⟩
  · show (match generate lib p emb proto with
      | .ok files => Res.ok files
      | _ => Res.panic) = _
    unfold generate
    dsimp only
    rw [(joinMap_panic _ _ proto.messages).2 ⟨m, hm, (C52_message_panics lib _ m).2 h⟩]
    rfl

end RustEx

/-- C52: generating code panics on a protocol with an unusable scalar, an empty array or an unnameable
alias. -/
theorem C52_panics (lib : Lib) (p : Profile) (emb : Nat → Bool) (proto : Protocol)
    (h : (∃ s ∈ proto.structs, ∃ f ∈ s.fields, Text.Hopeless f) ∨
      ∃ m ∈ proto.messages, ∃ f ∈ m.fields, ¬ Text.Nameable f) :
    (generator lib p emb).generate proto = .panic := RustEx.generate_panics h

/-- The unions of a compiled protocol have paths. -/
theorem compiled_names {p : Profile} {l : Loader} {solver : SimpleImportSolver} {w w' : World}
    {protos : List Protocol} (hs : solver.importMap = [])
    (h : Loader.compile p l solver w = .ok (protos, w')) {proto : Protocol} (hp : proto ∈ protos) :
    ∃ names : Union → List Name × Option Name, ∀ u ∈ proto.unions,
      Text.Chain u.discriminant.root u.discriminant.indexList (names u).1 (names u).2 := by
  have hu : ∀ u : Union, ∃ x : List Name × Option Name, u ∈ proto.unions →
      Text.Chain u.discriminant.root u.discriminant.indexList x.1 x.2 := by
    intro u
    by_cases hu : u ∈ proto.unions
    · obtain ⟨_, _, hm⟩ := compiled_unions hs h hp hu
      obtain ⟨ns, leaf, hc⟩ := C52_chain hm
      exact ⟨(ns, leaf), fun _ => hc⟩
    · exact ⟨([], none), fun e => absurd e hu⟩
  exact Classical.axiomOfChoice hu

/-- C52: with overflow checks, generating code for a compiled protocol panics exactly when a structure
has a field without accessor or a message has an array or list without name for its alias; otherwise it
yields the seven files. -/
theorem C52_compiled_iff {p : Profile} {l : Loader} {solver : SimpleImportSolver} {w w' : World}
    {protos : List Protocol} (hs : solver.importMap = [])
    (h : Loader.compile p l solver w = .ok (protos, w')) {proto : Protocol} (hp : proto ∈ protos)
    (lib : Lib) (emb : Nat → Bool) :
    ((generator lib .checked emb).generate proto = .panic ↔
      (∃ s ∈ proto.structs, ∃ f ∈ s.fields, ¬ Text.Accessible f) ∨
      ∃ m ∈ proto.messages, ∃ f ∈ m.fields, ¬ Text.Nameable f) ∧
    ((generator lib .checked emb).generate proto ≠ .panic →
      ∃ names : Union → List Name × Option Name,
        (∀ u ∈ proto.unions,
          Text.Chain u.discriminant.root u.discriminant.indexList (names u).1 (names u).2) ∧
        (generator lib .checked emb).generate proto = .ok (Text.files lib emb proto names)) := by
  obtain ⟨names, hnames⟩ := compiled_names hs h hp
  have hgood : ¬ ((∃ s ∈ proto.structs, ∃ f ∈ s.fields, ¬ Text.Accessible f) ∨
      ∃ m ∈ proto.messages, ∃ f ∈ m.fields, ¬ Text.Nameable f) →
      (generator lib .checked emb).generate proto = .ok (Text.files lib emb proto names) := by
    intro hn
    exact C52_files lib .checked emb proto names
      (fun s hs f hf => Classical.byContradiction fun e => hn (.inl ⟨s, hs, f, hf, e⟩)) hnames
      (fun m hm f hf => Classical.byContradiction fun e => hn (.inr ⟨m, hm, f, hf, e⟩))
  have hbad : ((∃ s ∈ proto.structs, ∃ f ∈ s.fields, ¬ Text.Accessible f) ∨
      ∃ m ∈ proto.messages, ∃ f ∈ m.fields, ¬ Text.Nameable f) →
      (generator lib .checked emb).generate proto = .panic := by
    rintro (⟨s, hs, hf⟩ | hm)
    · refine RustEx.generate_panics_of_structure ⟨s, hs, ((C52_structure_panics lib _ s).1).2 hf⟩
    · exact C52_panics lib .checked emb proto (.inr hm)
  refine ⟨⟨fun hpan => Classical.byContradiction fun hn => ?_, hbad⟩,
    fun hne => ⟨names, hnames, hgood fun hb => hne (hbad hb)⟩⟩
  rw [hgood hn] at hpan
  cases hpan

/-- C52 is false of the code: protocols that compile and make the generator panic. -/
theorem C52_full_false : ¬ C52_full ∧ ∀ (lib : Lib) (p : Profile) (emb : Nat → Bool),
    ∀ v ∈ [RustEx.noBit, RustEx.noItem, RustEx.accented], ∃ proto w',
      Protocol.fromModel p Resolver.none ⟨0, []⟩ v = .ok (proto, w') ∧
      (generator lib p emb).generate proto = .panic := by
  have key : ∀ (lib : Lib) (p : Profile) (emb : Nat → Bool),
    ∀ v ∈ [RustEx.noBit, RustEx.noItem, RustEx.accented], ∃ proto w',
      Protocol.fromModel p Resolver.none ⟨0, []⟩ v = .ok (proto, w') ∧
      (generator lib p emb).generate proto = .panic := by
    intro lib p emb v hv
    simp only [List.mem_cons, List.not_mem_nil, or_false] at hv
    rcases hv with rfl | rfl | rfl
    · cases p
      all_goals
        refine ⟨_, _, rfl, C52_panics lib _ emb _ (.inl ⟨_, List.mem_singleton.2 rfl, _,
          List.mem_singleton.2 rfl, .inl rfl⟩)⟩
    · cases p
      all_goals
        refine ⟨_, _, rfl, C52_panics lib _ emb _ (.inl ⟨_, List.mem_singleton.2 rfl, _,
          List.mem_singleton.2 rfl, .inl rfl⟩)⟩
    · cases p
      all_goals
        refine ⟨_, _, rfl, C52_panics lib _ emb _ (.inr ⟨_, List.mem_singleton.2 rfl, _,
          List.mem_singleton.2 rfl, fun h => ?_⟩)⟩
        have h1 := h rfl 0xc3 (by decide +kernel)
        exact absurd h1 (by decide)
  refine ⟨fun h => ?_, key⟩
  obtain ⟨proto, w', h1, h2⟩ := key RustEx.lib .checked (fun _ => false) RustEx.noBit (by simp)
  exact h _ _ _ _ _ _ _ _ h1 h2

namespace RustEx

/-- A model with nested structures, an array, a union, a list and an optional string. -/
def full : Model.Protocol :=
  { name := ['p'],
    structs := [⟨['I'], [⟨['t'], .unsigned 8, none, none⟩, ⟨['s'], .signed 4, none, none⟩,
        ⟨['b'], .boolean 4, none, none⟩]⟩,
      ⟨['A'], [⟨['i'], .struct ['I'], none, none⟩, ⟨['a'], .unsigned 8, none, some 3⟩]⟩],
    unions := [⟨['U'], "A.i.t".toList, [⟨['C'], ['1'], some ['I']⟩, ⟨['N'], ['2'], none⟩]⟩],
    messages := [⟨['M'], [⟨['k'], .item ['A'], none⟩, ⟨['u'], .union ['k'] ['U'], none⟩,
      ⟨['l'], .list 300 ['A'], none⟩, ⟨['z'], .string none, some true⟩]⟩] }

end RustEx

example (lib : Lib) (emb : Nat → Bool) : ∃ proto w' names,
    Loader.compile .checked ⟨[RustEx.full], []⟩ SimpleImportSolver.default ⟨0, []⟩ = .ok ([proto], w') ∧
    (generator lib .wrapping emb).generate proto = .ok (Text.files lib emb proto names) := by
  obtain ⟨proto, w', h⟩ : ∃ proto w', Loader.compile .checked ⟨[RustEx.full], []⟩
    SimpleImportSolver.default ⟨0, []⟩ = .ok ([proto], w') := ⟨_, _, rfl⟩
  refine ⟨proto, w', ?_⟩
  have key := C52_compiled (l := ⟨[RustEx.full], []⟩)
    (solver := SimpleImportSolver.default) ?_ rfl h (List.mem_singleton.2 rfl) ?_ lib .wrapping emb
  · obtain ⟨names, _, hg⟩ := key
    exact ⟨names, h, hg⟩
  · intro v hv s hs f hf
    simp only [List.map_nil, List.nil_append, List.mem_singleton] at hv
    subst hv
    simp only [RustEx.full, List.mem_cons, List.not_mem_nil, or_false] at hs
    rcases hs with rfl | rfl <;> simp only [List.mem_cons, List.not_mem_nil, or_false] at hf <;>
      first
        | (rcases hf with rfl | rfl | rfl <;> simp [Ranged])
        | (rcases hf with rfl | rfl <;> simp [Ranged])
  · intro m hm f hf ha c hc
    cases h
    have hm := List.mem_singleton.1 hm
    subst hm
    rcases List.mem_cons.1 hf with rfl | hf
    · cases ha
    rcases List.mem_cons.1 hf with rfl | hf
    · cases ha
    rcases List.mem_cons.1 hf with rfl | hf
    · have : c = 0x6c := by
        have e : (Name.utf8 ['l']).head? = some 0x6c := by decide +kernel
        have hc' : c ∈ (Name.utf8 ['l']).head? := hc
        rw [e] at hc'
        exact (Option.some.inj hc').symm
      subst this
      decide
    rcases List.mem_cons.1 hf with rfl | hf
    · cases ha
    cases hf

/-- The generated enum. -/
example (lib : Lib) : enumDecl lib ⟨"Mode".toList, 7, [("A".toList, 2), ("B".toList, 7)]⟩ =
    .ok b!"#[derive(Copy, Clone, Debug, Eq, PartialEq)]
pub enum Mode {
    A = 2,
    B = 7,

}
" := by
  rw [C52_enum]
  decide +kernel

end Proto
