import Verif.Gen.RustUnionLemmas

/-!
# The messages of the Rust generator, as text
-/

namespace Proto.Rust

set_option maxRecDepth 100000
set_option linter.unusedSimpArgs false

theorem generics_eq (m : Message) : generics m = Text.messageGenerics m := by
  have h : hasLifetime m = true ↔ ¬ ∀ f ∈ m.fields, Text.isNumber f.ty = true := by
    unfold hasLifetime
    rw [List.any_eq_true]
    constructor
    · rintro ⟨f, hf, h⟩ hall
      have := hall f hf
      revert h this
      cases f.ty <;> simp [Text.isNumber]
    · intro h
      refine Classical.byContradiction fun hn => h fun f hf => ?_
      have : ¬ _ := fun e => hn ⟨f, hf, e⟩
      revert this
      cases f.ty <;> simp [Text.isNumber]
  unfold generics genericsVec Text.messageGenerics
  by_cases hl : hasLifetime m = true
  · rw [if_neg (h.1 hl), if_pos hl]
    rfl
  · rw [if_neg hl, if_pos (Classical.byContradiction fun e => hl (h.2 e))]
    rfl

theorem valueType_eq (e : Endian) (ty : FixedTy) : valueType e ty = Text.value e ty := by
  cases e <;> cases ty <;> rfl

theorem valueTypeInline_eq (e : Endian) (ty : FixedTy) :
    valueTypeInline e ty = t!"bp3d_proto::message::util::Value{Text.suffix e}::<{Text.typeName ty}>" := by
  cases e <;> cases ty <;> rfl

theorem capitalize_eq {s : Bytes} (h : ∀ c ∈ s.head?, c < 0x80) :
    capitalize s = .ok (Text.capital s) := by
  unfold capitalize Text.capital
  cases s with
  | nil => rfl
  | cons c cs =>
    have hc : c < 0x80 := h c rfl
    dsimp only
    unfold asciiUpper
    by_cases h1 : 0x41 ≤ c ∧ c ≤ 0x5a
    · rw [if_pos h1, if_neg]
      rintro ⟨h2, _⟩
      have h3 : c.toNat ≤ 0x5a := h1.2
      omega
    · rw [if_neg h1, if_pos hc]
      by_cases h2 : 0x61 ≤ c ∧ c ≤ 0x7a
      · have h3 : 0x61 ≤ c.toNat ∧ c.toNat ≤ 0x7a := ⟨h2.1, h2.2⟩
        rw [if_pos h2, if_pos h3]
        congr 2
        apply UInt8.toNat.inj
        have hle : (0x20 : UInt8) ≤ c := by
          rw [UInt8.le_iff_toNat_le]
          have : (0x20 : UInt8).toNat = 0x20 := rfl
          omega
        rw [UInt8.toNat_sub_of_le _ _ hle]
        have : (0x20 : UInt8).toNat = 0x20 := rfl
        rw [this, UInt8.toNat_ofNat']
        omega
      · have h3 : ¬(0x61 ≤ c.toNat ∧ c.toNat ≤ 0x7a) := fun e => h2 ⟨e.1, e.2⟩
        rw [if_neg h2, if_neg h3]

theorem capitalize_panics {c : UInt8} {cs : Bytes} (h : 0x80 ≤ c) :
    capitalize (c :: cs) = .panic := by
  unfold capitalize
  dsimp only
  have h' : 0x80 ≤ c.toNat := h
  rw [if_neg, if_neg]
  · intro e
    have : c.toNat < 0x80 := e
    omega
  · rintro ⟨_, e⟩
    have : c.toNat ≤ 0x5a := e
    omega

variable (lib : Lib) (paths : List (Name × Name)) (emb : Nat → Bool) (n g : Bytes)

/-- A template with the variables common to the messages' generators. -/
def msgT (t : Template Fn) : Template Fn := (t.var b!"msg_name" n).var b!"generics" g

/-! ## Declarations -/

theorem declArray_eq (c t : Bytes) :
    (((msgT n g Tmpl.rustMessageT).scope.var b!"codec" c).var b!"type_name" t).render lib.run b!""
      [b!"array"] = .ok t!"bp3d_proto::message::util::Array::<&'a [u8], {c}, {t}<&'a [u8]>>
" := by
  simp only [Scope.render, Template.renderInternal_eq]
  krfl

theorem declList_eq (c t : Bytes) :
    (((msgT n g Tmpl.rustMessageT).scope.var b!"codec" c).var b!"type_name" t).render lib.run b!""
      [b!"list"] = .ok t!"bp3d_proto::message::util::List::<&'a [u8], {c}, {t}<'a>>
" := by
  simp only [Scope.render, Template.renderInternal_eq]
  krfl

theorem declField_eq (nm t : Bytes) :
    (((msgT n g Tmpl.rustMessageT).scope.var b!"name" nm).var b!"type" t).render lib.run b!"decl"
      [b!"field"] = .ok t!"    pub {nm}: {t},
" := by
  simp only [Scope.render, Template.renderInternal_eq]
  krfl

theorem declMessage_eq (fields : Bytes) :
    ((msgT n g Tmpl.rustMessageT).scope.var b!"fields" fields).render lib.run b!"" [b!"decl"] =
      .ok t!"#[derive(Copy, Clone, Debug)]
pub struct {n}{g} \{
{fields}
}
" := by
  simp only [Scope.render, Template.renderInternal_eq]
  krfl

theorem fieldDecl_eq (f : MField) :
    Code.fieldDecl lib utils paths (msgT n g Tmpl.rustMessageT) f = .ok (Text.fieldDecl paths f) := by
  unfold Code.fieldDecl Text.fieldDecl
  have hv : ∀ ty, utils.valueType f.endian ty = Text.value f.endian ty := valueType_eq _
  have hf : ∀ ty, utils.fieldType ty = Text.typeName ty := fieldType_eq
  simp only [declField_eq, declArray_eq, declList_eq, unwrap_ok, hv, hf]
  generalize f.ty = t
  rcases t with ty | r | _ | ty | ⟨ty, s⟩ | ⟨un, a, b⟩ | ⟨ty, m⟩ | _
  · cases f.optional <;> rfl
  · rcases r with s | m <;> cases f.optional <;> rfl
  · cases f.optional <;> rfl
  · cases f.optional <;> rfl
  · cases f.optional <;> rfl
  · cases f.optional <;> rfl
  · cases f.optional <;> rfl
  · cases f.optional <;> rfl

/-! ## The aliases -/

theorem aliasArray_render (nm it c : Bytes) :
    ((((Tmpl.rustMessageExtT.var b!"msg_name" n).var b!"name" nm).var b!"item_type" it).var b!"codec"
      c).render lib.run b!"" [b!"decl_array"] =
    Res.bind (Res.bind (Res.bind (capitalize nm) fun x => .ok (x ++ t!", {it}, {c});
")) fun y => .ok (n ++ y)) fun y => .ok (b!"bp3d_proto::generate_array_wrapper!(" ++ y) := by
  simp only [Template.render, Template.renderInternal_eq]
  krfl

theorem aliasList_render (nm it c : Bytes) :
    ((((Tmpl.rustMessageExtT.var b!"msg_name" n).var b!"name" nm).var b!"item_type" it).var b!"codec"
      c).render lib.run b!"" [b!"decl_list"] =
    Res.bind (Res.bind (Res.bind (capitalize nm) fun x =>
      .ok (x ++ t!"<'a, T> = bp3d_proto::message::util::List<T, {c}, {it}<'a>>;
")) fun y => .ok (n ++ y)) fun y => .ok (b!"pub type " ++ y) := by
  simp only [Template.render, Template.renderInternal_eq]
  krfl

theorem aliasDecls_eq (m : Message)
    (h : ∀ f ∈ m.fields, Text.Nameable f) :
    messageArrayTypeDecls lib paths m = .ok (Text.all (Text.aliasDecl paths m) m.fields) := by
  unfold messageArrayTypeDecls
  rw [Tmpl.rustMessageExt_compile, unwrap_ok, Res.bind_ok]
  dsimp only
  refine joinMap_all _ _ _ fun f hf => ?_
  have hc : Text.aliased f.ty = true → _ := h f hf
  unfold Text.aliasDecl
  revert hc
  generalize f.ty = t
  intro hc
  rcases t with ty | r | _ | ty | ⟨ty, s⟩ | ⟨un, a, b⟩ | ⟨ty, s⟩ | _
  · rfl
  · rcases r with s | m <;> rfl
  · rfl
  · rfl
  · simp only [aliasArray_render, capitalize_eq (hc rfl), valueType_eq]
    rfl
  · rfl
  · simp only [aliasList_render, capitalize_eq (hc rfl), valueType_eq]
    rfl
  · rfl

theorem messageDecl_eq (m : Message)
    (h : ∀ f ∈ m.fields, Text.Nameable f) :
    messageDecl lib paths m = .ok (Text.messageText paths m) := by
  unfold messageDecl Code.messageDecl
  rw [Tmpl.rustMessage_compile, unwrap_ok, Res.bind_ok]
  rw [show utils.generics m = Text.messageGenerics m from generics_eq m]
  have e : ∀ n g : Bytes, (Tmpl.rustMessageT.var b!"msg_name" n).var b!"generics" g =
    msgT n g Tmpl.rustMessageT := fun _ _ => rfl
  simp only [e]
  rw [joinMap_all _ (Text.fieldDecl paths) m.fields (by exact fun f _ => fieldDecl_eq lib paths _ _ f),
    Res.bind_ok, declMessage_eq, unwrap_ok, Res.bind_ok, aliasDecls_eq lib paths m h, Res.bind_ok]
  rfl

/-! ## Field codecs -/

/-- The four templates of types render alike in the three files. -/
structure TypesOf (t : Template Fn) (unsized : Bytes → Bytes → Bytes) : Prop where
  varchar : ∀ c, (t.scope.var b!"codec" c).render lib.run b!"" [b!"varchar"] =
    .ok t!"bp3d_proto::message::util::VarcharString::<{c}>
"
  array : ∀ c ty, ((t.scope.var b!"codec" c).var b!"type_name" ty).render lib.run b!"" [b!"array"] =
    .ok t!"bp3d_proto::message::util::Array::<&'a [u8], {c}, {ty}<&'a [u8]>>
"
  list : ∀ c ty, ((t.scope.var b!"codec" c).var b!"type_name" ty).render lib.run b!"" [b!"list"] =
    .ok (Text.sizedList c ty)
  «unsized» : ∀ c ty, ((t.scope.var b!"codec" c).var b!"type_name" ty).render lib.run b!""
    [b!"unsized"] = .ok (unsized c ty)

theorem readTypes : TypesOf lib (msgT n g Tmpl.rustMessageFromSliceT) Text.unsizedList := by
  constructor
  · intro c
    simp only [Scope.render, Template.renderInternal_eq]
    krfl
  · intro c ty
    simp only [Scope.render, Template.renderInternal_eq]
    krfl
  · intro c ty
    simp only [Scope.render, Template.renderInternal_eq]
    krfl
  · intro c ty
    simp only [Scope.render, Template.renderInternal_eq]
    krfl

theorem writeTypes : TypesOf lib (msgT n g Tmpl.rustMessageWriteT) Text.sizedList := by
  constructor
  · intro c
    simp only [Scope.render, Template.renderInternal_eq]
    krfl
  · intro c ty
    simp only [Scope.render, Template.renderInternal_eq]
    krfl
  · intro c ty
    simp only [Scope.render, Template.renderInternal_eq]
    krfl
  · intro c ty
    simp only [Scope.render, Template.renderInternal_eq]
    krfl

theorem offsetTypes (fs : Bytes) :
    TypesOf lib ((msgT n g Tmpl.rustMessageOffsetsT).var b!"fields" fs) Text.unsizedList := by
  constructor
  · intro c
    simp only [Scope.render, Template.renderInternal_eq]
    krfl
  · intro c ty
    simp only [Scope.render, Template.renderInternal_eq]
    krfl
  · intro c ty
    simp only [Scope.render, Template.renderInternal_eq]
    krfl
  · intro c ty
    simp only [Scope.render, Template.renderInternal_eq]
    krfl

/-- The field on which a union field depends. -/
def onName : MFieldTy → Option Bytes
  | .union _ on _ => some (Name.utf8 on)
  | _ => none

theorem fieldTypeInline_eq {t : Template Fn} {unsized : Bytes → Bytes → Bytes}
    (h : TypesOf lib t unsized) (m : Message) (f : MField) :
    Code.fieldTypeInline lib utils paths emb m t f =
      .ok (Text.codecType paths (if emb m.id then Text.sizedList else unsized) f, onName f.ty) := by
  unfold Code.fieldTypeInline Text.codecType
  have hv : ∀ ty, utils.valueType f.endian ty = Text.value f.endian ty := valueType_eq _
  have ho : ∀ s, Code.optionalType utils f.optional s =
      if f.optional then t!"bp3d_proto::message::util::Optional::<{s}>" else s := fun s => by
    unfold Code.optionalType
    cases f.optional <;> rfl
  simp only [h.varchar, h.array, h.list, h.unsized, unwrap_ok, Res.bind_ok, hv, ho]
  generalize f.ty = t
  rcases t with ty | r | _ | ty | ⟨ty, s⟩ | ⟨un, a, b⟩ | ⟨ty, s⟩ | _
  · simp only [show utils.valueTypeInline f.endian ty = _ from valueTypeInline_eq _ _]
    rfl
  · rcases r with s | m <;> rfl
  · rfl
  · rfl
  · rfl
  · rfl
  · dsimp only [Text.inlineType]
    by_cases he : emb m.id = true
    · rw [if_pos he, if_pos he]
      rfl
    · rw [if_neg he, if_neg he]
      rfl
  · rfl

/-! ## Decoders -/

theorem readField_eq (nm ty : Bytes) :
    (((msgT n g Tmpl.rustMessageFromSliceT).scope.var b!"name" nm).var b!"type" ty).render lib.run
      b!"impl" [b!"field"] = .ok t!"        let {nm}_msg = {ty}::from_slice(&slice[byte_offset..])?;
        byte_offset += {nm}_msg.size();
        let {nm} = {nm}_msg.into_inner();
" := by
  simp only [Scope.render, Template.renderInternal_eq]
  krfl

theorem readMsg_eq (nm ty : Bytes) :
    (((msgT n g Tmpl.rustMessageFromSliceT).scope.var b!"name" nm).var b!"type" ty).render lib.run
      b!"impl" [b!"field_msg"] = .ok t!"        let {nm}_msg = {ty}::from_slice(&slice[byte_offset..])?;
        byte_offset += {nm}_msg.size();
        let {nm} = {nm}_msg.into_inner();
" := by
  simp only [Scope.render, Template.renderInternal_eq]
  krfl

theorem readUnion_eq (nm on ty : Bytes) :
    ((((msgT n g Tmpl.rustMessageFromSliceT).scope.var b!"name" nm).var b!"on_name" on).var b!"type"
      ty).render lib.run b!"impl" [b!"field_union"] =
      .ok t!"        let {nm}_msg = {ty}::from_slice(&slice[byte_offset..], &{on})?;
        byte_offset += {nm}_msg.size();
        let {nm} = {nm}_msg.into_inner();
" := by
  simp only [Scope.render, Template.renderInternal_eq]
  krfl

theorem readName_eq (nm : Bytes) :
    ((msgT n g Tmpl.rustMessageFromSliceT).scope.var b!"name" nm).render lib.run b!"impl"
      [b!"field_name"] = .ok t!"            {nm},
" := by
  simp only [Scope.render, Template.renderInternal_eq]
  krfl

theorem readBody_eq (fields names : Bytes) :
    (((msgT n g Tmpl.rustMessageFromSliceT).scope.var b!"fields" fields).var b!"field_names"
      names).render lib.run b!"" [b!"impl"] =
      .ok t!"impl<'a> bp3d_proto::message::FromSlice<'a> for {n}{g} \{
    type Output = Self;
    fn from_slice(slice: &'a [u8]) -> bp3d_proto::message::Result<bp3d_proto::message::Message<Self>> \{
        let mut byte_offset: usize = 0;
{fields}
        let data = {n} \{
{names}
        };
        Ok(bp3d_proto::message::Message::new(byte_offset, data))
    }
}
" := by
  simp only [Scope.render, Template.renderInternal_eq]
  krfl

theorem fieldFromSlice_eq (m : Message) (f : MField) :
    Code.fieldFromSlice lib utils paths emb m (msgT n g Tmpl.rustMessageFromSliceT) f =
      .ok (Text.fieldFromSlice paths (emb m.id) f) := by
  unfold Code.fieldFromSlice Text.fieldFromSlice
  rw [fieldTypeInline_eq lib paths emb (readTypes lib n g) m f, Res.bind_ok]
  simp only [readField_eq, readMsg_eq, readUnion_eq, unwrap_ok]
  rw [show Text.readList (emb m.id) = if emb m.id then Text.sizedList else Text.unsizedList from rfl]
  generalize Text.codecType paths _ f = ct
  generalize f.ty = t
  rcases t with ty | r | _ | ty | ⟨ty, s⟩ | ⟨un, a, b⟩ | ⟨ty, s⟩ | _
  · rfl
  · rcases r with s | m <;> rfl
  · rfl
  · rfl
  · rfl
  · rfl
  · rfl
  · rfl

theorem messageFromSlice_eq (m : Message) :
    messageFromSlice lib paths emb m = .ok (Text.fromSliceText paths (emb m.id) m) := by
  unfold messageFromSlice Code.messageFromSlice Code.fromSliceImpl
  rw [Tmpl.rustMessageFromSlice_compile, unwrap_ok, Res.bind_ok]
  rw [show utils.generics m = Text.messageGenerics m from generics_eq m]
  have e : ∀ n g : Bytes, (Tmpl.rustMessageFromSliceT.var b!"msg_name" n).var b!"generics" g =
    msgT n g Tmpl.rustMessageFromSliceT := fun _ _ => rfl
  simp only [e]
  rw [joinMap_all _ (Text.fieldFromSlice paths (emb m.id)) m.fields
      (by exact fun f _ => fieldFromSlice_eq lib paths emb _ _ m f), Res.bind_ok,
    joinMap_all _ Text.fieldName m.fields
      (by intro f _; rw [readName_eq]; rfl), Res.bind_ok, readBody_eq]
  rfl

/-! ## Encoders -/

theorem writeField_eq (nm ty : Bytes) :
    (((msgT n g Tmpl.rustMessageWriteT).scope.var b!"name" nm).var b!"type" ty).render lib.run
      b!"impl" [b!"field"] = .ok t!"        {ty}::write_to(&input.{nm}, &mut out)?;
" := by
  simp only [Scope.render, Template.renderInternal_eq]
  krfl

theorem writeUnion_eq (nm on ty : Bytes) :
    ((((msgT n g Tmpl.rustMessageWriteT).scope.var b!"name" nm).var b!"on_name" on).var b!"type"
      ty).render lib.run b!"impl" [b!"field_union"] =
      .ok t!"        {ty}::write_to(&input.{nm}, &input.{on}, &mut out)?;
" := by
  simp only [Scope.render, Template.renderInternal_eq]
  krfl

theorem writeBody_eq (fields : Bytes) :
    ((msgT n g Tmpl.rustMessageWriteT).var b!"fields" fields).render lib.run b!"" [b!"impl"] =
      .ok t!"impl{g} bp3d_proto::message::WriteTo for {n}{g} \{
    type Input = Self;
    fn write_to<W: std::io::Write>(input: &Self, mut out: W) -> bp3d_proto::message::Result<()> \{
{fields}
        Ok(())
    }
}
" := by
  simp only [Template.render, Template.renderInternal_eq]
  krfl

theorem fieldWrite_eq (m : Message) (f : MField) :
    Code.fieldWrite lib utils paths emb m (msgT n g Tmpl.rustMessageWriteT) f =
      .ok (Text.fieldWrite paths f) := by
  unfold Code.fieldWrite Text.fieldWrite
  rw [fieldTypeInline_eq lib paths emb (writeTypes lib n g) m f, Res.bind_ok]
  simp only [writeField_eq, writeUnion_eq, unwrap_ok, ite_self]
  generalize Text.codecType paths _ f = ct
  generalize f.ty = t
  rcases t with ty | r | _ | ty | ⟨ty, s⟩ | ⟨un, a, b⟩ | ⟨ty, s⟩ | _
  · rfl
  · rcases r with s | m <;> rfl
  · rfl
  · rfl
  · rfl
  · rfl
  · rfl
  · rfl

theorem messageWrite_eq (m : Message) :
    messageWrite lib paths emb m = .ok (Text.writeText paths m) := by
  unfold messageWrite Code.messageWrite
  rw [Tmpl.rustMessageWrite_compile, unwrap_ok, Res.bind_ok]
  rw [show utils.generics m = Text.messageGenerics m from generics_eq m]
  have e : ∀ n g : Bytes, (Tmpl.rustMessageWriteT.var b!"msg_name" n).var b!"generics" g =
    msgT n g Tmpl.rustMessageWriteT := fun _ _ => rfl
  simp only [e]
  rw [joinMap_all _ (Text.fieldWrite paths) m.fields
      (by exact fun f _ => fieldWrite_eq lib paths emb _ _ m f), Res.bind_ok, writeBody_eq]
  rfl

/-! ## Offsets -/

/-- The offsets template with its variables. -/
def offT (fs : Bytes) : Template Fn := (msgT n g Tmpl.rustMessageOffsetsT).var b!"fields" fs

theorem offsetPlain_eq (nm : Bytes) :
    ((msgT n g Tmpl.rustMessageOffsetsT).scope.var b!"name" nm).render lib.run b!"decl" [b!"field"] =
      .ok t!"    pub {nm}: bp3d_proto::message::FieldOffset,
" := by
  simp only [Scope.render, Template.renderInternal_eq]
  krfl

theorem offsetOptional_eq (nm ty : Bytes) :
    (((msgT n g Tmpl.rustMessageOffsetsT).scope.var b!"name" nm).var b!"type_name" ty).render lib.run
      b!"decl" [b!"field", b!"msg_optional"] =
      .ok t!"    pub {nm}: bp3d_proto::message::FieldOffset,
    pub {nm}_offsets: Option<{ty}Offsets>,
" := by
  simp only [Scope.render, Template.renderInternal_eq]
  krfl

theorem offsetMsg_eq (nm ty : Bytes) :
    (((msgT n g Tmpl.rustMessageOffsetsT).scope.var b!"name" nm).var b!"type_name" ty).render lib.run
      b!"decl" [b!"field", b!"msg"] =
      .ok t!"    pub {nm}: bp3d_proto::message::FieldOffset,
    pub {nm}_offsets: {ty}Offsets,
" := by
  simp only [Scope.render, Template.renderInternal_eq]
  krfl

theorem offsetField_eq (f : MField) :
    offsetField lib paths (msgT n g Tmpl.rustMessageOffsetsT) f = .ok (Text.offsetDecl paths f) := by
  unfold offsetField Text.offsetDecl
  simp only [offsetPlain_eq, offsetOptional_eq, offsetMsg_eq, unwrap_ok]
  generalize f.ty = t
  rcases t with ty | r | _ | ty | ⟨ty, s⟩ | ⟨un, a, b⟩ | ⟨ty, s⟩ | _
  · rfl
  · rcases r with s | m
    · rfl
    · cases f.optional <;> rfl
  · rfl
  · rfl
  · rfl
  · rfl
  · rfl
  · rfl

theorem offsetsStruct_eq (fs : Bytes) :
    ((msgT n g Tmpl.rustMessageOffsetsT).var b!"fields" fs).render lib.run b!"" [b!"decl"] =
      .ok t!"#[derive(Copy, Clone, Debug, Default)]
pub struct {n}Offsets \{
{fs}
}
" := by
  simp only [Template.render, Template.renderInternal_eq]
  krfl

theorem offField_eq (fs nm ty : Bytes) :
    (((offT n g fs).scope.var b!"name" nm).var b!"type" ty).render lib.run
      b!"impl" [b!"field"] = .ok t!"        let {nm}_msg = {ty}::from_slice(&slice[byte_offset..])?;
        offsets.{nm}.start = byte_offset;
        byte_offset += {nm}_msg.size();
        offsets.{nm}.end = byte_offset;
        let {nm} = {nm}_msg.into_inner();
" := by
  simp only [Scope.render, Template.renderInternal_eq]
  krfl

theorem offMsg_eq (fs nm ty : Bytes) :
    (((offT n g fs).scope.var b!"name" nm).var b!"type" ty).render lib.run
      b!"impl" [b!"field_msg"] =
      .ok t!"        let {nm}_msg = {ty}::from_slice_with_offsets(&slice[byte_offset..])?;
        offsets.{nm}.start = byte_offset;
        byte_offset += {nm}_msg.size();
        offsets.{nm}.end = byte_offset;
        let ({nm}, {nm}_offsets) = {nm}_msg.into_inner();
        offsets.{nm}_offsets = {nm}_offsets;
" := by
  simp only [Scope.render, Template.renderInternal_eq]
  krfl

theorem offUnion_eq (fs nm on ty : Bytes) :
    ((((offT n g fs).scope.var b!"name" nm).var b!"on_name" on).var b!"type" ty).render lib.run
      b!"impl" [b!"field_union"] =
      .ok t!"        let {nm}_msg = {ty}::from_slice(&slice[byte_offset..], &{on})?;
        offsets.{nm}.start = byte_offset;
        byte_offset += {nm}_msg.size();
        offsets.{nm}.end = byte_offset;
        let {nm} = {nm}_msg.into_inner();
" := by
  simp only [Scope.render, Template.renderInternal_eq]
  krfl

theorem offName_eq (fs nm : Bytes) :
    ((offT n g fs).scope.var b!"name" nm).render lib.run b!"impl"
      [b!"field_name"] = .ok t!"            {nm},
" := by
  simp only [Scope.render, Template.renderInternal_eq]
  krfl

theorem offBody_eq (fs fields names : Bytes) :
    (((offT n g fs).scope.var b!"fields" fields).var b!"field_names" names).render lib.run b!""
      [b!"impl"] =
      .ok t!"impl<'a> bp3d_proto::message::FromSliceWithOffsets<'a> for {n}{g} \{
    type Offsets = {n}Offsets;
    fn from_slice_with_offsets(slice: &'a [u8]) -> bp3d_proto::message::Result<bp3d_proto::message::Message<(Self, Self::Offsets)>> \{
        use bp3d_proto::message::FromSlice;
        let mut offsets = Self::Offsets::default();
        let mut byte_offset: usize = 0;
{fields}
        let data = {n} \{
{names}
        };
        Ok(bp3d_proto::message::Message::new(byte_offset, (data, offsets)))
    }
}
" := by
  simp only [Scope.render, Template.renderInternal_eq]
  krfl

theorem fieldOffsets_eq (fs : Bytes) (m : Message) (f : MField) :
    Code.fieldFromSlice lib utils paths emb m (offT n g fs) f =
      .ok (Text.fieldOffsets paths (emb m.id) f) := by
  unfold Code.fieldFromSlice Text.fieldOffsets
  rw [fieldTypeInline_eq lib paths emb (t := offT n g fs) (offsetTypes lib n g fs) m f, Res.bind_ok]
  simp only [offField_eq, offMsg_eq, offUnion_eq, unwrap_ok]
  rw [show Text.readList (emb m.id) = if emb m.id then Text.sizedList else Text.unsizedList from rfl]
  generalize Text.codecType paths _ f = ct
  generalize f.ty = t
  rcases t with ty | r | _ | ty | ⟨ty, s⟩ | ⟨un, a, b⟩ | ⟨ty, s⟩ | _
  · rfl
  · rcases r with s | m <;> rfl
  · rfl
  · rfl
  · rfl
  · rfl
  · rfl
  · rfl

theorem messageOffsets_eq (m : Message) :
    messageOffsets lib paths emb m = .ok (Text.offsetsText paths (emb m.id) m) := by
  unfold messageOffsets Code.fromSliceImpl
  rw [Tmpl.rustMessageOffsets_compile, unwrap_ok, Res.bind_ok, generics_eq]
  have e : ∀ n g : Bytes, (Tmpl.rustMessageOffsetsT.var b!"msg_name" n).var b!"generics" g =
    msgT n g Tmpl.rustMessageOffsetsT := fun _ _ => rfl
  simp only [e]
  rw [joinMap_all _ (Text.offsetDecl paths) m.fields
      (by exact fun f _ => offsetField_eq lib paths _ _ f), Res.bind_ok, offsetsStruct_eq, unwrap_ok,
    Res.bind_ok]
  have e' : ∀ n g fs : Bytes, (msgT n g Tmpl.rustMessageOffsetsT).var b!"fields" fs = offT n g fs :=
    fun _ _ _ => rfl
  simp only [e']
  rw [joinMap_all _ (Text.fieldOffsets paths (emb m.id)) m.fields
      (by exact fun f _ => fieldOffsets_eq lib paths emb _ _ _ m f), Res.bind_ok,
    joinMap_all _ Text.fieldName m.fields
      (by intro f _; rw [offName_eq]; rfl), Res.bind_ok, offBody_eq]
  rfl

theorem umbrella_eq (name : Bytes) (files : List Bytes) :
    umbrella lib name files = Text.umbrellaText lib name files := by
  unfold umbrella Text.umbrellaText
  have h : umbrellaLines lib files = Text.all (fun f => t!"include!({lib.debugPath f});
") files := by
    induction files with
    | nil => rfl
    | cons f fs ih =>
      rw [umbrellaLines, ih]
      simp [Text.all]
  rw [h]
  simp

end Proto.Rust
