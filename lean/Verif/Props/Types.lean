import Verif.Lang.Types
import Verif.Props.Lang
import Verif.Fixtures.Compiled
import Verif.Base.Lit

/-!
# C88: which messages get Rust code the Rust compiler can resolve
-/

namespace Proto.Rs.Typ

open Proto Proto.Text

/-! ## The text -/

/-- C88: the codecs and the declared types in the generated text are these expressions. -/
theorem C88_text (paths : List (Name × Name)) (emb : Bool) (f : MField) :
    Text.codecType paths (Text.readList emb) f = (codec paths (listCodec emb) f).print false ∧
    Text.codecType paths Text.sizedList f = (codec paths .list f).print false ∧
    Text.fieldDecl paths f = t!"    pub {Name.utf8 f.name}: {(fieldType paths f).print true},
" := by
  obtain ⟨n, t, o, sz, e⟩ := f
  refine ⟨?_, ?_, ?_⟩
  · cases t with
    | ref r => cases r <;> cases o <;>
        simp [Text.codecType, codec, Text.inlineType, plainCodec, Expr.print, Args.print, MField.optional,
          MField.ty, MField.endian]
    | _ => cases o <;> cases emb <;>
        simp [Text.codecType, codec, Text.inlineType, plainCodec, Expr.print, Args.print, MField.optional,
          MField.ty, MField.endian, listCodec, Text.readList, Text.value, Text.sizedList, Text.unsizedList]
  · cases t with
    | ref r => cases r <;> cases o <;>
        simp [Text.codecType, codec, Text.inlineType, plainCodec, Expr.print, Args.print, MField.optional,
          MField.ty, MField.endian]
    | _ => cases o <;>
        simp [Text.codecType, codec, Text.inlineType, plainCodec, Expr.print, Args.print, MField.optional,
          MField.ty, MField.endian, Text.value, Text.sizedList]
  · cases t with
    | ref r => cases r <;> cases o <;>
        simp [Text.fieldDecl, fieldType, Text.declType, plainType, Expr.print, Args.print, MField.optional,
          MField.ty, MField.endian, MField.name]
    | _ => cases o <;>
        simp [Text.fieldDecl, fieldType, Text.declType, plainType, Expr.print, Args.print, MField.optional,
          MField.ty, MField.endian, MField.name, Text.value]

/-- C88: so are the types in the names declared for arrays and lists, and in the cases of unions. -/
theorem C88_text_names (paths : List (Name × Name)) (m : Message) (f : MField) (k : UCase) :
    (∀ t s, f.ty = .array t s → Text.aliasDecl paths m f =
      t!"bp3d_proto::generate_array_wrapper!({Name.utf8 m.name}{capital (Name.utf8 f.name)}, {(Expr.user (pathOf paths s.name) .none).print true}, {(Expr.value f.endian t).print true});
") ∧
    (∀ t r, f.ty = .list t r → Text.aliasDecl paths m f =
      t!"pub type {Name.utf8 m.name}{capital (Name.utf8 f.name)}<'a, T> = bp3d_proto::message::util::List<T, {(Expr.value f.endian t).print true}, {(Expr.user (pathOf paths r.name) .life).print true}>;
") ∧
    (∀ r, k.itemType = some r → Text.caseDecl paths k =
      t!"    {Name.utf8 k.name}({(Expr.user (pathOf paths (itemName r)) (match r with | .struct _ => .bytes | .message _ => .life)).print true}),
") ∧
    ∀ r, k.itemType = some r → Text.caseFromSlice paths k =
      t!"            {display k.case} => {(Expr.user (pathOf paths (itemName r)) .none).print false}::from_slice(slice).map(|v| v.map(Self::{Name.utf8 k.name})),
" := by
  refine ⟨fun t s e => ?_, fun t r e => ?_, fun r e => ?_, fun r e => ?_⟩
  · simp [Text.aliasDecl, e, Expr.print, Args.print, Text.value]
  · simp [Text.aliasDecl, e, Expr.print, Args.print, Text.value]
  · cases r <;> simp [Text.caseDecl, e, Expr.print, Args.print, itemName]
  · cases r <;> simp [Text.caseFromSlice, e, Expr.print, Args.print, itemName]

/-- C88: inside another type an expression is printed without `::` in front of the arguments of numbers, and
names types with all their arguments; only a path by itself may leave out the parameter of a structure. -/
theorem C88_places (items : Bytes → Option Item) (front arg : Bool) (n t : Expr) :
    (Expr.array n t).print arg = t!"bp3d_proto::message::util::Array::<&'a [u8], {n.print true}, {t.print true}>
" ∧
    (Expr.list n t).print arg = t!"bp3d_proto::message::util::List::<&'a [u8], {n.print true}, {t.print true}>
" ∧
    (Expr.unsized n t).print arg = t!"bp3d_proto::message::util::list::Unsized::<{n.print true}, {t.print true}>
" ∧
    (∀ x, (Expr.varchar n).elab items front = some x ↔ ∃ a, n.elab items false = some a ∧ x = .varchar a) ∧
    (∀ x, (Expr.array n t).elab items front = some x ↔
      ∃ a b, n.elab items false = some a ∧ t.elab items false = some b ∧ x = .array a b) ∧
    (∀ x, (Expr.list n t).elab items front = some x ↔
      ∃ a b, n.elab items false = some a ∧ t.elab items false = some b ∧ x = .list a b) ∧
    (∀ x, (Expr.unsized n t).elab items front = some x ↔
      ∃ a b, n.elab items false = some a ∧ t.elab items false = some b ∧ x = .unsized a b) ∧
    (∀ x, (Expr.optional t).elab items front = some x ↔ ∃ a, t.elab items false = some a ∧ x = .optional a) ∧
    (∀ x, (Expr.option t).elab items front = some x ↔ ∃ a, t.elab items false = some a ∧ x = .option a) ∧
    ∀ x, t.elab items false = some x → t.elab items true = some x := by
  refine ⟨rfl, rfl, rfl, ?_, ?_, ?_, ?_, ?_, ?_, ?_⟩
  iterate 6
    intro x
    simp only [Expr.elab, Option.map_eq_some_iff, Option.bind_eq_some_iff]
    constructor
    · rintro ⟨a, h, h'⟩
      first
        | exact ⟨a, h, h'.symm⟩
        | (obtain ⟨b, h1, h2⟩ := h'; exact ⟨a, b, h, h1, h2.symm⟩)
    · first
        | (rintro ⟨a, b, h1, h2, rfl⟩; exact ⟨a, h1, b, h2, rfl⟩)
        | (rintro ⟨a, h1, rfl⟩; exact ⟨a, h1, rfl⟩)
  intro x h
  cases t with
  | user p a =>
    unfold Expr.elab at h ⊢
    split at h <;> simp_all
  | _ => exact h

/-! ## The fields that are accepted -/

/-- Not every field of the message is a number. -/
def Borrows (m : Message) : Prop := ∃ f ∈ m.fields, ∀ t, f.ty ≠ .fixed t

/-- A case of the union has content. -/
def UnionBorrows (u : Union) : Prop := ∃ k ∈ u.cases, k.itemType ≠ none

/-- The types lengths are written in. -/
def Length (t : FixedTy) : Prop := t = .u8 ∨ t = .u16 ∨ t = .u32 ∨ t = .u64

/-- The type declared for the field exists. -/
def Declarable (f : MField) : Prop :=
  match f.ty with
  | .ref (.message r) => Borrows r
  | .list _ r => Borrows r
  | .union u _ _ => UnionBorrows u
  | _ => True

/-- The field has a decoder whose result is of the declared type. -/
def Decodable (B : Bytesutil) (embedded : Bool) (f : MField) : Prop :=
  match f.ty with
  | .fixed t => f.optional = false ∧ B.reads t
  | .ref (.struct _) => f.optional = false
  | .ref (.message r) => Borrows r
  | .nullTerminatedString => f.optional = false
  | .payload => f.optional = false
  | .varcharString t => f.optional = false ∧ Length t
  | .array t _ => Length t
  | .union u _ _ => f.optional = false ∧ UnionBorrows u
  | .list t r => Length t ∧ Borrows r ∧ (f.optional = true → embedded = true)

/-- The field has an encoder that takes the declared type. -/
def Encodable (B : Bytesutil) (f : MField) : Prop :=
  match f.ty with
  | .fixed t => f.optional = false ∧ B.writes t
  | .ref (.struct _) => f.optional = false
  | .ref (.message r) => Borrows r
  | .nullTerminatedString => f.optional = false
  | .payload => f.optional = false
  | .varcharString t => f.optional = false ∧ Length t
  | .array t _ => Length t
  | .union u _ _ => f.optional = false ∧ UnionBorrows u
  | .list t r => Length t ∧ Borrows r

/-! ## Hypotheses -/

/-- Paths lead to what a field refers to. -/
def Leads (c : Code) : MFieldTy → Prop
  | .ref (.struct s) => c.items (pathOf c.paths s.name) = some (.struct s)
  | .ref (.message m) => c.items (pathOf c.paths m.name) = some (.message m)
  | .array _ s => c.items (pathOf c.paths s.name) = some (.struct s)
  | .list _ m => c.items (pathOf c.paths m.name) = some (.message m)
  | .union u _ _ => c.items (pathOf c.paths u.name) = some (.union u)
  | _ => True

/-- The key of a union field is an earlier field and the structure the union reads. -/
def Keyed (before : List MField) (f : MField) : Prop :=
  ∀ u on i, f.ty = .union u on i → f.optional = false ∧
    ∃ k ∈ before, k.name = on ∧ ∃ s, k.ty = .ref (.struct s) ∧ u.discriminant.root.id = s.id

/-- What the generator relies on: paths lead to what the fields refer to, the fields have different
names, and the keys of unions come before them. -/
structure Sound (c : Code) (m : Message) : Prop where
  leads : ∀ f ∈ m.fields, Leads c f.ty
  names : (m.fields.map MField.name).Nodup
  keyed : ∀ pre f post, m.fields = pre ++ f :: post → Keyed pre f

/-! ## One field -/

theorem borrows_iff (m : Message) : messageGenerics m = b!"<'a>" ↔ Borrows m := by
  unfold messageGenerics Borrows
  split
  · next h =>
    constructor
    · intro e; exact absurd e (by decide)
    · rintro ⟨f, hf, hn⟩
      have := h f hf
      cases ht : f.ty <;> rw [ht] at this <;> first | exact absurd ht (hn _) | cases this
  · next h =>
    refine ⟨fun _ => ?_, fun _ => rfl⟩
    simp only [Classical.not_forall] at h
    obtain ⟨f, hf, hn⟩ := h
    refine ⟨f, hf, fun t e => hn ?_⟩
    rw [e]; rfl

theorem unionBorrows_iff (u : Union) : unionGenerics u = b!"<'a>" ↔ UnionBorrows u := by
  unfold unionGenerics UnionBorrows
  split
  · next h =>
    refine ⟨fun _ => ?_, fun _ => rfl⟩
    obtain ⟨k, hk, hs⟩ := h
    exact ⟨k, hk, fun e => by rw [e] at hs; cases hs⟩
  · next h =>
    constructor
    · intro e; exact absurd e (by decide)
    · rintro ⟨k, hk, hn⟩
      exact absurd ⟨k, hk, Option.isSome_iff_ne_none.2 hn⟩ h

theorem borrows_iff' (m : Message) : b!"<'a>" = messageGenerics m ↔ Borrows m :=
  eq_comm.trans (borrows_iff m)

theorem unionBorrows_iff' (u : Union) : b!"<'a>" = unionGenerics u ↔ UnionBorrows u :=
  eq_comm.trans (unionBorrows_iff u)

theorem toUsize_iff (t : FixedTy) : ToUsize (.prim t) ↔ Length t := by
  unfold Length
  constructor
  · intro h; cases h <;> simp
  · rintro (rfl | rfl | rfl | rfl) <;> constructor

theorem Length.reads (B : Bytesutil) {t : FixedTy} (h : Length t) : B.reads t ∧ B.writes t :=
  B.numbers t (by rintro rfl; simp [Length] at h)

theorem value_reads {B : Bytesutil} {e : Endian} {t : FixedTy} {o : Ty} :
    FromSlice B (.value e t) o ↔ o = .prim t ∧ B.reads t :=
  ⟨fun h => by cases h with | value h => exact ⟨rfl, h⟩, fun h => by rw [h.1]; exact .value h.2⟩

theorem value_writes {B : Bytesutil} {e : Endian} {t : FixedTy} {o : Ty} :
    WriteTo B (.value e t) o ↔ o = .prim t ∧ B.writes t :=
  ⟨fun h => by cases h with | value h => exact ⟨rfl, h⟩, fun h => by rw [h.1]; exact .value h.2⟩

/-- A length can be read. -/
theorem length_reads {B : Bytesutil} {e : Endian} {t : FixedTy} :
    (∃ o, FromSlice B (.value e t) o ∧ ToUsize o) ↔ Length t := by
  simp only [value_reads]
  constructor
  · rintro ⟨o, ⟨rfl, _⟩, h⟩; exact (toUsize_iff t).1 h
  · intro h; exact ⟨_, ⟨rfl, (h.reads B).1⟩, (toUsize_iff t).2 h⟩

/-- A length can be written. -/
theorem length_writes {B : Bytesutil} {e : Endian} {t : FixedTy} :
    (∃ o, WriteTo B (.value e t) o ∧ ToUsize o) ↔ Length t := by
  simp only [value_writes]
  constructor
  · rintro ⟨o, ⟨rfl, _⟩, h⟩; exact (toUsize_iff t).1 h
  · intro h; exact ⟨_, ⟨rfl, (h.reads B).2⟩, (toUsize_iff t).2 h⟩

/-- The declared type of a field, when it exists. -/
def plainTy (e : Endian) : MFieldTy → Ty
  | .fixed t => .prim t
  | .ref (.struct s) => .struct s.id
  | .ref (.message m) => .message m.id
  | .nullTerminatedString => .str
  | .varcharString _ => .str
  | .array t s => .array (.value e t) (.struct s.id)
  | .union u _ _ => .union u
  | .list t m => .list (.value e t) (.message m.id)
  | .payload => .bytes

def fieldTy (f : MField) : Ty :=
  if f.optional then .option (plainTy f.endian f.ty) else plainTy f.endian f.ty

theorem declared_iff {c : Code} {f : MField} (hl : Leads c f.ty) (t : Ty) :
    Declared c f t ↔ t = fieldTy f ∧ Declarable f := by
  obtain ⟨n, ty, o, sz, e⟩ := f
  unfold Declared fieldType fieldTy Declarable
  simp only [MField.ty, MField.optional, MField.endian] at *
  cases ty with
  | ref r =>
    cases r with
    | struct s =>
      simp only [Leads] at hl
      cases o <;> simp [plainType, plainTy, Expr.elab, hl, eq_comm]
    | message m =>
      simp only [Leads] at hl
      by_cases hb : Borrows m <;>
        cases o <;> simp [plainType, plainTy, Expr.elab, hl, eq_comm, borrows_iff, borrows_iff', hb]
  | union u on i =>
    simp only [Leads] at hl
    by_cases hb : UnionBorrows u <;>
      cases o <;> simp [plainType, plainTy, Expr.elab, hl, eq_comm, unionBorrows_iff, unionBorrows_iff', hb]
  | list l m =>
    simp only [Leads] at hl
    by_cases hb : Borrows m <;>
      cases o <;> simp [plainType, plainTy, Expr.elab, hl, eq_comm, borrows_iff, borrows_iff', hb]
  | array l s =>
    simp only [Leads] at hl
    cases o <;> simp [plainType, plainTy, Expr.elab, hl, eq_comm]
  | _ => cases o <;> simp [plainType, plainTy, Expr.elab, eq_comm]

/-- The codec of a field, before `Optional`. -/
def plainCodecTy (list : Ty → Ty → Ty) (e : Endian) : MFieldTy → Ty
  | .fixed t => .value e t
  | .ref (.struct s) => .struct s.id
  | .ref (.message m) => .message m.id
  | .nullTerminatedString => .nullTerminated
  | .varcharString t => .varchar (.value e t)
  | .array t s => .array (.value e t) (.struct s.id)
  | .union u _ _ => .union u
  | .list t m => list (.value e t) (.message m.id)
  | .payload => .buffer

/-- The list codecs of expressions and types correspond. -/
def Corresponds (c : Code) (x : Expr → Expr → Expr) (y : Ty → Ty → Ty) : Prop :=
  ∀ front n t, (x n t).elab c.items front =
    (n.elab c.items false).bind fun n => (t.elab c.items false).map (y n)

theorem corresponds_list (c : Code) : Corresponds c .list .list := fun _ _ _ => rfl

theorem corresponds_unsized (c : Code) : Corresponds c .unsized .unsized := fun _ _ _ => rfl

theorem codec_elab {c : Code} {x : Expr → Expr → Expr} {y : Ty → Ty → Ty} (hx : Corresponds c x y)
    {f : MField} (hl : Leads c f.ty) (k : Ty) :
    (codec c.paths x f).elab c.items true = some k ↔
      (if f.optional then k = .optional (plainCodecTy y f.endian f.ty) ∧ ∀ s, f.ty ≠ .ref (.struct s)
      else k = plainCodecTy y f.endian f.ty) := by
  obtain ⟨n, ty, o, sz, e⟩ := f
  unfold codec
  simp only [MField.ty, MField.optional, MField.endian] at *
  cases ty with
  | ref r =>
    cases r with
    | struct s =>
      simp only [Leads] at hl
      cases o <;> simp [plainCodec, plainCodecTy, Expr.elab, hl, eq_comm]
    | message m =>
      simp only [Leads] at hl
      cases o <;> simp [plainCodec, plainCodecTy, Expr.elab, hl, eq_comm]
  | union u on i =>
    simp only [Leads] at hl
    cases o <;> simp [plainCodec, plainCodecTy, Expr.elab, hl, eq_comm]
  | list l m =>
    simp only [Leads] at hl
    cases o <;> simp [plainCodec, plainCodecTy, hx true, hx false, Expr.elab, hl, eq_comm]
  | array l s =>
    simp only [Leads] at hl
    cases o <;> simp [plainCodec, plainCodecTy, Expr.elab, hl, eq_comm]
  | _ => cases o <;> simp [plainCodec, plainCodecTy, Expr.elab, eq_comm]

/-- The codec of lists as a type. -/
def listTy (embedded : Bool) : Ty → Ty → Ty := if embedded then .list else .unsized

theorem corresponds_listCodec (c : Code) (emb : Bool) : Corresponds c (listCodec emb) (listTy emb) := by
  cases emb
  · exact corresponds_unsized c
  · exact corresponds_list c

theorem reads_iff {c : Code} {emb : Bool} {f : MField} (hl : Leads c f.ty)
    (hu : ∀ u on i, f.ty ≠ .union u on i) :
    (∃ k t, (codec c.paths (listCodec emb) f).elab c.items true = some k ∧ FromSlice c.lib k t ∧
      Declared c f t) ↔ Decodable c.lib emb f := by
  simp only [codec_elab (corresponds_listCodec c emb) hl, declared_iff hl]
  obtain ⟨n, ty, o, sz, e⟩ := f
  unfold fieldTy Decodable Declarable
  simp only [MField.ty, MField.optional, MField.endian] at *
  constructor
  · rintro ⟨k, t, hk, hf, ht, hd⟩
    cases o
    · simp only [Bool.false_eq_true, if_false] at hk ht
      subst hk ht
      cases ty with
      | union u on i => exact absurd rfl (hu u on i)
      | ref r => cases r <;> simp_all [plainCodecTy, plainTy]
      | fixed t => cases hf with | value h => exact ⟨rfl, h⟩
      | varcharString t => cases hf with | varchar h1 h2 => exact ⟨rfl, length_reads.1 ⟨_, h1, h2⟩⟩
      | array t s => cases hf with | array h1 h2 h3 h4 => exact length_reads.1 ⟨_, h1, h2⟩
      | list t m =>
        refine ⟨?_, hd, fun h => nomatch h⟩
        cases emb
        · simp only [plainCodecTy, listTy, plainTy, Bool.false_eq_true, if_false] at hf
          cases hf with | unsized h1 h2 => exact length_reads.1 ⟨_, h1, h2⟩
        · simp only [plainCodecTy, listTy, plainTy, if_true] at hf
          cases hf with | list h1 h2 h3 => exact length_reads.1 ⟨_, h1, h2⟩
      | _ => rfl
    · simp only [if_true] at hk ht
      obtain ⟨hk, hs⟩ := hk
      subst hk ht
      generalize ho : Ty.option (plainTy e ty) = r at hf
      cases hf with
      | optional hf =>
        rw [Ty.option.injEq] at ho
        cases ty with
        | union u on i => exact absurd rfl (hu u on i)
        | ref r => cases r with
          | struct s => exact absurd rfl (hs s)
          | message m => exact hd
        | array t s => cases hf with | array h1 h2 h3 h4 => exact length_reads.1 ⟨_, h1, h2⟩
        | list t m =>
          cases emb
          · simp [plainCodecTy, listTy, plainTy] at ho
          · simp only [plainCodecTy, listTy, if_true] at hf
            cases hf with | list h1 h2 h3 => exact ⟨length_reads.1 ⟨_, h1, h2⟩, hd, fun _ => rfl⟩
        | _ => cases ho
  · intro h
    cases ty with
    | union u on i => exact absurd rfl (hu u on i)
    | ref r =>
      cases r with
      | struct s => subst h; exact ⟨_, _, rfl, .struct, rfl, trivial⟩
      | message m =>
        cases o
        · exact ⟨_, _, rfl, .message, rfl, h⟩
        · exact ⟨_, _, ⟨rfl, by simp⟩, .optional .message, rfl, h⟩
    | fixed t => obtain ⟨rfl, h⟩ := h; exact ⟨_, _, rfl, .value h, rfl, trivial⟩
    | nullTerminatedString => subst h; exact ⟨_, _, rfl, .nullTerminated, rfl, trivial⟩
    | payload => subst h; exact ⟨_, _, rfl, .buffer, rfl, trivial⟩
    | varcharString t =>
      obtain ⟨rfl, h⟩ := h
      obtain ⟨_, h1, h2⟩ := length_reads.2 h
      exact ⟨_, _, rfl, .varchar h1 h2, rfl, trivial⟩
    | array t s =>
      obtain ⟨_, h1, h2⟩ := length_reads.2 h
      cases o
      · exact ⟨_, _, rfl, .array h1 h2 .struct .struct, rfl, trivial⟩
      · exact ⟨_, _, ⟨rfl, by simp⟩, .optional (.array h1 h2 .struct .struct), rfl, trivial⟩
    | list t m =>
      obtain ⟨h, hb, ho⟩ := h
      obtain ⟨_, h1, h2⟩ := length_reads.2 h
      cases o
      · cases emb
        · exact ⟨_, _, rfl, .unsized h1 h2, rfl, hb⟩
        · exact ⟨_, _, rfl, .list h1 h2 .message, rfl, hb⟩
      · cases ho rfl
        exact ⟨_, _, ⟨rfl, by simp⟩, .optional (.list h1 h2 .message), rfl, hb⟩

theorem writes_iff {c : Code} {f : MField} (hl : Leads c f.ty) (hu : ∀ u on i, f.ty ≠ .union u on i) :
    (∃ k t, (codec c.paths .list f).elab c.items true = some k ∧ Declared c f t ∧
      ∃ i, WriteTo c.lib k i ∧ Coerces t i) ↔ Encodable c.lib f := by
  simp only [codec_elab (corresponds_list c) hl, declared_iff hl]
  obtain ⟨n, ty, o, sz, e⟩ := f
  unfold fieldTy Encodable Declarable
  simp only [MField.ty, MField.optional, MField.endian] at *
  constructor
  · rintro ⟨k, t, hk, ⟨ht, hd⟩, i, hw, hc⟩
    cases o
    · simp only [Bool.false_eq_true, if_false] at hk ht
      subst hk ht
      cases ty with
      | union u on i => exact absurd rfl (hu u on i)
      | ref r => cases r <;> simp_all [plainCodecTy, plainTy]
      | fixed t => cases hw with | value h => exact ⟨rfl, h⟩
      | varcharString t => cases hw with | varchar h1 h2 => exact ⟨rfl, length_writes.1 ⟨_, h1, h2⟩⟩
      | array t s => cases hw with | array h1 h2 => exact length_writes.1 ⟨_, h1, h2⟩
      | list t m => cases hw with | list h1 h2 => exact ⟨length_writes.1 ⟨_, h1, h2⟩, hd⟩
      | _ => rfl
    · simp only [if_true] at hk ht
      obtain ⟨hk, hs⟩ := hk
      subst hk ht
      cases hw with
      | optional hw =>
        have ho : plainTy e ty = plainCodecTy .list e ty := by
          revert hc
          generalize plainTy e ty = x, plainCodecTy .list e ty = y
          intro hc
          cases hc
          rfl
        cases ty with
        | union u on i => exact absurd rfl (hu u on i)
        | ref r => cases r with
          | struct s => exact absurd rfl (hs s)
          | message m => exact hd
        | array t s => cases hw with | array h1 h2 => exact length_writes.1 ⟨_, h1, h2⟩
        | list t m => cases hw with | list h1 h2 => exact ⟨length_writes.1 ⟨_, h1, h2⟩, hd⟩
        | _ => cases ho
  · intro h
    cases ty with
    | union u on i => exact absurd rfl (hu u on i)
    | ref r =>
      cases r with
      | struct s => subst h; exact ⟨_, _, rfl, ⟨rfl, trivial⟩, _, .struct, .same⟩
      | message m =>
        cases o
        · exact ⟨_, _, rfl, ⟨rfl, h⟩, _, .message, .same⟩
        · exact ⟨_, _, ⟨rfl, by simp⟩, ⟨rfl, h⟩, _, .optional .message, .same⟩
    | fixed t => obtain ⟨rfl, h⟩ := h; exact ⟨_, _, rfl, ⟨rfl, trivial⟩, _, .value h, .same⟩
    | nullTerminatedString => subst h; exact ⟨_, _, rfl, ⟨rfl, trivial⟩, _, .nullTerminated, .str⟩
    | payload => subst h; exact ⟨_, _, rfl, ⟨rfl, trivial⟩, _, .buffer, .bytes⟩
    | varcharString t =>
      obtain ⟨rfl, h⟩ := h
      obtain ⟨_, h1, h2⟩ := length_writes.2 h
      exact ⟨_, _, rfl, ⟨rfl, trivial⟩, _, .varchar h1 h2, .str⟩
    | array t s =>
      obtain ⟨_, h1, h2⟩ := length_writes.2 h
      cases o
      · exact ⟨_, _, rfl, ⟨rfl, trivial⟩, _, .array h1 h2, .same⟩
      · exact ⟨_, _, ⟨rfl, by simp⟩, ⟨rfl, trivial⟩, _, .optional (.array h1 h2), .same⟩
    | list t m =>
      obtain ⟨h, hb⟩ := h
      obtain ⟨_, h1, h2⟩ := length_writes.2 h
      cases o
      · exact ⟨_, _, rfl, ⟨rfl, hb⟩, _, .list h1 h2, .same⟩
      · exact ⟨_, _, ⟨rfl, by simp⟩, ⟨rfl, hb⟩, _, .optional (.list h1 h2), .same⟩

/-! ## The steps of a decoder -/

theorem Steps.lookup_ne {c : Code} {l : Expr → Expr → Expr} {vars vars' : List (Name × Ty)}
    {fs : List MField} (h : Steps c l vars fs vars') {n : Name} (hn : n ∉ fs.map MField.name) :
    local? vars' n = local? vars n := by
  induction h with
  | nil => rfl
  | cons hs _ ih =>
    simp only [List.map_cons, List.mem_cons, not_or] at hn
    rw [ih hn.2]
    simp [local?, List.lookup_cons, beq_false_of_ne hn.1]

theorem Steps.each {c : Code} {l : Expr → Expr → Expr} {vars vars' : List (Name × Ty)}
    {fs : List MField} (h : Steps c l vars fs vars') (hn : (fs.map MField.name).Nodup) :
    ∀ f ∈ fs, ∃ vs t, Step c l vs f t ∧ local? vars' f.name = some t := by
  induction h with
  | nil => intro f hf; cases hf
  | cons hs ht ih =>
    rw [List.map_cons, List.nodup_cons] at hn
    intro f hf
    rcases List.mem_cons.1 hf with rfl | hf
    · exact ⟨_, _, hs, by rw [ht.lookup_ne hn.1]; simp [local?]⟩
    · exact ih hn.2 f hf

/-- The variables after some fields. -/
def varsOf (fs : List MField) : List (Name × Ty) := (fs.map fun f => (f.name, fieldTy f)).reverse

theorem varsOf_snoc (fs : List MField) (f : MField) : varsOf (fs ++ [f]) = (f.name, fieldTy f) :: varsOf fs := by
  simp [varsOf]

theorem lookup_of_mem {l : List (Name × Ty)} (hn : (l.map Prod.fst).Nodup) {n : Name} {t : Ty}
    (h : (n, t) ∈ l) : l.lookup n = some t := by
  induction l with
  | nil => cases h
  | cons x xs ih =>
    obtain ⟨a, b⟩ := x
    rw [List.map_cons, List.nodup_cons] at hn
    rcases List.mem_cons.1 h with e | h
    · cases e
      exact List.lookup_cons_self
    · have : n ≠ a := fun e => hn.1 (List.mem_map.2 ⟨_, h, e⟩)
      simp only [List.lookup, beq_false_of_ne this, ih hn.2 h]

theorem lookup_varsOf {fs : List MField} (hn : (fs.map MField.name).Nodup) {f : MField} (hf : f ∈ fs) :
    local? (varsOf fs) f.name = some (fieldTy f) := by
  refine lookup_of_mem ?_ ?_
  · unfold varsOf
    rw [List.map_reverse, List.map_map]
    exact (List.reverse_perm _).nodup_iff.2 hn
  · simp only [varsOf, List.mem_reverse]
    exact List.mem_map_of_mem (f := fun f => (f.name, fieldTy f)) hf

theorem steps_varsOf {c : Code} {l : Expr → Expr → Expr} {all : List MField}
    (h : ∀ pre f post, all = pre ++ f :: post → Step c l (varsOf pre) f (fieldTy f)) :
    ∀ pre post, all = pre ++ post → Steps c l (varsOf pre) post (varsOf all) := by
  intro pre post
  induction post generalizing pre with
  | nil => intro e; rw [e, List.append_nil]; exact .nil
  | cons f post ih =>
    intro e
    refine .cons (h pre f post e) ?_
    rw [← varsOf_snoc]
    exact ih (pre ++ [f]) (by rw [e, List.append_assoc]; rfl)

/-! ## C88 -/

/-- C88: the declaration of a message is accepted exactly when every message it refers to has a field
that is not a number, and every union a case with content. -/
theorem C88_declaration {c : Code} {m : Message} (h : Sound c m) :
    DeclOk c m ↔ ∀ f ∈ m.fields, Declarable f := by
  unfold DeclOk
  refine forall₂_congr fun f hf => ?_
  simp only [declared_iff (h.leads f hf)]
  constructor
  · rintro ⟨_, ⟨_, h⟩, _⟩; exact h
  · refine fun h => ⟨_, ⟨rfl, h⟩, ?_⟩
    unfold fieldTy
    have : Plain (plainTy f.endian f.ty) := by
      cases f.ty with
      | ref r => cases r <;> constructor
      | array => exact .array .value .struct
      | list => exact .list .value .message
      | _ => constructor
    split
    · exact .option this
    · exact this

/-- C88: the decoder of a message is accepted exactly when every field is `Decodable`. -/
theorem C88_decoder {c : Code} {m : Message} (h : Sound c m) :
    DecoderOk c m ↔ ∀ f ∈ m.fields, Decodable c.lib (c.embedded m.id) f := by
  constructor
  · rintro ⟨vars, hs, hd⟩ f hf
    obtain ⟨vs, t, hstep, hlk⟩ := hs.each h.names f hf
    obtain ⟨t', hlk', hdecl⟩ := hd f hf
    obtain rfl : t = t' := Option.some.inj (hlk.symm.trans hlk')
    have hl := h.leads f hf
    cases hstep with
    | plain hu hc hfs => exact (reads_iff hl hu).1 ⟨_, _, hc, hfs, hdecl⟩
    | union hu hc hk =>
      obtain ⟨pre, post, e⟩ := List.append_of_mem hf
      have ho := (h.keyed pre f post e _ _ _ hu).1
      have := ((declared_iff hl _).1 hdecl).2
      unfold Declarable at this
      unfold Decodable
      rw [hu] at this ⊢
      exact ⟨ho, this⟩
  · intro hd
    have hT : ∀ f ∈ m.fields, Declared c f (fieldTy f) := by
      intro f hf
      refine (declared_iff (h.leads f hf) _).2 ⟨rfl, ?_⟩
      have := hd f hf
      unfold Decodable at this
      unfold Declarable
      split at this <;> simp_all
    refine ⟨varsOf m.fields, steps_varsOf (fun pre f post e => ?_) [] m.fields rfl, fun f hf =>
      ⟨_, lookup_varsOf h.names hf, hT f hf⟩⟩
    have hf : f ∈ m.fields := by rw [e]; simp
    have hl := h.leads f hf
    by_cases hu : ∃ u on i, f.ty = .union u on i
    · obtain ⟨u, on, i, hu⟩ := hu
      obtain ⟨ho, k, hk, rfl, s, hks, hid⟩ := h.keyed pre f post e _ _ _ hu
      have hkm : k ∈ m.fields := by rw [e]; exact List.mem_append_left _ hk
      have hko : k.optional = false := by
        have := hd k hkm
        unfold Decodable at this
        rw [hks] at this
        exact this
      have ht : fieldTy f = .union u := by simp [fieldTy, ho, hu, plainTy]
      rw [ht]
      refine .union hu ?_ ?_
      · rw [codec_elab (corresponds_listCodec c _) hl]
        simp [ho, hu, plainCodecTy]
      · rw [lookup_varsOf (by
          have := h.names
          rw [e, List.map_append, List.nodup_append] at this
          exact this.1) hk]
        simp [fieldTy, hko, hks, plainTy, hid]
    · have hu' : ∀ u on i, f.ty ≠ .union u on i := fun u on i hh => hu ⟨u, on, i, hh⟩
      obtain ⟨k, t, hc, hfs, hdecl⟩ := (reads_iff (emb := c.embedded m.id) hl hu').2 (hd f hf)
      obtain rfl := ((declared_iff hl _).1 hdecl).1
      exact .plain hu' hc hfs

/-- C88: the encoder of a message is accepted exactly when every field is `Encodable`. -/
theorem C88_encoder {c : Code} {m : Message} (h : Sound c m) :
    EncoderOk c m ↔ ∀ f ∈ m.fields, Encodable c.lib f := by
  constructor
  · intro he f hf
    obtain ⟨k, t, hc, hdecl, hw⟩ := he f hf
    have hl := h.leads f hf
    by_cases hu : ∃ u on i, f.ty = .union u on i
    · obtain ⟨u, on, i, hu⟩ := hu
      obtain ⟨pre, post, e⟩ := List.append_of_mem hf
      have ho := (h.keyed pre f post e _ _ _ hu).1
      have := ((declared_iff hl _).1 hdecl).2
      unfold Declarable at this
      unfold Encodable
      rw [hu] at this ⊢
      exact ⟨ho, this⟩
    · have hu' : ∀ u on i, f.ty ≠ .union u on i := fun u on i hh => hu ⟨u, on, i, hh⟩
      refine (writes_iff hl hu').1 ⟨k, t, hc, hdecl, ?_⟩
      split at hw
      · next hh => exact absurd hh (hu' _ _ _)
      · exact hw
  · intro hd f hf
    have hl := h.leads f hf
    have hT : ∀ f ∈ m.fields, Declared c f (fieldTy f) := by
      intro f hf
      refine (declared_iff (h.leads f hf) _).2 ⟨rfl, ?_⟩
      have := hd f hf
      unfold Encodable at this
      unfold Declarable
      split at this <;> simp_all
    by_cases hu : ∃ u on i, f.ty = .union u on i
    · obtain ⟨u, on, i, hu⟩ := hu
      obtain ⟨pre, post, e⟩ := List.append_of_mem hf
      obtain ⟨ho, k, hk, rfl, s, hks, hid⟩ := h.keyed pre f post e _ _ _ hu
      have hkm : k ∈ m.fields := by rw [e]; exact List.mem_append_left _ hk
      have hko : k.optional = false := by
        have := hd k hkm
        unfold Encodable at this
        rw [hks] at this
        exact this
      have ht : fieldTy f = .union u := by simp [fieldTy, ho, hu, plainTy]
      refine ⟨.union u, fieldTy f, ?_, hT f hf, ?_⟩
      · rw [codec_elab (corresponds_list c) hl]
        simp [ho, hu, plainCodecTy]
      · rw [hu]
        refine ⟨u, rfl, ht, k, hkm, rfl, ?_⟩
        have := hT k hkm
        simpa [fieldTy, hko, hks, plainTy, hid] using this
    · have hu' : ∀ u on i, f.ty ≠ .union u on i := fun u on i hh => hu ⟨u, on, i, hh⟩
      obtain ⟨k, t, hc, hdecl, hw⟩ := (writes_iff hl hu').2 (hd f hf)
      refine ⟨k, t, hc, hdecl, ?_⟩
      split
      · next hh => exact absurd hh (hu' _ _ _)
      · exact hw

/-- C88: the decoder with offsets is accepted exactly when the decoder is. -/
theorem C88_offsets {c : Code} {m : Message} (h : Sound c m) : OffsetsOk c m ↔ DecoderOk c m := by
  refine ⟨fun h => h.1, fun hd => ⟨hd, fun f hf r hr => ?_⟩⟩
  have hl := h.leads f hf
  have he := fun k => codec_elab (corresponds_listCodec c (c.embedded m.id)) (f := f) hl k
  cases ho : f.optional with
  | false => exact ⟨_, (he _).2 (by rw [ho, hr]; rfl), .message⟩
  | true =>
    exact ⟨_, (he _).2 (by rw [ho, hr]; exact ⟨rfl, by simp⟩), .optional .message .message⟩

/-- C88: the names declared for arrays and lists are accepted exactly when no array is of a structure
under a longer path and every message in a list has a field that is not a number. -/
theorem C88_aliases {c : Code} {m : Message} (h : Sound c m) :
    AliasesOk c m ↔ ∀ f ∈ m.fields,
      (∀ t s, f.ty = .array t s → ¬ b!"::" <:+: pathOf c.paths s.name) ∧
      ∀ t r, f.ty = .list t r → Borrows r := by
  unfold AliasesOk
  refine forall₂_congr fun f hf => ?_
  have hl := h.leads f hf
  split
  · next t s ht =>
    rw [ht] at hl
    simp only [Leads] at hl
    simp [Expr.elab, hl, ht]
  · next t r ht =>
    rw [ht] at hl
    simp only [Leads] at hl
    simp [Expr.elab, hl, ht, ← borrows_iff]
  · next h1 h2 => simp only [true_iff]; exact ⟨fun t s e => absurd e (h1 t s), fun t r e => absurd e (h2 t r)⟩

/-- C88: the code of a union is accepted exactly when every message among its cases has a field that is
not a number. -/
theorem C88_union {c : Code} {u : Union}
    (h : ∀ k ∈ u.cases, ∀ r, k.itemType = some r → Leads c (.ref r)) :
    UnionOk c u ↔ ∀ k ∈ u.cases, ∀ r, k.itemType = some (.message r) → Borrows r := by
  unfold UnionOk
  refine forall₂_congr fun k hk => ?_
  constructor
  · intro hu r hr
    obtain ⟨t, ht, _⟩ := hu _ hr
    have hl := h k hk _ hr
    simp only [Leads] at hl
    simp only [Expr.elab, itemName, hl] at ht
    split at ht
    · next e => exact (borrows_iff r).1 e
    · cases ht
  · intro hb r hr
    have hl := h k hk _ hr
    cases r with
    | struct s =>
      simp only [Leads] at hl
      exact ⟨.struct s.id, by simp [Expr.elab, itemName, hl], .struct, .struct s.id,
        by simp [Expr.elab, itemName, hl], .struct, .struct⟩
    | message r =>
      simp only [Leads] at hl
      exact ⟨.message r.id, by simp [Expr.elab, itemName, hl, (borrows_iff r).2 (hb r hr)], .message,
        .message r.id, by simp [Expr.elab, itemName, hl], .message, .message⟩

/-! ## Compiled protocols -/

/-- Paths in the generated code lead to what the compiler found under the names. -/
structure Names (c : Code) (proto : Protocol) : Prop where
  paths : c.paths = proto.typePathByName
  structs : ∀ x ∈ proto.structsByName, c.items (pathOf proto.typePathByName x.2.name) = some (.struct x.2)
  messages : ∀ x ∈ proto.messagesByName,
    c.items (pathOf proto.typePathByName x.2.name) = some (.message x.2)
  unions : ∀ x ∈ proto.unionsByName, c.items (pathOf proto.typePathByName x.2.name) = some (.union x.2)

/-- A program whose names are those of the code. -/
def Code.globals (c : Code) : Globals :=
  { c := ⟨.checked, c.embedded⟩, items := c.items, name := [], fields := [], offsets := [], cases := [] }

theorem Names.links {c : Code} {proto : Protocol} (h : Names c proto) : Links c.globals proto :=
  ⟨h.structs, h.messages, h.unions⟩

theorem leads_of {c : Code} {t : MFieldTy} (h : Resolves c.globals c.paths t) : Leads c t := by
  cases t with
  | ref r => cases r <;> exact h
  | _ => exact h

/-- A field of a compiled message is accepted by the Rust compiler, in every part of the code. -/
structure Accepted (c : Code) (embedded : Bool) (f : MField) : Prop where
  optional : f.optional = true → (∃ r, f.ty = .ref (.message r)) ∨ (∃ t s, f.ty = .array t s) ∨
    ((∃ t r, f.ty = .list t r) ∧ embedded = true)
  message : ∀ r, f.ty = .ref (.message r) → Borrows r
  list : ∀ t r, f.ty = .list t r → Borrows r
  union : ∀ u on i, f.ty = .union u on i → UnionBorrows u
  array : ∀ t s, f.ty = .array t s → ¬ b!"::" <:+: pathOf c.paths s.name
  bool : f.ty = .fixed .bool → c.lib.reads .bool ∧ c.lib.writes .bool

theorem fromMaxValue_length {n : Nat} {t : FixedTy} (h : FixedTy.fromMaxValue n = .ok t) : Length t := by
  unfold FixedTy.fromMaxValue at h
  unfold Length
  repeat' split at h
  all_goals (cases h; simp)

section
variable {p : Profile} {solver : Resolver} {w w' : World} {v : Model.Protocol} {proto : Protocol}
  (h : Protocol.fromModel p solver w v = .ok (proto, w')) {c : Code} {m : Message} (hm : m ∈ proto.messages)
include h hm

/-- Lengths are unsigned and unions never optional. -/
theorem compiled_lengths : ∀ f ∈ m.fields, (∀ t s, f.ty = .array t s → Length t) ∧
    (∀ t r, f.ty = .list t r → Length t) ∧ (∀ t, f.ty = .varcharString t → Length t) := by
  intro f hf
  obtain ⟨ms, msgs, -, hfs⟩ := (compiled_parts h).1 m hm
  obtain ⟨pre, post, e⟩ := List.append_of_mem hf
  obtain ⟨fv, -, -, hf⟩ := hfs pre f post e
  split at hf
  · rcases hf with ⟨_, ⟨s, ty, _, _, ht, _⟩ | ⟨s, _, _, ht, _⟩ | ⟨_, m, _, ht, _⟩⟩ <;> simp [ht]
  · rcases hf with ⟨_, ty, hl, ⟨s, _, ht, _⟩ | ⟨_, m, _, ht, _⟩⟩ <;>
      simp [ht, fromMaxValue_length hl]
  · obtain ⟨_, ht, _⟩ := hf; simp [ht]
  · obtain ⟨_, ty, hl, ht, _⟩ := hf; simp [ht, fromMaxValue_length hl]
  · obtain ⟨_, u', i', k, s, _, _, _, _, _, ht, _⟩ := hf; simp [ht]
  · obtain ⟨_, ht, _⟩ := hf; simp [ht]

/-- Compiled messages meet the hypotheses, when their fields have different names. -/
theorem compiled_sound (hn : Names c proto) (hd : (m.fields.map MField.name).Nodup) : Sound c m where
  leads f hf := leads_of (by
    rw [hn.paths]
    exact (compiled_resolves h hn.links).1 m hm f hf)
  names := hd
  keyed pre f post e u on i hu := by
    obtain ⟨ms, msgs, -, hfs⟩ := (compiled_parts h).1 m hm
    obtain ⟨fv, -, -, hf⟩ := hfs pre f post e
    split at hf
    · rcases hf with ⟨_, ⟨s, ty, _, _, ht, _⟩ | ⟨s, _, _, ht, _⟩ | ⟨_, m, _, ht, _⟩⟩ <;> rw [hu] at ht <;>
        cases ht
    · rcases hf with ⟨_, ty, _, ⟨s, _, ht, _⟩ | ⟨_, m, _, ht, _⟩⟩ <;> rw [hu] at ht <;> cases ht
    · obtain ⟨_, ht, _⟩ := hf; rw [hu] at ht; cases ht
    · obtain ⟨_, ty, _, ht, _⟩ := hf; rw [hu] at ht; cases ht
    · obtain ⟨ho, u', i', k, s, _, hi, hk', hs, hid, ht, _⟩ := hf
      rw [hu] at ht
      cases ht
      obtain ⟨hlt, hname, -⟩ := List.findIdx?_eq_some_iff_getElem.1 hi
      rw [List.getElem?_eq_getElem hlt] at hk'
      have hk'' : pre[i] = k := Option.some.inj hk'
      rw [hk''] at hname
      exact ⟨ho, k, hk'' ▸ List.getElem_mem hlt, beq_iff_eq.1 hname, s, hs, hid⟩
    · obtain ⟨_, ht, _⟩ := hf; rw [hu] at ht; cases ht

/-- C88: of the messages of a compiled protocol whose fields have different names, exactly those get code
the Rust compiler resolves whose fields are all `Accepted`. -/
theorem C88_compiled (hn : Names c proto) (hd : (m.fields.map MField.name).Nodup) :
    (DeclOk c m ∧ DecoderOk c m ∧ EncoderOk c m ∧ OffsetsOk c m ∧ AliasesOk c m) ↔
      ∀ f ∈ m.fields, Accepted c (c.embedded m.id) f := by
  have hs := compiled_sound h hm hn hd
  rw [C88_offsets hs, C88_declaration hs, C88_decoder hs, C88_encoder hs, C88_aliases hs]
  have hlen := compiled_lengths h hm
  have hunion : ∀ f ∈ m.fields, ∀ u on i, f.ty = .union u on i → f.optional = false := by
    intro f hf u on i hu
    obtain ⟨pre, post, e⟩ := List.append_of_mem hf
    exact (hs.keyed pre f post e _ _ _ hu).1
  constructor
  · rintro ⟨h1, h2, h3, -, h4⟩ f hf
    have h1 := h1 f hf
    have h2 := h2 f hf
    have h3 := h3 f hf
    obtain ⟨h4, h5⟩ := h4 f hf
    unfold Declarable at h1
    unfold Decodable at h2
    unfold Encodable at h3
    refine ⟨fun ho => ?_, fun r e => ?_, h5, fun u on i e => ?_, h4, fun e => ?_⟩
    · split at h2 <;> first
        | (next e => exact .inl ⟨_, e⟩)
        | (next e => exact .inr (.inl ⟨_, _, e⟩))
        | (next e => exact .inr (.inr ⟨⟨_, _, e⟩, h2.2.2 ho⟩))
        | (rw [ho] at h2; simp at h2)
    · rw [e] at h1; exact h1
    · rw [e] at h1; exact h1
    · rw [e] at h2 h3; exact ⟨h2.2, h3.2⟩
  · intro ha
    have opt : ∀ f ∈ m.fields, (∀ r, f.ty ≠ .ref (.message r)) → (∀ t s, f.ty ≠ .array t s) →
        (∀ t r, f.ty ≠ .list t r) → f.optional = false := by
      intro f hf a b c
      cases ho : f.optional with
      | false => rfl
      | true =>
        rcases (ha f hf).optional ho with ⟨r, e⟩ | ⟨t, s, e⟩ | ⟨⟨t, r, e⟩, -⟩
        · exact absurd e (a r)
        · exact absurd e (b t s)
        · exact absurd e (c t r)
    have dec : ∀ f ∈ m.fields, Decodable c.lib (c.embedded m.id) f := by
      intro f hf
      have a := ha f hf
      obtain ⟨l1, l2, l3⟩ := hlen f hf
      unfold Decodable
      split
      · next t e =>
        refine ⟨opt f hf (by simp [e]) (by simp [e]) (by simp [e]), ?_⟩
        by_cases hb : t = .bool
        · subst hb; exact (a.bool e).1
        · exact (c.lib.numbers t hb).1
      · next e => exact opt f hf (by simp [e]) (by simp [e]) (by simp [e])
      · next e => exact a.message _ e
      · next e => exact opt f hf (by simp [e]) (by simp [e]) (by simp [e])
      · next e => exact opt f hf (by simp [e]) (by simp [e]) (by simp [e])
      · next e => exact ⟨opt f hf (by simp [e]) (by simp [e]) (by simp [e]), l3 _ e⟩
      · next e => exact l1 _ _ e
      · next e => exact ⟨hunion f hf _ _ _ e, a.union _ _ _ e⟩
      · next e =>
        refine ⟨l2 _ _ e, a.list _ _ e, fun ho => ?_⟩
        rcases a.optional ho with ⟨r, e'⟩ | ⟨t, s, e'⟩ | ⟨-, h⟩
        · rw [e] at e'; cases e'
        · rw [e] at e'; cases e'
        · exact h
    have enc : ∀ f ∈ m.fields, Encodable c.lib f := by
      intro f hf
      have a := ha f hf
      have d := dec f hf
      unfold Decodable at d
      unfold Encodable
      split at d
      · next t e =>
        refine ⟨d.1, ?_⟩
        by_cases hb : t = .bool
        · subst hb; exact (a.bool e).2
        · exact (c.lib.numbers t hb).2
      · exact d
      · exact d
      · exact d
      · exact d
      · exact d
      · exact d
      · exact d
      · exact ⟨d.1, d.2.1⟩
    refine ⟨fun f hf => ?_, dec, enc, dec, fun f hf => ⟨(ha f hf).array, (ha f hf).list⟩⟩
    have a := ha f hf
    unfold Declarable
    split
    · next e => exact a.message _ e
    · next e => exact a.list _ _ e
    · next e => exact a.union _ _ _ e
    · trivial

end

/-- C88: the code of a compiled union is accepted exactly when every message among its cases has a field
that is not a number. -/
theorem C88_compiled_union {p : Profile} {solver : Resolver} {w w' : World} {v : Model.Protocol}
    {proto : Protocol} (h : Protocol.fromModel p solver w v = .ok (proto, w')) {c : Code} {u : Union}
    (hu : u ∈ proto.unions) (hn : Names c proto) :
    UnionOk c u ↔ ∀ k ∈ u.cases, ∀ r, k.itemType = some (.message r) → Borrows r := by
  refine C88_union fun k hk r hr => ?_
  have := (compiled_resolves h hn.links).2 u hu k hk
  unfold ResolvesCase at this
  rw [hr] at this
  cases r <;> simpa [Leads, hn.paths, Code.globals] using this

/-- The whole C88: every message of a compiled protocol whose fields have different names gets a decoder
the Rust compiler resolves. -/
def C88_full : Prop :=
  ∀ (p : Profile) (solver : Resolver) (w w' : World) (v : Model.Protocol) (proto : Protocol),
    Protocol.fromModel p solver w v = .ok (proto, w') → ∀ (c : Code), Names c proto →
    ∀ m ∈ proto.messages, (m.fields.map MField.name).Nodup → DecoderOk c m

/-! ## Concrete cases -/

namespace Ex

/-- A message with an optional string, and one that refers to a message of numbers. -/
def model : Model.Protocol :=
  { name := "p".toList
    structs := [⟨"N".toList, [⟨"n".toList, .unsigned 8, none, none⟩]⟩]
    messages := [
      ⟨"Maybe".toList, [⟨"name".toList, .string none, some true⟩]⟩,
      ⟨"Numbers".toList, [⟨"n".toList, .item "N".toList, none⟩]⟩,
      ⟨"Outer".toList, [⟨"inner".toList, .item "Numbers".toList, none⟩]⟩] }

def proto : Protocol :=
  match Protocol.fromModel .checked Resolver.none ⟨0, []⟩ model with
  | .ok (proto, _) => proto
  | _ => Protocol.empty model

theorem compiled : ∃ w', Protocol.fromModel .checked Resolver.none ⟨0, []⟩ model = .ok (proto, w') :=
  ⟨_, rfl⟩

def maybe : Message :=
  .mk 1 "Maybe".toList [.mk "name".toList .nullTerminatedString true ⟨true, false⟩ .little] ⟨true, false⟩

def numbers : Message :=
  .mk 2 "Numbers".toList [.mk "n".toList (.fixed .u8) false ⟨false, false⟩ .little] ⟨false, false⟩

def outer : Message :=
  .mk 3 "Outer".toList [.mk "inner".toList (.ref (.message numbers)) false ⟨false, false⟩ .little]
    ⟨false, false⟩

theorem maybe_mem : maybe ∈ proto.messages := List.mem_of_getElem? (i := 0) rfl
theorem numbers_mem : numbers ∈ proto.messages := List.mem_of_getElem? (i := 1) rfl
theorem outer_mem : outer ∈ proto.messages := List.mem_of_getElem? (i := 2) rfl

/-- Everything that is not a `bool`. -/
def lib : Bytesutil := ⟨fun t => t ≠ .bool, fun t => t ≠ .bool, fun _ h => ⟨h, h⟩⟩

def code : Code := ⟨lib, link proto, proto.typePathByName, fun _ => false⟩

theorem names_of {proto : Protocol} {c : Code} (hp : c.paths = proto.typePathByName)
    (hi : c.items = link proto) (hd : ((visible proto).map Prod.fst).Nodup) : Names c proto := by
  have h : Links c.globals proto := link_links hi (same_of_nodup hd)
  exact ⟨hp, h.structs, h.messages, h.unions⟩

theorem names : Names code proto := names_of rfl rfl (by decide +kernel)

/-- The message of numbers is accepted. -/
example : DeclOk code numbers ∧ DecoderOk code numbers ∧ EncoderOk code numbers ∧ OffsetsOk code numbers ∧
    AliasesOk code numbers := by
  refine (C88_compiled compiled.choose_spec numbers_mem names (by decide)).2 fun f hf => ?_
  simp only [numbers, Message.fields, List.mem_singleton] at hf
  subst hf
  constructor <;> simp [MField.ty, MField.optional]

/-- The one that refers to it is not even declared. -/
example : ¬ DeclOk code outer := by
  rw [C88_declaration (compiled_sound compiled.choose_spec outer_mem names (by decide))]
  intro h
  obtain ⟨f, hf, hn⟩ := h _ (List.mem_singleton.2 rfl)
  simp only [numbers, Message.fields, List.mem_singleton] at hf
  subst hf
  exact hn _ rfl

/-- The one with an optional string is declared, but has neither decoder nor encoder. -/
theorem maybe_rejected : DeclOk code maybe ∧ ¬ DecoderOk code maybe ∧ ¬ EncoderOk code maybe := by
  have hs := compiled_sound compiled.choose_spec maybe_mem names (by decide)
  rw [C88_declaration hs, C88_decoder hs, C88_encoder hs]
  refine ⟨fun f hf => ?_, fun h => ?_, fun h => ?_⟩
  · simp only [maybe, Message.fields, List.mem_singleton] at hf
    subst hf
    trivial
  · exact nomatch h _ (List.mem_singleton.2 rfl)
  · exact nomatch h _ (List.mem_singleton.2 rfl)

end Ex

/-- C88 is false of the code: optional strings are accepted by the compiler, and the Rust code written
for them is not. -/
theorem C88_full_false : ¬ C88_full := fun h =>
  Ex.maybe_rejected.2.1 (h _ _ _ _ _ _ Ex.compiled.choose_spec Ex.code Ex.names _ Ex.maybe_mem (by decide))

/-! ## The test program -/

/-- The code of a protocol, given the messages that are embedded. -/
def codeOf (B : Bytesutil) (x : Protocol × List Nat) : Code :=
  ⟨B, link x.1, x.1.typePathByName, fun i => decide (i ∈ x.2)⟩

/-- What the build script of `testprog` generates (`C87_compiles`). -/
def testprog : List (Protocol × List Nat) :=
  Fix.first.map (·, []) ++ Fix.second.map (·, []) ++ Fix.third.map (·, [14, 12])

/-- All the code of a message is accepted. -/
def AllOk (c : Code) (m : Message) : Prop :=
  DeclOk c m ∧ DecoderOk c m ∧ EncoderOk c m ∧ OffsetsOk c m ∧ AliasesOk c m

theorem allOk_of {c : Code} {m : Message} (hs : Sound c m)
    (h : ∀ f ∈ m.fields, Decodable c.lib (c.embedded m.id) f ∧ Encodable c.lib f ∧
      ∀ t s, f.ty = .array t s → ¬ b!"::" <:+: pathOf c.paths s.name) : AllOk c m := by
  unfold AllOk
  rw [C88_offsets hs, C88_declaration hs, C88_decoder hs, C88_encoder hs, C88_aliases hs]
  refine ⟨fun f hf => ?_, fun f hf => (h f hf).1, fun f hf => (h f hf).2.1, fun f hf => (h f hf).1,
    fun f hf => ⟨(h f hf).2.2, fun t r e => ?_⟩⟩
  · have := (h f hf).1
    unfold Decodable at this
    unfold Declarable
    split at this <;> simp_all
  · have := (h f hf).1
    unfold Decodable at this
    rw [e] at this
    exact this.2.1

theorem sound_of {c : Code} {m : Message} (hl : ∀ f ∈ m.fields, Leads c f.ty)
    (hn : (m.fields.map MField.name).Nodup) (hu : ∀ f ∈ m.fields, ∀ u on i, f.ty ≠ .union u on i) :
    Sound c m :=
  ⟨hl, hn, fun _ f _ e u on i h => absurd h (hu f (by rw [e]; simp) u on i)⟩

section
variable (B : Bytesutil)

theorem test1_ok : AllOk (codeOf B (Fix.first[0], [])) (Fix.testTest1 1) := by
  refine allOk_of (sound_of ?_ (by decide) ?_) ?_ <;>
    simp [Fix.testTest1, Message.fields, MField.ty, Leads, Decodable, Encodable, MField.optional,
      B.numbers .u32]
  exact ⟨(B.numbers .u32 (by simp)).1, (B.numbers .u32 (by simp)).2⟩

theorem test1_borrows (n : Nat) : Borrows (Fix.testTest1 n) :=
  ⟨_, List.mem_cons_self, fun _ h => nomatch h⟩

theorem test_ok : AllOk (codeOf B (Fix.first[0], [])) (Fix.testTest 2) := by
  refine allOk_of (sound_of ?_ (by decide) ?_) ?_ <;>
    simp [Fix.testTest, Message.fields, MField.ty, Leads, Decodable, Encodable, MField.optional,
      test1_borrows, Length]
  krfl

theorem valueString_ok : AllOk (codeOf B (Fix.valuesP 12, [])) (Fix.valuesValueString 22) := by
  refine allOk_of (sound_of ?_ (by decide) ?_) ?_ <;>
    simp [Fix.valuesValueString, Message.fields, MField.ty, Leads, Decodable, Encodable, MField.optional]

theorem msg_ok : AllOk (codeOf B (Fix.first[9], [])) (Fix.arraysMsg 26) := by
  refine allOk_of (sound_of ?_ (by decide) ?_) ?_ <;>
    simp [Fix.arraysMsg, Message.fields, MField.ty, Leads, Decodable, Encodable, MField.optional, Length]
  · krfl
  · change ¬ b!"::" <:+: pathOf [] "Item".toList
    decide +kernel

theorem msg1_ok : AllOk (codeOf B (Fix.first[9], [])) (Fix.arraysMsg1 27) := by
  refine allOk_of (sound_of ?_ (by decide) ?_) ?_ <;>
    simp [Fix.arraysMsg1, Message.fields, MField.ty, Leads, Decodable, Encodable, MField.optional, Length]
  · krfl
  · change ¬ b!"::" <:+: pathOf [] "Item".toList
    decide +kernel

theorem value_borrows (h n : Nat) : UnionBorrows (Fix.unionsValue h n) :=
  ⟨_, List.mem_cons_of_mem _ List.mem_cons_self, fun h => nomatch h⟩

theorem item_ok : AllOk (codeOf B (Fix.unionsP, [])) Fix.item := by
  refine allOk_of ⟨?_, by decide, ?_⟩ ?_
  · simp [Fix.item, Fix.unionsItem, Message.fields, MField.ty, Leads]
    exact ⟨by krfl, by krfl⟩
  · intro pre f post e u on i hu
    match pre with
    | [] => cases e; cases hu
    | [_] => cases e; cases hu
    | [_, _] =>
      cases e
      cases hu
      exact ⟨rfl, _, List.mem_cons_self, rfl, _, rfl, rfl⟩
    | _ :: _ :: _ :: l => cases l <;> cases e
  · simp [Fix.item, Fix.unionsItem, Message.fields, MField.ty, Decodable, Encodable, MField.optional,
      value_borrows]

theorem item_borrows : Borrows Fix.item := ⟨_, List.mem_cons_self, fun _ h => nomatch h⟩

theorem spanRun_borrows : Borrows Fix.spanRun := ⟨_, List.mem_cons_self, fun _ h => nomatch h⟩

theorem spanRun_ok : AllOk (codeOf B (Fix.third[0], [14, 12])) Fix.spanRun := by
  refine allOk_of (sound_of ?_ (by decide) ?_) ?_ <;>
    simp [Fix.spanRun, Fix.listsSpanRun, Message.fields, MField.ty, Leads, Decodable, Encodable,
      MField.optional, Length, item_borrows]
  exact ⟨by krfl, by krfl⟩

theorem dataset_ok : AllOk (codeOf B (Fix.third[0], [14, 12])) Fix.dataset := by
  refine allOk_of (sound_of ?_ (by decide) ?_) ?_ <;>
    simp [Fix.dataset, Fix.listsDataset, Message.fields, MField.ty, Leads, Decodable, Encodable,
      MField.optional, Length, spanRun_borrows]
  krfl

theorem value_ok : UnionOk (codeOf B (Fix.unionsP, [])) (Fix.unionsValue 0 1) := by
  refine (C88_union ?_).2 ?_
  · simp only [Fix.unionsValue, Union.cases, List.forall_mem_cons, UCase.itemType, Option.some.injEq,
      forall_eq', reduceCtorEq, false_implies, implies_true, true_and, Leads, List.not_mem_nil]
    refine ⟨?_, ?_, ?_, ?_, ?_, ?_, ?_, ?_, ?_, ?_, ?_, trivial⟩ <;> krfl
  · simp only [Fix.unionsValue, Union.cases, List.forall_mem_cons, UCase.itemType, Option.some.injEq,
      reduceCtorEq, false_implies, implies_true, true_and, Referenced.message.injEq, forall_eq',
      List.not_mem_nil, and_true]
    exact ⟨_, List.mem_cons_self, fun _ h => nomatch h⟩

theorem nested_ok : UnionOk (codeOf B (Fix.first[8], [])) (Fix.unions2NestedDiscriminant 23) := by
  refine (C88_union ?_).2 ?_ <;>
    simp [Fix.unions2NestedDiscriminant, Union.cases, UCase.itemType]

end

theorem none {α : Type} {P : α → Prop} : ∀ x ∈ ([] : List α), P x := fun _ h => nomatch h

theorem also {α : Type} {P : α → Prop} {a : α} {l : List α} (h : P a) (hl : ∀ x ∈ l, P x) :
    ∀ x ∈ a :: l, P x := List.forall_mem_cons.2 ⟨h, hl⟩

/-- C88: the Rust code of every message and union of the test program is accepted. -/
theorem C88_testprog (B : Bytesutil) : ∀ x ∈ testprog,
    (∀ m ∈ x.1.messages, AllOk (codeOf B x) m) ∧ ∀ u ∈ x.1.unions, UnionOk (codeOf B x) u :=
  also ⟨also (test1_ok B) (also (test_ok B) none), none⟩ <|
  also ⟨none, none⟩ <| also ⟨none, none⟩ <| also ⟨none, none⟩ <| also ⟨none, none⟩ <|
  also ⟨none, none⟩ <| also ⟨none, none⟩ <|
  also ⟨also (valueString_ok B) none, none⟩ <|
  also ⟨none, also (nested_ok B) none⟩ <|
  also ⟨also (msg_ok B) (also (msg1_ok B) none), none⟩ <|
  also ⟨also (item_ok B) none, also (value_ok B) none⟩ <|
  also ⟨also (spanRun_ok B) (also (dataset_ok B) none), none⟩ none

end Proto.Rs.Typ
