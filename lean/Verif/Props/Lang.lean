import Verif.Lang.Print
import Verif.Lang.RunOff
import Verif.Lang.RunUnion
import Verif.Props.Rust
import Verif.Props.Message

/-!
# The generated decoders and encoders, run as Rust programs

C52 says which text is generated.  Here that text is read as a program of the subset of Rust of
`Lang/Syntax.lean`, run by the rules of `Lang/Eval.lean`, and compared with `Gen/Message.lean`.
-/

namespace Proto.Rs

open Proto.Text Proto.Props
open Proto.Rust (messageFromSlice messageOffsets messageWrite unionDecl)

/-! ## Finding what a path names -/

/-- The paths written in the code generated for a protocol lead to what the protocol calls so. -/
structure Links (g : Globals) (proto : Protocol) : Prop where
  structs : ∀ x ∈ proto.structsByName, g.items (pathOf proto.typePathByName x.2.name) = some (.struct x.2)
  messages : ∀ x ∈ proto.messagesByName,
    g.items (pathOf proto.typePathByName x.2.name) = some (.message x.2)
  unions : ∀ x ∈ proto.unionsByName, g.items (pathOf proto.typePathByName x.2.name) = some (.union x.2)

theorem Links.field {g : Globals} {proto : Protocol} (hl : Links g proto) {ms : List (Name × Message)}
    (hms : ∀ x ∈ ms, x ∈ proto.messagesByName) {msgs : List Message} {before : List MField}
    {v : Model.MField} {f : MField}
    (h : FieldOf { proto with messagesByName := ms, messages := msgs } before v f) :
    Resolves g proto.typePathByName f.ty := by
  have hs : ∀ {n s}, proto.structsByName.lookup n = some s →
      g.items (pathOf proto.typePathByName s.name) = some (.struct s) :=
    fun h => hl.structs _ (mem_of_lookup h)
  have hm : ∀ {n m}, ms.lookup n = some m →
      g.items (pathOf proto.typePathByName m.name) = some (.message m) :=
    fun h => hl.messages _ (hms _ (mem_of_lookup h))
  obtain ⟨-, -, h⟩ := h
  split at h
  · rcases h with ⟨_, ⟨s, ty, _, _, ht, _⟩ | ⟨s, h, _, ht, _⟩ | ⟨_, m, h, ht, _⟩⟩ <;> rw [ht]
    · trivial
    · exact hs h
    · exact hm h
  · rcases h with ⟨_, ty, _, ⟨s, h, ht, _⟩ | ⟨_, m, h, ht, _⟩⟩ <;> rw [ht]
    · exact hs h
    · exact hm h
  · obtain ⟨_, ht, _⟩ := h; rw [ht]; trivial
  · obtain ⟨_, ty, _, ht, _⟩ := h; rw [ht]; trivial
  · obtain ⟨_, u, i, _, s, h, _, _, _, _, ht, _⟩ := h
    rw [ht]
    exact hl.unions _ (mem_of_lookup h)
  · obtain ⟨_, ht, _⟩ := h; rw [ht]; trivial

theorem fields_of {proto : Protocol} {emb emb' : List Nat} {before : List MField}
    {vs : List Model.MField} {fs : List MField} (h : Fields proto emb before vs fs emb') :
    ∀ pre f post, fs = pre ++ f :: post → ∃ v, FieldOf proto (before ++ pre) v f := by
  induction h with
  | nil => simp
  | cons h _ ih =>
    intro pre f post e
    cases pre with
    | nil =>
      cases e
      exact ⟨_, by simpa using (C44_field.1 h).1⟩
    | cons f' pre =>
      simp only [List.cons_append, List.cons.injEq] at e
      obtain ⟨rfl, e⟩ := e
      simpa using ih pre f post e

theorem addImport_decls {solver : Resolver} {proto proto' : Protocol} {v : Model.Import}
    (h : Protocol.addImport solver proto v = .ok proto') :
    proto'.messages = proto.messages ∧ proto'.unions = proto.unions := by
  unfold Protocol.addImport at h
  obtain ⟨r, _, h⟩ := Res.bind_eq_ok.1 h
  split at h
  · obtain ⟨path, _, h⟩ := Res.bind_eq_ok.1 h
    cases h
    exact ⟨rfl, rfl⟩
  · split at h
    · obtain ⟨path, _, h⟩ := Res.bind_eq_ok.1 h
      cases h
      exact ⟨rfl, rfl⟩
    · split at h
      · obtain ⟨path, _, h⟩ := Res.bind_eq_ok.1 h
        cases h
        exact ⟨rfl, rfl⟩
      · obtain ⟨m, _, h⟩ := Res.bind_eq_ok.1 h
        obtain ⟨path, _, h⟩ := Res.bind_eq_ok.1 h
        cases h
        exact ⟨rfl, rfl⟩

theorem addImports_decls {solver : Resolver} {vs : List Model.Import} {proto proto' : Protocol}
    (h : Protocol.addImports solver proto vs = .ok proto') :
    proto'.messages = proto.messages ∧ proto'.unions = proto.unions := by
  induction vs generalizing proto with
  | nil => cases h; exact ⟨rfl, rfl⟩
  | cons v vs ih =>
    obtain ⟨proto1, h1, h⟩ := Res.bind_eq_ok.1 h
    have e1 := addImport_decls h1
    have e2 := ih h
    exact ⟨e2.1.trans e1.1, e2.2.trans e1.2⟩

/-- What each message and each union of a compiled protocol was made from: the names the whole
protocol knows, except some of the messages. -/
theorem compiled_parts {p : Profile} {solver : Resolver} {w w' : World} {v : Model.Protocol}
    {proto : Protocol} (h : Protocol.fromModel p solver w v = .ok (proto, w')) :
    (∀ m ∈ proto.messages, ∃ ms msgs, (∀ x ∈ ms, x ∈ proto.messagesByName) ∧
      ∀ pre f post, m.fields = pre ++ f :: post → ∃ fv,
      FieldOf { proto with messagesByName := ms, messages := msgs } pre fv f) ∧
    ∀ u ∈ proto.unions, ∃ ms msgs us uns uv, (∀ x ∈ ms, x ∈ proto.messagesByName) ∧
      Union.fromModel { proto with messagesByName := ms, messages := msgs, unionsByName := us,
                                   unions := uns } uv = .ok u := by
  obtain ⟨p1, p2, p3, p4, next, h1, h2, h3, h4, h5⟩ := (C44_phases ..).1 h
  obtain ⟨em, eu⟩ := addImports_decls h1
  obtain ⟨es, _, rfl, _⟩ := (C44_enums ..).1 h2
  obtain ⟨ss, _, _, rfl, _⟩ := (C44_structs ..).1 h3
  obtain ⟨us, hlu, rfl, hu⟩ := (C44_unions ..).1 h4
  obtain ⟨ms, embs, hlm, _, _, rfl, hm⟩ := (C44_messages ..).1 h5
  simp only [Protocol.empty] at em eu
  constructor
  · intro m hmem
    simp only [em, List.nil_append] at hmem
    obtain ⟨j, hj, rfl⟩ := List.mem_iff_getElem.1 hmem
    obtain ⟨fs, hfs, _, e⟩ := Message.fromModel_eq_ok.1 (hm j hj (by omega))
    refine ⟨scope Message.name (ms.take j) p1.messagesByName, p1.messages ++ ms.take j, ?_, ?_⟩
    · intro x hx
      simp only [scope, List.mem_append, List.mem_map, List.mem_reverse] at hx ⊢
      rcases hx with ⟨y, hy, rfl⟩ | hx
      · exact .inl ⟨y, List.mem_of_mem_take hy, rfl⟩
      · exact .inr hx
    · rw [e]
      simpa [Message.fields] using fields_of hfs
  · intro u hmem
    simp only [eu, List.nil_append] at hmem
    obtain ⟨j, hj, rfl⟩ := List.mem_iff_getElem.1 hmem
    refine ⟨p1.messagesByName, p1.messages, p1.unionsByName, p1.unions, _, ?_, hu j hj (by omega)⟩
    intro x hx
    simp only [scope, List.mem_append]
    exact .inr hx

/-- Every type a message or a union of a compiled protocol refers to is found at the path written for
it. -/
theorem compiled_resolves {p : Profile} {solver : Resolver} {w w' : World} {v : Model.Protocol}
    {proto : Protocol} (h : Protocol.fromModel p solver w v = .ok (proto, w')) {g : Globals}
    (hl : Links g proto) :
    (∀ m ∈ proto.messages, ∀ f ∈ m.fields, Resolves g proto.typePathByName f.ty) ∧
    ∀ u ∈ proto.unions, ∀ k ∈ u.cases, ResolvesCase g proto.typePathByName k := by
  obtain ⟨h1, h2⟩ := compiled_parts h
  constructor
  · intro m hm f hf
    obtain ⟨ms, msgs, hms, hfs⟩ := h1 m hm
    obtain ⟨pre, post, e⟩ := List.append_of_mem hf
    obtain ⟨fv, hfv⟩ := hfs pre f post e
    exact hl.field hms hfv
  · intro u hu k hk
    obtain ⟨ms, msgs, us, uns, uv, hms, huv⟩ := h2 u hu
    obtain ⟨d, ks, _, hks, rfl⟩ := Union.fromModel_eq_ok.1 huv
    unfold ResolvesCase
    split
    · trivial
    · next s he =>
      obtain ⟨n, hn⟩ := casesFromModel_mem hks k hk _ he
      rcases Referenced.lookup_eq_some.1 hn with ⟨s', hs, e⟩ | ⟨_, m, _, e⟩ <;> cases e
      exact hl.structs _ (mem_of_lookup hs)
    · next m he =>
      obtain ⟨n, hn⟩ := casesFromModel_mem hks k hk _ he
      rcases Referenced.lookup_eq_some.1 hn with ⟨s', hs, e⟩ | ⟨_, m, hm, e⟩ <;> cases e
      exact hl.messages _ (hms _ (mem_of_lookup hm))

/-- The types a protocol knows, each with its path. -/
def visible (proto : Protocol) : List (Bytes × Item) :=
  proto.structsByName.map (fun x => (pathOf proto.typePathByName x.2.name, .struct x.2)) ++
  proto.messagesByName.map (fun x => (pathOf proto.typePathByName x.2.name, .message x.2)) ++
  proto.unionsByName.map (fun x => (pathOf proto.typePathByName x.2.name, .union x.2))

theorem links_iff {g : Globals} {proto : Protocol} :
    Links g proto ↔ ∀ x ∈ visible proto, g.items x.1 = some x.2 := by
  constructor
  · intro h x hx
    simp only [visible, List.mem_append, List.mem_map] at hx
    rcases hx with (⟨y, hy, rfl⟩ | ⟨y, hy, rfl⟩) | ⟨y, hy, rfl⟩
    · exact h.structs y hy
    · exact h.messages y hy
    · exact h.unions y hy
  · intro h
    refine ⟨fun x hx => h (_, .struct x.2) ?_, fun x hx => h (_, .message x.2) ?_,
      fun x hx => h (_, .union x.2) ?_⟩ <;> simp only [visible, List.mem_append, List.mem_map]
    · exact .inl (.inl ⟨x, hx, rfl⟩)
    · exact .inl (.inr ⟨x, hx, rfl⟩)
    · exact .inr ⟨x, hx, rfl⟩

/-- The first field called as the key of a union is not optional. -/
def KeysPresent (m : Message) : Prop :=
  ∀ pre f post, m.fields = pre ++ f :: post → ∀ u on i, f.ty = .union u on i →
    ∀ k, pre.find? (fun k => k.name == on) = some k → k.optional = false

theorem keysPresent_of {m : Message} (h : (m.fields.all fun f =>
    match f.ty with
    | .union _ on _ => m.fields.all fun k => k.name != on || !k.optional
    | _ => true) = true) : KeysPresent m := by
  intro pre f post e u on i ht k hk
  have hf := List.all_eq_true.1 h f (by rw [e]; simp)
  rw [ht] at hf
  have hk' := List.all_eq_true.1 hf k (by
    rw [e]
    exact List.mem_append_left _ (List.mem_of_find?_eq_some hk))
  have hn := List.find?_some hk
  simp only [beq_iff_eq] at hn
  simpa [hn] using hk'

/-- The union fields of a compiled message have a key, if it is not optional. -/
theorem compiled_keys {p : Profile} {solver : Resolver} {w w' : World} {v : Model.Protocol}
    {proto : Protocol} (h : Protocol.fromModel p solver w v = .ok (proto, w')) {m : Message}
    (hm : m ∈ proto.messages) (hk : KeysPresent m) :
    ∀ pre f post, m.fields = pre ++ f :: post → KeyHeld pre f := by
  intro pre f post e
  obtain ⟨ms, msgs, -, hfs⟩ := (compiled_parts h).1 m hm
  obtain ⟨fv, -, -, hf⟩ := hfs pre f post e
  unfold KeyHeld
  split
  · next u on i ht =>
    split at hf
    · rcases hf with ⟨_, ⟨s, ty, _, _, h, _⟩ | ⟨s, _, _, h, _⟩ | ⟨_, m, _, h, _⟩⟩ <;> rw [ht] at h <;>
        cases h
    · rcases hf with ⟨_, ty, _, ⟨s, _, h, _⟩ | ⟨_, m, _, h, _⟩⟩ <;> rw [ht] at h <;> cases h
    · obtain ⟨_, h, _⟩ := hf; rw [ht] at h; cases h
    · obtain ⟨_, ty, _, h, _⟩ := hf; rw [ht] at h; cases h
    · obtain ⟨ho, u', i', k, s, _, hi, hk', hs, _, h, _⟩ := hf
      rw [ht] at h
      cases h
      have hfind := find?_of_findIdx? hi
      rw [hk'] at hfind
      exact ⟨ho, k, s, hfind, hk pre f post e u on i ht k hfind, hs⟩
    · obtain ⟨_, h, _⟩ := hf; rw [ht] at h; cases h
  · trivial

/-! ## Names that do not collide, decidably -/

/-- `Hygienic`, computed. -/
def hygienic : List MField → Bool
  | [] => true
  | f :: fs => f.name != id "byte_offset" && (fs.isEmpty || f.name != id "slice") &&
      fs.all (fun k => f.name != k.name && f.name != msgVar k) && hygienic fs

theorem Hygienic.tail {f : MField} {fs : List MField} (h : Hygienic (f :: fs)) : Hygienic fs where
  distinct := (List.nodup_cons.1 h.distinct).2
  offset k hk := h.offset k (List.mem_cons_of_mem _ hk)
  slice pre k post e := h.slice (f :: pre) k post (by rw [e]; rfl)
  msg pre k post e := h.msg (f :: pre) k post (by rw [e]; rfl)

theorem hygienic_iff {fs : List MField} : hygienic fs = true ↔ Hygienic fs := by
  induction fs with
  | nil =>
    refine ⟨fun _ => ⟨.nil, by simp, fun pre f post e => ?_, fun pre f post e => ?_⟩, fun _ => rfl⟩ <;>
      simp at e
  | cons f fs ih =>
    simp only [hygienic, Bool.and_eq_true, bne_iff_ne, ne_eq, Bool.or_eq_true, List.isEmpty_iff,
      List.all_eq_true, ih]
    constructor
    · rintro ⟨⟨⟨h1, h2⟩, h3⟩, h4⟩
      refine ⟨List.nodup_cons.2 ⟨fun hmem => ?_, h4.distinct⟩, fun k hk => ?_, fun pre k post e hne => ?_,
        fun pre k post e x hx => ?_⟩
      · obtain ⟨k, hk, e⟩ := List.mem_map.1 hmem
        exact (h3 k hk).1 e.symm
      · rcases List.mem_cons.1 hk with rfl | hk
        · exact h1
        · exact h4.offset k hk
      · cases pre with
        | nil =>
          cases e
          exact h2.resolve_left hne
        | cons _ pre =>
          cases e
          exact h4.slice pre k post rfl hne
      · cases pre with
        | nil =>
          cases e
          exact (h3 x hx).2
        | cons _ pre =>
          cases e
          exact h4.msg pre k post rfl x hx
    · intro h
      refine ⟨⟨⟨h.offset f (by simp), ?_⟩, fun k hk => ⟨fun e => ?_, h.msg [] f fs rfl k hk⟩⟩, h.tail⟩
      · by_cases he : fs = []
        · exact .inl he
        · exact .inr (h.slice [] f fs rfl he)
      · exact (List.nodup_cons.1 h.distinct).1 (e ▸ List.mem_map_of_mem hk)

instance (fs : List MField) : Decidable (Hygienic fs) := decidable_of_iff _ hygienic_iff

theorem hygienicOff_iff {fs : List MField} :
    HygienicOff fs ↔ Hygienic fs ∧ (∀ f ∈ fs, f.name ≠ id "offsets") ∧ (offNames fs).Nodup :=
  ⟨fun h => ⟨h.base, h.offsets, h.struct⟩, fun h => ⟨h.1, h.2.1, h.2.2⟩⟩

instance (fs : List MField) : Decidable (HygienicOff fs) := decidable_of_iff _ hygienicOff_iff.symm

/-! ## C66 -/

/-- `Self` is the struct of the message. -/
structure SelfIs (g : Globals) (m : Message) : Prop where
  name : g.name = m.name
  fields : g.fields = m.fields.map MField.name

/-- C66: the text of the decoder is a program whose run on any bytes is the decoder of the model. -/
theorem C66_from_slice (lib : Lib) {paths : List (Name × Name)} {g : Globals} {m : Message}
    (hs : SelfIs g m) (hr : ∀ f ∈ m.fields, Resolves g paths f.ty)
    (hk : ∀ pre f post, m.fields = pre ++ f :: post → KeyHeld pre f) (hh : Hygienic m.fields) :
    ∃ body : Body, messageFromSlice lib paths g.c.emb m =
        .ok t!"impl<'a> bp3d_proto::message::FromSlice<'a> for {Name.utf8 m.name}{messageGenerics m} \{
    type Output = Self;
    fn from_slice(slice: &'a [u8]) -> bp3d_proto::message::Result<bp3d_proto::message::Message<Self>> \{
{body.print}    }
}
" ∧
      ∀ b : Bytes, b.length < 2 ^ 64 →
        body.call g [(id "slice", .data (.buf b))] = decoded .data (m.parse g.c b) :=
  ⟨decoder paths (g.c.emb m.id) m, by rw [C52_from_slice, decoder_print],
    fun _ hb => decoder_call hr hk hh hs.name hs.fields hb⟩

/-- C66: the same for the decoder recording offsets. -/
theorem C66_offsets (lib : Lib) {paths : List (Name × Name)} {g : Globals} {m : Message}
    (hs : SelfIs g m) {d : MField → Val} (ho : g.offsets = m.fields.flatMap (declared d))
    (hr : ∀ f ∈ m.fields, Resolves g paths f.ty)
    (hk : ∀ pre f post, m.fields = pre ++ f :: post → KeyHeld pre f) (hh : HygienicOff m.fields) :
    ∃ body : Body, messageOffsets lib paths g.c.emb m =
        .ok t!"#[derive(Copy, Clone, Debug, Default)]
pub struct {Name.utf8 m.name}Offsets \{
{all (offsetDecl paths) m.fields}
}

impl<'a> bp3d_proto::message::FromSliceWithOffsets<'a> for {Name.utf8 m.name}{messageGenerics m} \{
    type Offsets = {Name.utf8 m.name}Offsets;
    fn from_slice_with_offsets(slice: &'a [u8]) -> bp3d_proto::message::Result<bp3d_proto::message::Message<(Self, Self::Offsets)>> \{
{body.print}    }
}
" ∧
      ∀ b : Bytes, b.length < 2 ^ 64 →
        body.call g [(id "slice", .data (.buf b))] =
          decoded (fun r => .pair (.data r.1) (offVal r.2)) (m.parseOff g.c b) :=
  ⟨offsetsDecoder paths (g.c.emb m.id) m, by rw [C52_offsets, offsetsDecoder_print],
    fun _ hb => offsetsDecoder_call hr hk hh hs.name hs.fields ho hb⟩

/-- C66: both, for the messages of a compiled protocol. -/
theorem C66_compiled {p : Profile} {solver : Resolver} {w w' : World} {v : Model.Protocol}
    {proto : Protocol} (h : Protocol.fromModel p solver w v = .ok (proto, w')) {g : Globals}
    (hl : Links g proto) {m : Message} (hm : m ∈ proto.messages) (hs : SelfIs g m) (hk : KeysPresent m)
    (hh : Hygienic m.fields) (b : Bytes) (hb : b.length < 2 ^ 64) :
    (decoder proto.typePathByName (g.c.emb m.id) m).call g [(id "slice", .data (.buf b))] =
      decoded .data (m.parse g.c b) ∧
    ∀ d : MField → Val, g.offsets = m.fields.flatMap (declared d) → HygienicOff m.fields →
      (offsetsDecoder proto.typePathByName (g.c.emb m.id) m).call g [(id "slice", .data (.buf b))] =
        decoded (fun r => .pair (.data r.1) (offVal r.2)) (m.parseOff g.c b) :=
  ⟨decoder_call ((compiled_resolves h hl).1 m hm) (compiled_keys h hm hk) hh hs.name hs.fields hb,
    fun _ ho hh => offsetsDecoder_call ((compiled_resolves h hl).1 m hm) (compiled_keys h hm hk) hh hs.name
      hs.fields ho hb⟩

/-- What is found at a path in code generated from the protocol alone. -/
def link (proto : Protocol) (path : Bytes) : Option Item :=
  ((visible proto).find? (fun x => x.1 == path)).map Prod.snd

theorem link_links {g : Globals} {proto : Protocol} (hg : g.items = link proto)
    (h : ∀ x ∈ visible proto, ∀ y ∈ visible proto, x.1 = y.1 → x.2 = y.2) : Links g proto := by
  refine links_iff.2 fun x hx => ?_
  rw [hg]
  unfold link
  cases hf : (visible proto).find? (fun y => y.1 == x.1) with
  | none =>
    have := List.find?_eq_none.1 hf x hx
    simp at this
  | some y =>
    have he := List.find?_some hf
    rw [Option.map_some, h y (List.mem_of_find?_eq_some hf) x hx (by simpa using he)]

theorem same_of_nodup {l : List (α × β)} (h : (l.map Prod.fst).Nodup) :
    ∀ x ∈ l, ∀ y ∈ l, x.1 = y.1 → x.2 = y.2 := by
  induction l with
  | nil => simp
  | cons a l ih =>
    simp only [List.map_cons, List.nodup_cons] at h
    intro x hx y hy e
    rcases List.mem_cons.1 hx with hx' | hx' <;> rcases List.mem_cons.1 hy with hy' | hy'
    · rw [hx', hy']
    · exact absurd (List.mem_map.2 ⟨y, hy', by rw [← e, hx']⟩) h.1
    · exact absurd (List.mem_map.2 ⟨x, hx', by rw [e, hy']⟩) h.1
    · exact ih h.2 x hx' y hy' e

/-- C66: the paths can lead to what the protocol means exactly if no two different types share one. -/
theorem C66_links (g : Globals) (proto : Protocol) :
    (∃ items, Links { g with items := items } proto) ↔
      ∀ x ∈ visible proto, ∀ y ∈ visible proto, x.1 = y.1 → x.2 = y.2 := by
  constructor
  · rintro ⟨items, h⟩ x hx y hy e
    rw [links_iff] at h
    have h1 := h x hx
    have h2 := h y hy
    rw [e, h2] at h1
    exact Option.some.inj h1.symm
  · exact fun h => ⟨link proto, link_links rfl h⟩

/-! ## C67 -/

/-- C67: the text of the encoder is a program whose run on any struct value is the encoder of the
model. -/
theorem C67_write (lib : Lib) {paths : List (Name × Name)} {g : Globals} {m : Message}
    (hr : ∀ f ∈ m.fields, Resolves g paths f.ty) (hd : (m.fields.map MField.name).Nodup) :
    ∃ body : Body, messageWrite lib paths g.c.emb m =
        .ok t!"impl{messageGenerics m} bp3d_proto::message::WriteTo for {Name.utf8 m.name}{messageGenerics m} \{
    type Input = Self;
    fn write_to<W: std::io::Write>(input: &Self, mut out: W) -> bp3d_proto::message::Result<()> \{
{body.print}    }
}
" ∧
      ∀ vs : Env, vs.map Prod.fst = m.fields.map MField.name → (∀ f ∈ m.fields, KeyValue vs f) →
        body.call g [(id "input", .data (.msg vs)), (id "out", .writer)] =
          encoded (m.write g.c (.msg vs)) :=
  ⟨encoder paths m, by rw [C52_write, encoder_print], fun _ hv hk => encoder_call hr hd hv hk⟩

theorem listRepr_names {c : Ctx} {emb : Bool} {fs : List MField} {env vs : Env}
    (h : MField.ListRepr c emb fs env vs) : vs.map Prod.fst = fs.map MField.name := by
  induction fs generalizing env vs with
  | nil => rw [MField.ListRepr] at h; rw [h]; rfl
  | cons f fs ih =>
    obtain ⟨v, rest, rfl, _, h⟩ := h
    simp [ih h]

theorem listRepr_key {c : Ctx} {emb : Bool} {fs : List MField} {env vs : Env}
    (h : MField.ListRepr c emb fs env vs)
    (ho : ∀ f ∈ fs, ∀ u on i, f.ty = .union u on i → f.optional = false) :
    ∀ f ∈ fs, KeyValue (env ++ vs) f := by
  induction fs generalizing env vs with
  | nil => simp
  | cons f fs ih =>
    obtain ⟨v, rest, rfl, hf, h⟩ := h
    intro k hk
    rcases List.mem_cons.1 hk with rfl | hk
    · obtain ⟨n, ty, o, sz, e⟩ := k
      unfold KeyValue
      split
      · next u on i ht =>
        have hfo := ho _ (by simp) u on i ht
        simp only [MField.ty] at ht
        simp only [MField.optional] at hfo
        subst ht hfo
        refine ⟨rfl, ?_⟩
        obtain ⟨un, disc, cases, usz⟩ := u
        simp only [MField.Repr, Bool.false_eq_true, if_false, MFieldTy.Repr, Union.Repr] at hf
        obtain ⟨_, _, d, _, hd, _⟩ := hf
        unfold Discriminant.read at hd
        split at hd
        · next hkey _ => exact ⟨_, by rw [List.lookup_append, hkey]; rfl⟩
        · cases hd
      · trivial
    · have := ih h (fun f hf => ho f (List.mem_cons_of_mem _ hf)) k hk
      simpa using this

theorem not_optional {before : List MField} {f : MField} (h : KeyHeld before f) {u : Union} {on : Name}
    {i : Nat} (ht : f.ty = .union u on i) : f.optional = false := by
  unfold KeyHeld at h
  rw [ht] at h
  exact h.1

/-- C67: for a compiled message whose greedy part comes last, running the generated encoder on a
representable value succeeds, and running the generated decoder on what it wrote gives the value back
and the number of bytes. -/
theorem C67_roundtrip {p : Profile} {solver : Resolver} {w w' : World} {v : Model.Protocol}
    {proto : Protocol} (h : Protocol.fromModel p solver w v = .ok (proto, w')) {g : Globals}
    (hl : Links g proto) {m : Message} (hm : m ∈ proto.messages) (hs : SelfIs g m) (hk : KeysPresent m)
    (hh : Hygienic m.fields) (ht : m.tailGreedy g.c.emb = true) {x : Value} (hx : m.Repr g.c x) :
    ∃ chunks : List Bytes,
      (encoder proto.typePathByName m).call g [(id "input", .data x), (id "out", .writer)] =
        ⟨chunks, .ok (.ok .unit)⟩ ∧
      chunks.flatten = m.wire x ∧
      (chunks.flatten.length < 2 ^ 64 →
        (decoder proto.typePathByName (g.c.emb m.id) m).call g
          [(id "slice", .data (.buf chunks.flatten))] =
            .pure (.ok (.sized chunks.flatten.length (.data x)))) := by
  have hkeys := compiled_keys h hm hk
  have hrep : ∃ vs, x = .msg vs ∧ vs.map Prod.fst = m.fields.map MField.name ∧
      ∀ f ∈ m.fields, KeyValue vs f := by
    obtain ⟨mid, n, fs, sz⟩ := m
    obtain ⟨vs, rfl, hlist⟩ := hx
    refine ⟨vs, rfl, listRepr_names hlist, ?_⟩
    have := listRepr_key hlist fun f hf u on i hty => by
      obtain ⟨pre, post, e⟩ := List.append_of_mem hf
      exact not_optional (hkeys pre f post e) hty
    simpa [Message.fields] using this
  obtain ⟨vs, rfl, hnames, hkv⟩ := hrep
  obtain ⟨hok, hparse⟩ := C22_roundtrip g.c ht hx
  have hwire := (C58_wire g.c hx).2
  have hrun := encoder_call (paths := proto.typePathByName) ((compiled_resolves h hl).1 m hm) hh.distinct
    hnames hkv
  refine ⟨(m.write g.c (.msg vs)).chunks, ?_, hwire, fun hb => ?_⟩
  · rw [hrun]
    simp only [encoded, hok]
  · have hdec := (C66_compiled h hl hm hs hk hh _ hb).1
    have hb' : (m.write g.c (.msg vs)).bytes = (m.write g.c (.msg vs)).chunks.flatten := rfl
    rw [hb'] at hparse
    rw [hdec, hparse]
    rfl

/-! ## C68 -/

theorem Path.ends {s : Structure} {is : List Nat} {ns : List Name} {f : FixedField} {a : Access}
    (h : Path s is ns f a) : Props.Ends f a := by
  induction h with
  | leaf => exact rfl
  | step _ _ _ _ ih => exact ih

theorem chain_leaf {s : Structure} {is : List Nat} {ns : List Name} {leaf : Option Name}
    (h : Text.Chain s is ns leaf) : s.walk is ≠ none → ∃ l, leaf = some l := by
  induction h with
  | stop => intro h; exact absurd rfl h
  | leaf => exact fun _ => ⟨_, rfl⟩
  | step hf _ ih =>
    intro h
    refine ih fun hn => h ?_
    simp [Structure.walk, hf, hn]

/-- C68: the text generated for a union with a usable discriminant consists of programs that run as
the decoder and the encoder of the model. -/
theorem C68_union (lib : Lib) {paths : List (Name × Name)} {g : Globals} {u : Union} {ns : List Name}
    {leaf : Name} (h : Text.Chain u.discriminant.root u.discriminant.indexList ns (some leaf))
    (hd : MethodsDistinct u.discriminant.root u.discriminant.indexList) (hc : Cases g u.cases)
    (hr : ∀ k ∈ u.cases, ResolvesCase g paths k)
    (hf : ∀ (f : FixedField) (a : Access), u.discriminant.access = some a → Props.Ends f a →
      ∀ k ∈ u.cases, k.case < 256 ^ f.loc.rawSize) :
    ∃ dec enc store : Body,
      unionDecl lib paths u = .ok (
      t!"#[derive(Copy, Clone, Debug)]
pub enum {Name.utf8 u.name}{unionGenerics u} \{
{all (caseDecl paths) u.cases}
}
" ++
      t!"impl<'a> {Name.utf8 u.name}{unionGenerics u} \{
    pub fn from_slice({if hasContent u then b!"slice" else b!"_"}: &'a [u8], discriminant: &{pathOf paths u.discriminant.root.name}<&'a [u8]>) -> bp3d_proto::message::Result<bp3d_proto::message::Message<Self>> \{
{dec.print}    }

}
" ++
      t!"impl<'a> {Name.utf8 u.name}{unionGenerics u} \{
    pub fn write_to<W: std::io::Write>({if hasContent u then b!"input" else b!"_"}: &Self, {if hasContent u then b!"discriminant" else b!"_"}: &{pathOf paths u.discriminant.root.name}<&'a [u8]>, {if hasContent u then b!"mut out" else b!"_"}: W) -> bp3d_proto::message::Result<()> \{
{enc.print}    }

}
" ++
      t!"impl{unionGenerics u} {Name.utf8 u.name}{unionGenerics u} \{
    pub fn set_discriminant<T: AsMut<[u8]>>(&self, discriminant: &mut {pathOf paths u.discriminant.root.name}<T>) \{
{store.print}    }
}
" ++
      t!"impl{unionGenerics u} {Name.utf8 u.name}{unionGenerics u} \{
{all (caseGetter paths) u.cases}
}
") ∧
      (∀ (key b : Bytes) (env : Env) (on : Name), env.lookup on = some (.struct key) →
        dec.call g ((id "discriminant", .view u.discriminant.root key) ::
          (if hasContent u then [(id "slice", .data (.buf b))] else [])) =
          decoded .data (u.parse g.c env on b)) ∧
      (∀ (key : Bytes) (i : Nat) (x : Value) (env : Env) (on : Name), i < u.cases.length →
        env.lookup on = some (.struct key) →
        enc.call g (if hasContent u then [(id "input", .data (.union i x)),
          (id "discriminant", .view u.discriminant.root key), (id "out", .writer)] else []) =
          encoded (u.write g.c env on (.union i x))) ∧
      ∀ (key : Bytes) (i : Nat) (x : Value) (k : UCase), u.cases[i]? = some k →
        store.effect g [(id "self", .data (.union i x)),
          (id "discriminant", .viewMut (id "discriminant") 0 u.discriminant.root key)] =
          (lift (u.setDiscriminant g.c.p i key) >>= fun key =>
            .pure [(id "discriminant_value", .usize k.case), (id "self", .data (.union i x)),
              (id "discriminant", .viewMut (id "discriminant") 0 u.discriminant.root key)]) := by
  obtain ⟨f, a, rfl, hp⟩ := Path.of_chain h hd
  have hf := hf f a hp.walk hp.ends
  exact ⟨unionDecoder paths u ns f.name, unionEncoder paths u ns f.name, unionStore u ns f.name,
    by rw [C52_union lib paths h, union_print], fun _ _ _ _ hk => unionDecoder_call hp hc hr hf hk,
    fun _ _ _ _ _ hi hk => unionEncoder_call hp hc hr hf hi hk,
    fun _ _ _ _ hk => unionStore_effect hp hc hf hk⟩

/-- C68: the text of `as_x` and `is_x` is a program that looks at the case. -/
theorem C68_case (paths : List (Name × Name)) {g : Globals} {cases : List UCase} (hc : Cases g cases)
    {i : Nat} {k : UCase} (hk : cases[i]? = some k) :
    ∃ body : Body, caseGetter paths k =
        (match k.itemType with
        | none => t!"    pub fn is_{lower (Name.utf8 k.name)}(&self) -> bool \{
"
        | some (.struct s) =>
          t!"    pub fn as_{lower (Name.utf8 k.name)}(&self) -> Option<&{pathOf paths s.name}<&'a [u8]>> \{
"
        | some (.message m) =>
          t!"    pub fn as_{lower (Name.utf8 k.name)}(&self) -> Option<&{pathOf paths m.name}<'a>> \{
") ++ body.print ++ b!"    }\n" ∧
      ∀ (j : Nat) (x : Value), body.call g [(id "self", .data (.union j x))] = .pure (
        match k.itemType with
        | none => .bool (decide (i = j))
        | some _ => if i = j then .some (.data x) else .none) := by
  refine ⟨caseAccessor k, caseAccessor_print paths k, fun j x => ?_⟩
  rw [caseAccessor_call hc hk]
  unfold caseVal Union.asCase
  cases k.itemType <;> by_cases he : i = j <;> simp [he]

/-- C68: the unions of a compiled protocol whose discriminant ends on a fixed-width field have such
programs. -/
theorem C68_compiled {p : Profile} {solver : Resolver} {w w' : World} {v : Model.Protocol}
    {proto : Protocol} (h : Protocol.fromModel p solver w v = .ok (proto, w')) {g : Globals}
    (hl : Links g proto) {u : Union} (hu : u ∈ proto.unions) {a : Access}
    (ha : u.discriminant.access = some a)
    (hd : MethodsDistinct u.discriminant.root u.discriminant.indexList) (hc : Cases g u.cases)
    (hf : ∀ f : FixedField, Props.Ends f a → ∀ k ∈ u.cases, k.case < 256 ^ f.loc.rawSize) :
    ∃ ns leaf, Text.Chain u.discriminant.root u.discriminant.indexList ns (some leaf) ∧
      ∀ (key : Bytes) (env : Env) (on : Name), env.lookup on = some (.struct key) →
        (∀ b, (unionDecoder proto.typePathByName u ns leaf).call g
          ((id "discriminant", .view u.discriminant.root key) ::
            (if hasContent u then [(id "slice", .data (.buf b))] else [])) =
          decoded .data (u.parse g.c env on b)) ∧
        ∀ i x, i < u.cases.length → (unionEncoder proto.typePathByName u ns leaf).call g
          (if hasContent u then [(id "input", .data (.union i x)),
            (id "discriminant", .view u.discriminant.root key), (id "out", .writer)] else []) =
          encoded (u.write g.c env on (.union i x)) := by
  obtain ⟨_, _, _, _, _, _, huv⟩ := (compiled_parts h).2 u hu
  obtain ⟨ns, leaf, hch⟩ := C52_chain huv
  obtain ⟨leaf, rfl⟩ := chain_leaf hch (by
    intro hn
    simp only [Discriminant.access, hn] at ha
    cases ha)
  obtain ⟨f, a', rfl, hp⟩ := Path.of_chain hch hd
  have hw : a' = a := by
    have := hp.walk
    simp only [Discriminant.access, this, Option.some.injEq] at ha
    exact ha
  subst hw
  have hr := (compiled_resolves h hl).2 u hu
  have hf := hf f hp.ends
  exact ⟨ns, f.name, hch, fun key env on hk => ⟨fun b => unionDecoder_call hp hc hr hf hk,
    fun i x hi => unionEncoder_call hp hc hr hf hi hk⟩⟩

/-! ## Examples -/

namespace LangEx

/-- A key with a nested one, a scalar structure, messages with every kind of field, and a union. -/
def model : Model.Protocol :=
  { name := "p".toList
    structs := [
      ⟨"Inner".toList, [⟨"kind".toList, .unsigned 8, none, none⟩, ⟨"pad".toList, .unsigned 8, none, none⟩]⟩,
      ⟨"Key".toList, [⟨"n".toList, .unsigned 16, none, none⟩, ⟨"inner".toList, .struct "Inner".toList, none, none⟩]⟩]
    unions := [⟨"U".toList, "Key.inner.kind".toList,
      [⟨"A".toList, "1".toList, some "Inner".toList⟩, ⟨"B".toList, "2".toList, none⟩]⟩]
    messages := [
      ⟨"Leaf".toList, [⟨"name".toList, .string none, none⟩]⟩,
      ⟨"Root".toList, [⟨"key".toList, .item "Key".toList, none⟩, ⟨"leaf".toList, .item "Leaf".toList, some true⟩,
        ⟨"items".toList, .list 10 "Leaf".toList, none⟩, ⟨"u".toList, .union "key".toList "U".toList, none⟩]⟩] }

/-- The protocol, compiled. -/
def proto : Protocol :=
  match Protocol.fromModel .checked Resolver.none ⟨0, []⟩ model with
  | .ok (proto, _) => proto
  | _ => Protocol.empty model

theorem compiled : ∃ w', Protocol.fromModel .checked Resolver.none ⟨0, []⟩ model = .ok (proto, w') :=
  ⟨_, rfl⟩

/-- The structure `Inner`. -/
def inner : Structure :=
  .mk 0 "Inner".toList [.fixed ⟨"kind".toList, .u8, ⟨0, 0, 1, 8⟩, .none, .little⟩,
    .fixed ⟨"pad".toList, .u8, ⟨1, 0, 1, 8⟩, .none, .little⟩] 2 16

/-- The structure `Key`. -/
def key : Structure :=
  .mk 1 "Key".toList [.fixed ⟨"n".toList, .u16, ⟨0, 0, 2, 16⟩, .none, .little⟩,
    .struct "inner".toList inner ⟨2, 0, 2, 16⟩] 4 32

/-- The union `U`. -/
def union : Union :=
  .mk "U".toList ⟨key, inner, 0, [1, 0]⟩ [.mk "A".toList 1 (some (.struct inner)), .mk "B".toList 2 none]
    ⟨false, false⟩

/-- The message `Leaf`. -/
def leaf : Message :=
  .mk 2 "Leaf".toList [.mk "name".toList .nullTerminatedString false ⟨true, false⟩ .little] ⟨true, false⟩

/-- The message `Root`. -/
def root : Message :=
  .mk 3 "Root".toList
    [ .mk "key".toList (.ref (.struct key)) false ⟨false, false⟩ .little,
      .mk "leaf".toList (.ref (.message leaf)) true ⟨true, false⟩ .little,
      .mk "items".toList (.list .u8 leaf) false ⟨true, true⟩ .little,
      .mk "u".toList (.union union "key".toList 0) false ⟨false, false⟩ .little ] ⟨true, true⟩

theorem root_mem : root ∈ proto.messages := List.mem_of_getElem? (i := 1) rfl
theorem union_mem : union ∈ proto.unions := List.mem_of_getElem? (i := 0) rfl

/-- Default offsets. -/
def zero (_ : MField) : Val := .none

/-- Where the code of `Root` and of `U` runs. -/
def g : Globals :=
  { c := ⟨.checked, fun _ => true⟩, items := link proto, name := "Root".toList,
    fields := ["key".toList, "leaf".toList, "items".toList, "u".toList],
    offsets := root.fields.flatMap (declared zero), cases := [("A".toList, true), ("B".toList, false)] }

theorem links : Links g proto := link_links rfl (same_of_nodup (by decide +kernel))
theorem selfIs : SelfIs g root := ⟨rfl, rfl⟩
theorem keysPresent : KeysPresent root := keysPresent_of (by decide +kernel)
theorem hygienicOff : HygienicOff root.fields := by decide +kernel

/-- C66 applies to `Root`. -/
example (b : Bytes) (hb : b.length < 2 ^ 64) :
    (decoder proto.typePathByName (g.c.emb root.id) root).call g [(id "slice", .data (.buf b))] =
      decoded .data (root.parse g.c b) :=
  (C66_compiled compiled.choose_spec links root_mem selfIs keysPresent hygienicOff.base b hb).1

/-- A value of `Root`. -/
def value : Value :=
  .msg [("key".toList, .struct [7, 0, 1, 9]), ("leaf".toList, .some (.msg [("name".toList, .str b!"hi")])),
    ("items".toList, .seq ⟨b!"a\x00bb\x00", 2⟩), ("u".toList, .union 0 (.struct [3, 4]))]

/-- Its encoding. -/
def bytes : Bytes := [7, 0, 1, 9, 1] ++ b!"hi\x00" ++ [2] ++ b!"a\x00bb\x00" ++ [3, 4]

example : (decoder proto.typePathByName true root).call g [(id "slice", .data (.buf (bytes ++ [5])))] =
    .pure (.ok (.sized 16 (.data value))) := by krfl

example : (encoder proto.typePathByName root).call g [(id "input", .data value), (id "out", .writer)] =
    ⟨[[7, 0, 1, 9], [1], b!"hi", [0], [2], b!"a\x00bb\x00", [3, 4]], .ok (.ok .unit)⟩ := by rfl

theorem leaf_repr {s : Bytes} (hu : IsUtf8 s) (h0 : 0 ∉ s) :
    leaf.Repr g.c (.msg [("name".toList, .str s)]) := by
  simp only [leaf, Message.Repr, MField.ListRepr]
  refine ⟨_, rfl, _, _, rfl, ?_, rfl⟩
  simp only [MField.Repr, MFieldTy.Repr, Bool.false_eq_true, if_false]
  exact ⟨s, rfl, hu, h0⟩

theorem value_repr : root.Repr g.c value := by
  simp only [root, value, Message.Repr, MField.ListRepr]
  refine ⟨_, rfl, _, _, rfl, ?_, _, _, rfl, ?_, _, _, rfl, ?_, _, _, rfl, ?_, rfl⟩
  · simp only [MField.Repr, MFieldTy.Repr, Referenced.Repr, Bool.false_eq_true, if_false]
    exact ⟨_, rfl, rfl⟩
  · simp only [MField.Repr, MFieldTy.Repr, Referenced.Repr, if_true]
    exact .inr ⟨_, rfl, leaf_repr (isUtf8_ascii _ (by decide)) (by decide)⟩
  · simp only [MField.Repr, MFieldTy.Repr, Bool.false_eq_true, if_false]
    refine ⟨_, rfl, by decide, fun _ => ⟨[.msg [("name".toList, .str b!"a")], .msg [("name".toList, .str b!"bb")]],
      rfl, ?_, by rfl⟩⟩
    intro x hx
    simp only [List.mem_cons, List.not_mem_nil, or_false] at hx
    rcases hx with rfl | rfl <;> exact leaf_repr (isUtf8_ascii _ (by decide)) (by decide)
  · simp only [MField.Repr, MFieldTy.Repr, union, Union.Repr, Bool.false_eq_true, if_false]
    refine ⟨0, .struct [3, 4], 1, rfl, by rfl, ?_⟩
    simp only [UCase.ReprCase, Referenced.Repr]
    exact ⟨trivial, _, rfl, rfl⟩

/-- C67 applies to `Root` and `value`. -/
example : ∃ chunks : List Bytes,
    (encoder proto.typePathByName root).call g [(id "input", .data value), (id "out", .writer)] =
      ⟨chunks, .ok (.ok .unit)⟩ ∧ chunks.flatten = root.wire value := by
  obtain ⟨chunks, h1, h2, _⟩ := C67_roundtrip compiled.choose_spec links root_mem selfIs keysPresent
    hygienicOff.base (by decide +kernel) value_repr
  exact ⟨chunks, h1, h2⟩

/-- C66 applies to the offsets of `Root`. -/
example (b : Bytes) (hb : b.length < 2 ^ 64) :
    (offsetsDecoder proto.typePathByName (g.c.emb root.id) root).call g [(id "slice", .data (.buf b))] =
      decoded (fun r => .pair (.data r.1) (offVal r.2)) (root.parseOff g.c b) :=
  (C66_compiled compiled.choose_spec links root_mem selfIs keysPresent hygienicOff.base b hb).2 zero rfl
    hygienicOff

/-- C68 applies to `U`. -/
example : ∃ ns leaf, Text.Chain key [1, 0] ns (some leaf) ∧
    ∀ (k : Bytes) (env : Env) (on : Name), env.lookup on = some (.struct k) → ∀ b,
      (unionDecoder proto.typePathByName union ns leaf).call g
        [(id "discriminant", .view key k), (id "slice", .data (.buf b))] =
      decoded .data (union.parse g.c env on b) := by
  obtain ⟨ns, leaf, h1, h2⟩ := C68_compiled compiled.choose_spec links union_mem (a := .nested ⟨2, 0, 2, 16⟩
    (.fixed ⟨"kind".toList, .u8, ⟨0, 0, 1, 8⟩, .none, .little⟩)) rfl
    ⟨by decide +kernel, by decide +kernel, trivial⟩ ⟨rfl, by decide⟩ (by
      intro f hf k hk
      simp only [Props.Ends] at hf
      subst hf
      simp only [union, Union.cases, List.mem_cons, List.not_mem_nil, or_false] at hk
      rcases hk with rfl | rfl <;> decide)
  exact ⟨ns, leaf, h1, fun k env on hk b => (h2 k env on hk).1 b⟩

/-! ### Names that collide -/

/-- A message of numbers. -/
def bad (names : List String) : Message :=
  .mk 0 ['M'] (names.map fun n => .mk n.toList (.fixed .u8) false ⟨false, false⟩ .little) ⟨false, false⟩

/-- Where its code runs. -/
def gBad (names : List String) : Globals :=
  { c := ⟨.checked, fun _ => false⟩, items := fun _ => none, name := ['M'],
    fields := names.map String.toList, offsets := (bad names).fields.flatMap (declared zero), cases := [] }

/-- Running its decoder. -/
def runBad (names : List String) : Run Val :=
  (decoder [] false (bad names)).call (gBad names) [(id "slice", .data (.buf [1, 2]))]

/-- Running its decoder recording offsets. -/
def runBadOff (names : List String) : Run Val :=
  (offsetsDecoder [] false (bad names)).call (gBad names) [(id "slice", .data (.buf [1, 2]))]

end LangEx

/-- C66: every condition on names is needed: the compiler accepts these messages, their decoders are
not Rust programs. -/
theorem C66_names_needed :
    (∀ names ∈ [["byte_offset", "x"], ["slice", "x"], ["x_msg", "x"], ["x", "x"]],
      LangEx.runBad names = .stuck) ∧
    (∀ names ∈ [["offsets", "x"]], LangEx.runBadOff names = .stuck) ∧
    LangEx.runBad ["x", "slice"] = decoded .data ((LangEx.bad ["x", "slice"]).parse ⟨.checked, fun _ => false⟩ [1, 2]) := by
  refine ⟨?_, ?_, ?_⟩
  · intro names h
    simp only [List.mem_cons, List.not_mem_nil, or_false] at h
    rcases h with rfl | rfl | rfl | rfl <;> rfl
  · intro names h
    simp only [List.mem_cons, List.not_mem_nil, or_false] at h
    subst h
    rfl
  · rfl

/-- C68: the condition on the values of cases is needed: a literal that does not fit the type of the
discriminant is not a Rust program. -/
theorem C68_value_needed :
    (unionDecoder [] (.mk ['U'] ⟨LangEx.inner, LangEx.inner, 0, [0]⟩ [.mk ['A'] 300 none] ⟨false, false⟩) []
      "kind".toList).call { LangEx.g with cases := [(['A'], false)] }
      [(id "discriminant", .view LangEx.inner [1, 2])] = .stuck := by rfl

end Proto.Rs
