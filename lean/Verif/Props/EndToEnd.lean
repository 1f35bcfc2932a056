import Verif.Props.Lang
import Verif.Props.AccessorViews
import Verif.Props.Driver
import Verif.Props.Loader
import Verif.Props.Input

/-!
# C84: from what the build script loads to what the generated files do
-/

namespace Proto.Rs

open Proto.Text Proto.Props
open Proto.Drv (Plans plan outcome nonTrivial fileOps)

/-- What generating one protocol after the other writes for each of them. -/
theorem Plans.writes {g : Generator} {fs : Fs} {out : Bytes} {c : Protoc} {t ops : List FsOp}
    {ps : List Protocol} {rs : List Proto} (h : Plans g fs out c t ps ops rs) :
    ∀ proto ∈ ps, ∃ files, g.generate proto = .ok files ∧
      ∀ f ∈ files, c.enabled f.ty = true → 1 < f.data.length →
        .write (Path.join (Path.join out (Name.utf8 proto.name)) f.name) f.data ∈ ops := by
  induction h with
  | nil => simp
  | @cons t p ps ops r rs there ht hr hok rest ih =>
    intro proto hp
    rcases List.mem_cons.1 hp with rfl | hp
    · unfold outcome at hr
      cases hg : g.generate proto with
      | err e => rw [hg] at hr; cases hr
      | panic => rw [hg] at hr; cases hr
      | ok files =>
        refine ⟨files, rfl, fun f hf he hl => List.mem_append_left _ ?_⟩
        unfold plan
        rw [hg]
        refine List.mem_cons_of_mem _ (List.mem_append_left _ (List.mem_append_right _ ?_))
        refine List.mem_flatMap.2 ⟨f, ?_, ?_⟩
        · simp [nonTrivial, hf, he, hl]
        · simp [fileOps]
    · obtain ⟨files, h1, h2⟩ := ih proto hp
      exact ⟨files, h1, fun f hf he hl => List.mem_append_right _ (h2 f hf he hl)⟩

theorem infix_intercalate (sep : Bytes) {xs : List Bytes} {x : Bytes} (h : x ∈ xs) :
    x <:+: sep.intercalate xs := by
  induction xs with
  | nil => cases h
  | cons y ys ih =>
    cases ys with
    | nil => simp at h; subst h; simp
    | cons z zs =>
      rw [List.intercalate_cons_cons]
      rcases List.mem_cons.1 h with rfl | h
      · rw [List.append_assoc]
        exact (List.prefix_append _ _).isInfix
      · exact (ih h).trans (List.suffix_append _ _).isInfix

/-- What a successful run of the build script means for one of the models loaded. -/
theorem built {lib : Lib} {emb : Nat → Bool} {fs : Fs} {loader : Loader}
    {configure : Protoc → Protoc} {out : Bytes} {t : List FsOp} {lines : List Bytes}
    (h : generateRust .checked (Rust.generator lib .checked emb) fs (some loader) configure (some out) =
      (t, .ok lines))
    (hc : ∀ ps, (configure (Protoc.new ps)).protocols = ps)
    {v : Model.Protocol} (hv : v ∈ loader.models) :
    ∃ solver w w' proto, Protocol.fromModel .checked solver w v = .ok (proto, w') ∧
      (∀ x ∈ proto.structsByName, x.2.WF) ∧ proto.endianness = .little ∧
      ∃ names ps, ∀ f ∈ files lib emb proto names, (configure (Protoc.new ps)).enabled f.ty = true →
        1 < f.data.length → .write (Path.join (Path.join out (Name.utf8 v.name)) f.name) f.data ∈ t := by
  obtain ⟨loader', protos, w, out', rs, hl, ho, hcomp, hgen, -⟩ := (C63_prints ..).mp h
  cases hl
  cases ho
  obtain ⟨hlen, hnames, s', w1, -, hall⟩ := C50_order hcomp
  obtain ⟨i, hi, rfl⟩ := List.mem_iff_getElem.1 hv
  have hi' : i < protos.length := by omega
  obtain ⟨wi, wj, hfm⟩ := hall i hi' hi
  have hname : protos[i].name = loader.models[i].name := by
    have := congrArg (fun l => l[i]?) hnames
    simpa [hi, hi'] using this
  have hp : protos[i] ∈ protos := List.getElem_mem _
  generalize hq : protos[i] = proto at hfm hname hp
  have c := heapClosed .checked (fun _ => True) Structure.WF
    (fun structs enums id v s _ hs h => Structure.fromModel_WF hs h (.inl rfl))
  obtain ⟨T, _, _, hT⟩ := c.compile (k := fun _ => none) (fun _ _ => rfl)
    (by intro x hx; cases hx) (fun _ _ _ _ => trivial) (fun _ _ _ _ => trivial) hcomp
  refine ⟨_, _, _, _, hfm, fun x hx => ((hT proto hp).structsByName x hx).2, (hT proto hp).little, ?_⟩
  obtain ⟨ops, rfl, hplans⟩ := (C57_all ..).mp hgen
  rw [hc] at hplans
  obtain ⟨files, hfiles, hw⟩ := Plans.writes hplans proto hp
  obtain ⟨names, -, hf'⟩ := (C52_compiled_iff rfl hcomp hp lib emb).2 (by rw [hfiles]; simp)
  rw [hfiles] at hf'
  cases hf'
  rw [hname] at hw
  exact ⟨names, protos, fun f hf he hl => hw f hf he hl⟩

/-- C84: when the build script succeeds with reading and writing of messages enabled, every model loaded
is compiled, and for each of its messages the files `messages_from_slice.rs` and `messages_write.rs`
written in the directory of the protocol contain a decoder and an encoder.  The decoder is the decoder of
the message; what the encoder writes is the wire form, and the decoder reads it back. -/
theorem C84_messages {lib : Lib} {emb : Nat → Bool} {fs : Fs} {loader : Loader}
    {configure : Protoc → Protoc} {out : Bytes} {t : List FsOp} {lines : List Bytes}
    (h : generateRust .checked (Rust.generator lib .checked emb) fs (some loader) configure (some out) =
      (t, .ok lines))
    (hc : ∀ ps, (configure (Protoc.new ps)).protocols = ps)
    (hrd : ∀ ps, (configure (Protoc.new ps)).enabled .messageReading = true)
    (hwr : ∀ ps, (configure (Protoc.new ps)).enabled .messageWriting = true)
    {v : Model.Protocol} (hv : v ∈ loader.models) :
    ∃ solver w w' proto, Protocol.fromModel .checked solver w v = .ok (proto, w') ∧
      ∀ m ∈ proto.messages, ∃ (dec enc : Body) (rd wr : Bytes),
        .write (Path.join (Path.join out (Name.utf8 v.name)) b!"messages_from_slice.rs") rd ∈ t ∧
        t!"impl<'a> bp3d_proto::message::FromSlice<'a> for {Name.utf8 m.name}{messageGenerics m} \{
    type Output = Self;
    fn from_slice(slice: &'a [u8]) -> bp3d_proto::message::Result<bp3d_proto::message::Message<Self>> \{
{dec.print}    }
}
" <:+: rd ∧
        .write (Path.join (Path.join out (Name.utf8 v.name)) b!"messages_write.rs") wr ∈ t ∧
        t!"impl{messageGenerics m} bp3d_proto::message::WriteTo for {Name.utf8 m.name}{messageGenerics m} \{
    type Input = Self;
    fn write_to<W: std::io::Write>(input: &Self, mut out: W) -> bp3d_proto::message::Result<()> \{
{enc.print}    }
}
" <:+: wr ∧
        ∀ g : Globals, g.c.emb = emb → Links g proto → SelfIs g m → KeysPresent m → Hygienic m.fields →
          (∀ b : Bytes, b.length < 2 ^ 64 →
            dec.call g [(id "slice", .data (.buf b))] = decoded .data (m.parse g.c b)) ∧
          (m.tailGreedy emb = true → ∀ x, m.Repr g.c x → ∃ chunks : List Bytes,
            enc.call g [(id "input", .data x), (id "out", .writer)] = ⟨chunks, .ok (.ok .unit)⟩ ∧
            chunks.flatten = m.wire x ∧
            (chunks.flatten.length < 2 ^ 64 →
              dec.call g [(id "slice", .data (.buf chunks.flatten))] =
                .pure (.ok (.sized chunks.flatten.length (.data x))))) := by
  obtain ⟨solver, w, w', proto, hfm, -, -, names, ps, hw⟩ := built h hc hv
  refine ⟨_, _, _, _, hfm, fun m hm => ?_⟩
  have hinf1 := infix_intercalate b!"\n" (List.mem_map_of_mem (f := fun m => fromSliceText proto.typePathByName (emb m.id) m) hm)
  have hinf2 := infix_intercalate b!"\n" (List.mem_map_of_mem (f := writeText proto.typePathByName) hm)
  rw [decoder_print] at hinf1
  rw [encoder_print] at hinf2
  have h1 := hw ⟨b!"messages_from_slice.rs", _, .messageReading⟩ (List.mem_of_getElem? (i := 1) rfl) (hrd _)
    (Nat.lt_of_lt_of_le (Nat.succ_lt_succ (Nat.succ_pos _)) hinf1.length_le)
  have h2 := hw ⟨b!"messages_write.rs", _, .messageWriting⟩ (List.mem_of_getElem? (i := 2) rfl) (hwr _)
    (Nat.lt_of_lt_of_le (Nat.succ_lt_succ (Nat.succ_pos _)) hinf2.length_le)
  refine ⟨decoder proto.typePathByName (emb m.id) m, encoder proto.typePathByName m, _, _, h1, hinf1, h2, hinf2, ?_⟩
  rintro g rfl hl hs hk hh
  exact ⟨fun b hb => (C66_compiled hfm hl hm hs hk hh b hb).1,
    fun ht x hx => C67_roundtrip hfm hl hm hs hk hh ht hx⟩

theorem addImport_types {solver : Resolver} {proto proto' : Protocol} {v : Model.Import}
    (h : Protocol.addImport solver proto v = .ok proto') :
    proto'.structs = proto.structs ∧ proto'.enums = proto.enums ∧ proto'.endianness = proto.endianness := by
  unfold Protocol.addImport at h
  obtain ⟨r, _, h⟩ := Res.bind_eq_ok.1 h
  split at h
  · obtain ⟨path, _, h⟩ := Res.bind_eq_ok.1 h
    cases h
    exact ⟨rfl, rfl, rfl⟩
  · split at h
    · obtain ⟨path, _, h⟩ := Res.bind_eq_ok.1 h
      cases h
      exact ⟨rfl, rfl, rfl⟩
    · split at h
      · obtain ⟨path, _, h⟩ := Res.bind_eq_ok.1 h
        cases h
        exact ⟨rfl, rfl, rfl⟩
      · obtain ⟨m, _, h⟩ := Res.bind_eq_ok.1 h
        obtain ⟨path, _, h⟩ := Res.bind_eq_ok.1 h
        cases h
        exact ⟨rfl, rfl, rfl⟩

theorem addImports_types {solver : Resolver} {vs : List Model.Import} {proto proto' : Protocol}
    (h : Protocol.addImports solver proto vs = .ok proto') :
    proto'.structs = proto.structs ∧ proto'.enums = proto.enums ∧ proto'.endianness = proto.endianness := by
  induction vs generalizing proto with
  | nil => cases h; exact ⟨rfl, rfl, rfl⟩
  | cons v vs ih =>
    obtain ⟨proto1, h1, h⟩ := Res.bind_eq_ok.1 h
    have e1 := addImport_types h1
    have e2 := ih h
    exact ⟨e2.1.trans e1.1, e2.2.1.trans e1.2.1, e2.2.2.trans e1.2.2⟩

theorem infix_all {α : Type} (f : α → Bytes) {xs : List α} {x : α} (h : x ∈ xs) :
    f x <:+: all f xs := by
  obtain ⟨a, b, rfl⟩ := List.append_of_mem h
  rw [all_append, all_cons]
  exact ⟨all f a, all f b, by simp [List.append_assoc]⟩

theorem infix_mid (a b c x d : Bytes) : x <:+: a ++ (b ++ (c ++ (x ++ d))) :=
  ⟨a ++ (b ++ c), d, by simp [List.append_assoc]⟩

theorem head_infix (lib : Lib) (paths : List (Name × Name)) (s : Structure) :
    structureHead lib s <:+: structureText lib paths s := by
  unfold structureText
  rw [List.append_assoc]
  exact (List.prefix_append _ _).isInfix

/-- C84: when the build script succeeds with structures enabled, every structure declared is compiled
against those declared before it and those imported, and the file `structures.rs` written in the directory
of the protocol contains its declaration and the accessors of its fields (C69, C82). -/
theorem C84_structures {lib : Lib} {emb : Nat → Bool} {fs : Fs} {loader : Loader}
    {configure : Protoc → Protoc} {out : Bytes} {t : List FsOp} {lines : List Bytes}
    (h : generateRust .checked (Rust.generator lib .checked emb) fs (some loader) configure (some out) =
      (t, .ok lines))
    (hc : ∀ ps, (configure (Protoc.new ps)).protocols = ps)
    (hst : ∀ ps, (configure (Protoc.new ps)).enabled .structure = true)
    {v : Model.Protocol} (hv : v ∈ loader.models) :
    ∃ solver w w' proto p1, Protocol.fromModel .checked solver w v = .ok (proto, w') ∧
      Protocol.addImports solver (Protocol.empty v) v.imports = .ok p1 ∧
      ∀ j d, v.structs[j]? = some d → ∃ s st, proto.structs[j]? = some s ∧
        .write (Path.join (Path.join out (Name.utf8 v.name)) b!"structures.rs") st ∈ t ∧
        structureHead lib s <:+: st ∧
        (∀ i x k m, Acc.Generated lib proto.typePathByName s i x k m →
          Acc.Fn.print lib k <:+: st ∧ Acc.Fn.print lib m <:+: st) ∧
        ∀ i f, d.fields[i]? = some f → f.arrayLen = none → s.WellPlaced →
          Compiled .checked (scope Structure.name (proto.structs.take j) p1.structsByName)
            (scope Enum.name proto.enums p1.enumsByName) d s i f := by
  obtain ⟨solver, w, w', proto, hfm, hwf, hle, names, ps, hw⟩ := built h hc hv
  obtain ⟨p1, p2, p3, p4, next, h1, h2, h3, h4, h5⟩ := (C44_phases ..).1 hfm
  refine ⟨_, _, _, _, p1, hfm, h1, fun j d hj => ?_⟩
  obtain ⟨es0, ee0, el0⟩ := addImports_types h1
  obtain ⟨es, hle2, rfl, _⟩ := (C44_enums ..).1 h2
  obtain ⟨ss, hls, _, rfl, hss⟩ := (C44_structs ..).1 h3
  obtain ⟨us, hlu, rfl, hu⟩ := (C44_unions ..).1 h4
  obtain ⟨ms, embs, hlm, _, _, rfl, hm⟩ := (C44_messages ..).1 h5
  simp only [Protocol.empty] at es0 ee0 el0
  simp only at hss hwf hle hw
  simp only [es0, ee0, List.nil_append]
  obtain ⟨hj1, rfl⟩ := List.getElem?_eq_some_iff.1 hj
  have hj2 : j < ss.length := by omega
  have hcs := hss j hj2 hj1
  rw [hle] at hcs
  generalize hsj : ss[j] = s at hcs
  have hmem : s ∈ ss := hsj ▸ List.getElem_mem _
  have hinf := infix_intercalate b!"\n"
    (List.mem_map_of_mem (f := structureText lib p1.typePathByName) hmem)
  have hin : structureHead lib s <:+: structureText lib p1.typePathByName s :=
    (head_infix lib _ s)
  have hlen : 1 < (spaced (ss.map (structureText lib p1.typePathByName))).length :=
    Nat.lt_of_lt_of_le (Nat.succ_lt_succ (Nat.succ_pos _)) (hin.trans hinf).length_le
  have hwr := hw ⟨b!"structures.rs", spaced (ss.map (structureText lib p1.typePathByName)), .structure⟩
    (List.mem_of_getElem? (i := 4) (by simp [files, es0])) (hst _) hlen
  refine ⟨s, _, by rw [List.getElem?_eq_getElem hj2, hsj], hwr, ?_⟩
  refine ⟨hin.trans hinf, ?_, ?_⟩
  · intro i x k m hg
    obtain ⟨f, rest, hf, ht⟩ := hg.getter
    obtain ⟨f', rest', hf', ht'⟩ := hg.setter
    have h1 := infix_all (fieldGetter lib p1.typePathByName) (List.mem_of_getElem? hf)
    have h2 := infix_all (fieldSetter lib p1.typePathByName) (List.mem_of_getElem? hf')
    rw [ht] at h1
    rw [ht'] at h2
    constructor
    · refine (List.IsInfix.trans ?_ h1).trans (List.IsInfix.trans ?_ hinf)
      · exact (List.suffix_append _ _).isInfix
      · unfold structureText
        refine List.IsInfix.trans ?_ (List.prefix_append _ _).isInfix
        refine List.IsInfix.trans ?_ (List.suffix_append _ _).isInfix
        exact infix_mid ..
    · refine (List.IsInfix.trans ?_ h2).trans (List.IsInfix.trans ?_ hinf)
      · exact (List.suffix_append _ _).isInfix
      · unfold structureText
        refine List.IsInfix.trans ?_ (List.suffix_append _ _).isInfix
        exact infix_mid ..
  · intro i f hi ha hp
    refine ⟨fun n r hl => ?_, ⟨_, hcs⟩, .inl rfl, hp, hi, ha⟩
    refine hwf (n, r) ?_
    have hx := mem_of_lookup hl
    simp only [scope, List.mem_append, List.mem_map, List.mem_reverse] at hx ⊢
    rcases hx with ⟨y, hy, e⟩ | hx
    · exact .inl ⟨y, List.mem_of_mem_take hy, e⟩
    · exact .inr hx

/-- C84, for an unsigned field of a protocol description in a file: the file `structures.rs` written for
it contains a getter and a setter named after the field.  On every buffer that holds the structure, the
getter returns the field's bits, which follow those of the fields declared before, and the setter stores
the low bits of its argument there and changes nothing else. -/
theorem C84_unsigned {lib : Lib} {emb : Nat → Bool} {fs : Fs} {loader : Loader}
    {configure : Protoc → Protoc} {out : Bytes} {t : List FsOp} {lines : List Bytes}
    {serde : Proto.Input.Serde} {disk : Proto.Input.Files} {path : Name}
    (hload : Proto.Input.load serde disk Loader.new path = .ok loader)
    (h : generateRust .checked (Rust.generator lib .checked emb) fs (some loader) configure (some out) =
      (t, .ok lines))
    (hc : ∀ ps, (configure (Protoc.new ps)).protocols = ps)
    (hst : ∀ ps, (configure (Protoc.new ps)).enabled .structure = true) :
    ∃ content json v solver w w' proto p1, disk.read path = some content ∧
      disk.json5 content = some json ∧ Spec.Input.IsProtocol serde json v ∧
      Protocol.fromModel .checked solver w v = .ok (proto, w') ∧
      Protocol.addImports solver (Protocol.empty v) v.imports = .ok p1 ∧
      ∀ j d, v.structs[j]? = some d → ∃ s st, proto.structs[j]? = some s ∧
        .write (Path.join (Path.join out (Name.utf8 v.name)) b!"structures.rs") st ∈ t ∧
        (s.WellPlaced → Acc.NamesApart s → ∀ i f n, d.fields[i]? = some f → f.arrayLen = none →
          f.info = .unsigned n → f.view = none →
          ∀ g : Acc.Globals, g.p = .checked → g.structure_ = s →
            Acc.EnumPaths g proto.typePathByName s → ∃ pos k m ty,
          pos = declTotal (scope Structure.name (proto.structs.take j) p1.structsByName)
            (d.fields.take i) ∧
          Acc.Fn.print lib k <:+: st ∧ Acc.Fn.print lib m <:+: st ∧
          k.name = "get_".toList ++ f.name ∧ m.name = "set_".toList ++ f.name ∧ Acc.Holds ty n ∧
          ∀ buf : Bytes, s.byteSize ≤ buf.length → buf.length < 2 ^ 64 →
            k.call g buf none = .ok (buf, some (.uint ty (Spec.bitsLE buf pos n))) ∧
            ∀ x, ∃ b, m.call g buf (some (.uint ty x)) = .ok (b, none) ∧
              Spec.BitsReplaced buf b pos n x ∧
              (x < 2 ^ n → k.call g b none = .ok (b, some (.uint ty x)))) := by
  obtain ⟨content, json, v, h1, h2, h3, h4, -⟩ := Input.C71_load hload
  have hv : v ∈ loader.models := by rw [h4]; simp
  obtain ⟨solver, w, w', proto, p1, hfm, him, hall⟩ := C84_structures h hc hst hv
  refine ⟨content, json, v, solver, w, w', proto, p1, h1, h2, h3, hfm, him, fun j d hd => ?_⟩
  obtain ⟨s, st, hs, hw, -, hgen, hcomp⟩ := hall j d hd
  refine ⟨s, st, hs, hw, fun hp hn i f n hf ha hty hview g hg hgs he => ?_⟩
  obtain ⟨k, m, ty, hkm, hh, hrun⟩ := Acc.C69_unsigned (hcomp i f hf ha hp) hty hview hn lib
    proto.typePathByName hg hgs he
  obtain ⟨i1, i2⟩ := hgen _ _ _ _ hkm
  exact ⟨_, k, m, ty, rfl, i1, i2, hkm.getName, hkm.setName, hh, hrun⟩

/-! ## Examples -/

namespace EndEx

/-- Letters stay as they are; numbers and paths are written somehow. -/
def lib : Lib := ⟨⟨fun b => b, fun b => b⟩, fun _ => b!"0.0", fun p => b!"\"" ++ p ++ b!"\""⟩

/-- Reading and writing messages. -/
def configure (c : Protoc) : Protoc := (c.setWritesMessages true).setReadsMessages true

/-- The build script for the protocol of `LangEx`, where every operation succeeds. -/
def run : List FsOp × Res Empty (List Bytes) :=
  generateRust .checked (Rust.generator lib .checked fun _ => true) (fun _ _ => true)
    (some (Loader.new.load LangEx.model)) configure (some b!"o")

set_option maxRecDepth 100000 in
theorem printed : (match run.2 with | .ok l => l | _ => []) =
    [b!"cargo::rustc-env=BP3D_PROTOC_P=o/p/umbrella.rs"] := by decide +kernel

theorem run_ok : ∃ t lines, run = (t, .ok lines) := by
  have h := printed
  cases hr : run with
  | mk t r =>
    rw [hr] at h
    cases r with
    | ok l => exact ⟨t, l, rfl⟩
    | err e => cases e
    | panic => cases h

/-- C84 applies to the messages of the protocol. -/
example : ∃ t lines rd, run = (t, .ok lines) ∧ .write b!"o/p/messages_from_slice.rs" rd ∈ t := by
  obtain ⟨t, lines, h⟩ := run_ok
  obtain ⟨_, _, _, proto, hfm, hall⟩ := C84_messages h (fun _ => rfl) (fun _ => rfl) (fun _ => rfl)
    (v := LangEx.model) (List.mem_singleton.2 rfl)
  obtain ⟨p1, p2, p3, p4, next, h1, h2, h3, h4, h5⟩ := (C44_phases ..).1 hfm
  obtain ⟨ms, embs, hl, _, _, rfl, _⟩ := (C44_messages ..).1 h5
  obtain ⟨m, hm⟩ : ∃ m, m ∈ ms := by
    cases ms with
    | nil => cases hl
    | cons m _ => exact ⟨m, by simp⟩
  obtain ⟨_, _, rd, _, hw, _⟩ := hall m (List.mem_append_right _ hm)
  have e : Path.join (Path.join b!"o" (Name.utf8 LangEx.model.name)) b!"messages_from_slice.rs" =
      b!"o/p/messages_from_slice.rs" := by decide +kernel
  exact ⟨t, lines, rd, h, e ▸ hw⟩

/-- C84 applies to the structures of the protocol. -/
example : ∃ t lines st, run = (t, .ok lines) ∧ .write b!"o/p/structures.rs" st ∈ t := by
  obtain ⟨t, lines, h⟩ := run_ok
  obtain ⟨_, _, _, proto, p1, hfm, _, hall⟩ := C84_structures h (fun _ => rfl) (fun _ => rfl)
    (v := LangEx.model) (List.mem_singleton.2 rfl)
  obtain ⟨_, st, _, hw, _⟩ := hall 0 _ rfl
  have e : Path.join (Path.join b!"o" (Name.utf8 LangEx.model.name)) b!"structures.rs" =
      b!"o/p/structures.rs" := by decide +kernel
  exact ⟨t, lines, st, h, e ▸ hw⟩

end EndEx

end Proto.Rs
