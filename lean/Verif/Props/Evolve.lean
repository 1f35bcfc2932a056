import Verif.Props.Message
import Verif.Props.Protocol
import Verif.Props.Struct

/-!
# C95-C98: changing a schema

Appending fields to messages and structures, appending cases to unions, and renaming fields.
-/

namespace Proto.Props

open Proto Spec

/-! ## C95: appending fields to a message -/

theorem runFields_prefix {step : MField → Env → Parser Value} {fs gs : List MField} {env env' : Env} {b : Bytes}
    {n' : Nat} (h : runFields step (fs ++ gs) env b = .ok (n', env')) :
    ∃ n k envm, runFields step fs env b = .ok (n, envm) ∧ runFields step gs envm (b.drop n) = .ok (k, env') ∧
      n' = n + k ∧ envm.length = env.length + fs.length := by
  induction fs generalizing env b n' with
  | nil => exact ⟨0, n', env, rfl, by simpa using h, by omega, by simp⟩
  | cons f fs ih =>
    rw [List.cons_append] at h
    obtain ⟨m, v, k, h1, h2, rfl⟩ := runFields_cons_ok.1 h
    obtain ⟨n, k', envm, h3, h4, rfl, h5⟩ := ih h2
    refine ⟨m + n, k', envm, runFields_cons_ok.2 ⟨m, v, n, h1, h3, rfl⟩, ?_, by omega, ?_⟩
    · rwa [List.drop_drop] at h4
    · rw [h5]
      simp
      omega

theorem runFields_stops {step : MField → Env → Parser Value} {fs : List MField} (gs : List MField) {env : Env} {b : Bytes} :
    (∀ e, runFields step fs env b = .err e → runFields step (fs ++ gs) env b = .err e) ∧
    (runFields step fs env b = .panic → runFields step (fs ++ gs) env b = .panic) ∧
    ∀ n envm, runFields step fs env b = .ok (n, envm) →
      (∀ e, runFields step gs envm (b.drop n) = .err e → runFields step (fs ++ gs) env b = .err e) ∧
      (runFields step gs envm (b.drop n) = .panic → runFields step (fs ++ gs) env b = .panic) ∧
      ∀ k env', runFields step gs envm (b.drop n) = .ok (k, env') →
        runFields step (fs ++ gs) env b = .ok (n + k, env') := by
  induction fs generalizing env b with
  | nil =>
    refine ⟨nofun, nofun, fun n envm h => ?_⟩
    cases h
    simp
  | cons f fs ih =>
    rw [List.cons_append]
    simp only [runFields]
    cases h : step f env b with
    | err e => simp
    | panic => simp
    | ok msg =>
      simp only
      obtain ⟨i1, i2, i3⟩ := ih (env := env ++ [(f.name, msg.data)]) (b := b.drop msg.size)
      cases h' : runFields step fs (env ++ [(f.name, msg.data)]) (b.drop msg.size) with
      | err e => simp [i1 e h']
      | panic => simp [i2 h']
      | ok r =>
        obtain ⟨j1, j2, j3⟩ := i3 r.1 r.2 h'
        simp only [List.drop_drop] at j1 j2 j3
        refine ⟨nofun, nofun, fun n envm e => ?_⟩
        cases e
        refine ⟨fun e he => ?_, fun he => ?_, fun k env' he => ?_⟩
        · rw [j1 e he]
        · rw [j2 he]
        · rw [j3 k env' he, Nat.add_assoc]

/-- C95: a reader of a message reads whatever a reader of the message with fields appended reads, with the
same values, and reports a size that is not larger. -/
theorem C95_old_reader {c : Ctx} {m m' : Message} {rest : List MField} (hf : m'.fields = m.fields ++ rest)
    (he : c.emb m'.id = c.emb m.id) {b : Bytes} {n' : Nat} {env' : List (Name × Value)}
    (h : m'.parse c b = .ok ⟨n', .msg env'⟩) :
    ∃ n, n ≤ n' ∧ m.parse c b = .ok ⟨n, .msg (env'.take m.fields.length)⟩ := by
  obtain ⟨vs, hvs, h⟩ := Message.parse_eq_ok.1 h
  cases hvs
  rw [hf, he] at h
  obtain ⟨n, k, envm, h1, h2, rfl, hl⟩ := runFields_prefix h
  refine ⟨n, by omega, Message.parse_eq_ok.2 ⟨_, rfl, ?_⟩⟩
  obtain ⟨r, e⟩ := runFields_env h2
  rw [h1, e, ← show envm.length = m.fields.length by simpa using hl, List.take_left]

namespace Ex

/-- `item`, then a number. -/
def longer : Message :=
  .mk 20 "Item".toList
    [ .mk "x".toList (.fixed .u16) false ⟨false, false⟩ .little,
      .mk "s".toList .nullTerminatedString true ⟨true, false⟩ .little,
      .mk "y".toList (.fixed .u8) false ⟨false, false⟩ .little ] ⟨true, false⟩

/-- `item`, then an optional number. -/
def perhaps : Message :=
  .mk 20 "Item".toList
    [ .mk "x".toList (.fixed .u16) false ⟨false, false⟩ .little,
      .mk "s".toList .nullTerminatedString true ⟨true, false⟩ .little,
      .mk "y".toList (.fixed .u8) true ⟨false, false⟩ .little ] ⟨true, false⟩

def longerV : List (Name × Value) := [("x".toList, .num 513), ("s".toList, .none), ("y".toList, .num 9)]

theorem longer_parse : longer.parse ctx [1, 2, 0, 9] = .ok ⟨4, .msg longerV⟩ := by rfl

end Ex

example : ∃ n, n ≤ 4 ∧ Ex.item.parse Ex.ctx [1, 2, 0, 9] = .ok ⟨n, .msg (Ex.longerV.take 2)⟩ :=
  C95_old_reader (m := Ex.item) (m' := Ex.longer) rfl rfl Ex.longer_parse

/-- C95: so it reads what a writer of the longer message wrote. -/
theorem C95_old_reads_new {c : Ctx} {m m' : Message} {rest : List MField} (hf : m'.fields = m.fields ++ rest)
    (he : c.emb m'.id = c.emb m.id) (hg : m'.tailGreedy c.emb = true) {env' : List (Name × Value)}
    (hv : m'.Repr c (.msg env')) :
    ∃ n, n ≤ (m'.write c (.msg env')).bytes.length ∧
      m.parse c (m'.write c (.msg env')).bytes = .ok ⟨n, .msg (env'.take m.fields.length)⟩ :=
  C95_old_reader hf he (C22_roundtrip c hg hv).2

theorem Ex.longerV_repr : Ex.longer.Repr Ex.ctx (.msg Ex.longerV) := by
  simp only [Ex.longer, Ex.longerV, Message.Repr, MField.ListRepr]
  refine ⟨_, rfl, _, _, rfl, ?_, _, _, rfl, ?_, _, _, rfl, ?_, rfl⟩ <;>
    simp [MField.Repr, MFieldTy.Repr, FixedTy.byteSize]

example : ∃ n, n ≤ (Ex.longer.write Ex.ctx (.msg Ex.longerV)).bytes.length ∧
    Ex.item.parse Ex.ctx (Ex.longer.write Ex.ctx (.msg Ex.longerV)).bytes = .ok ⟨n, .msg (Ex.longerV.take 2)⟩ :=
  C95_old_reads_new (m := Ex.item) (m' := Ex.longer) rfl rfl (by decide) Ex.longerV_repr

/-- C95: what the reader of the shorter message refuses is refused in the same way by that of the longer. -/
theorem C95_refused {c : Ctx} {m m' : Message} {rest : List MField} (hf : m'.fields = m.fields ++ rest)
    (he : c.emb m'.id = c.emb m.id) (b : Bytes) :
    (∀ e, m.parse c b = .err e → m'.parse c b = .err e) ∧ (m.parse c b = .panic → m'.parse c b = .panic) := by
  rw [Message.parse_eq c m, Message.parse_eq c m', hf, he]
  obtain ⟨h1, h2, _⟩ := runFields_stops (step := MField.parse c (c.emb m.id)) (fs := m.fields) rest (env := []) (b := b)
  constructor
  · intro e h
    cases h' : runFields (MField.parse c (c.emb m.id)) m.fields [] b with
    | err e' =>
      rw [h'] at h
      cases h
      rw [h1 _ h']
      rfl
    | panic => rw [h'] at h; cases h
    | ok r => rw [h'] at h; cases h
  · intro h
    cases h' : runFields (MField.parse c (c.emb m.id)) m.fields [] b with
    | err e' => rw [h'] at h; cases h
    | panic =>
      rw [h2 h']
      rfl
    | ok r => rw [h'] at h; cases h

example : Ex.longer.parse Ex.ctx [1, 2, 1, 104] = .err .truncated :=
  (C95_refused (m := Ex.item) (m' := Ex.longer) rfl rfl _).1 _ rfl

/-- Fields of which every encoding has a byte: numbers, structures that are not empty, strings, arrays,
lists, and everything optional. -/
def NeedsByte (f : MField) : Prop :=
  f.optional = true ∨ (∃ t, f.ty = .fixed t) ∨ (∃ s, f.ty = .ref (.struct s) ∧ 0 < s.byteSize) ∨
    f.ty = .nullTerminatedString ∨ (∃ t, f.ty = .varcharString t) ∨ (∃ t s, f.ty = .array t s) ∨
    ∃ t r, f.ty = .list t r

theorem scalar_empty (e : Endian) (t : FixedTy) : Scalar.fromSlice e t.byteSize [] = .err .truncated := by
  cases t <;> rfl

theorem needsByte_empty (c : Ctx) (emb : Bool) {f : MField} (h : NeedsByte f) (env : Env) :
    f.parse c emb env [] = .err .truncated := by
  obtain ⟨n, ty, o, sz, e⟩ := f
  cases o with
  | true => rfl
  | false =>
    simp only [MField.parse, Bool.false_eq_true, if_false]
    rcases h with h | ⟨t, h⟩ | ⟨s, h, hs⟩ | h | ⟨t, h⟩ | ⟨t, s, h⟩ | ⟨t, r, h⟩
    · cases h
    · cases h
      simp [MFieldTy.parse, Parser.map, scalar_empty, Res.bind]
    · cases h
      simp [MFieldTy.parse, Referenced.parse, Structure.parse, hs]
    · cases h
      rfl
    · cases h
      simp [MFieldTy.parse, Parser.map, Varchar.fromSlice, scalar_empty, Res.bind]
    · cases h
      simp [MFieldTy.parse, Parser.map, Arr.fromSlice, scalar_empty, Res.bind]
    · cases h
      cases emb <;> simp [MFieldTy.parse, Parser.map, Lst.fromSlice, Lst.unsizedFromSlice, scalar_empty, Res.bind]

/-- C95: a reader of the longer message answers "truncated" to a message that was written by the shorter
schema and is not followed by anything, when the first appended field needs a byte, optional or not. -/
theorem C95_new_reader_fails {c : Ctx} {m m' : Message} {f : MField} {rest : List MField}
    (hf : m'.fields = m.fields ++ f :: rest) (he : c.emb m'.id = c.emb m.id) (hn : NeedsByte f) {b : Bytes}
    {v : Value} (h : m.parse c b = .ok ⟨b.length, v⟩) : m'.parse c b = .err .truncated := by
  obtain ⟨env, rfl, h'⟩ := Message.parse_eq_ok.1 h
  rw [Message.parse_eq, hf, he]
  rw [(((runFields_stops (f :: rest)).2.2 _ _ h').1 .truncated (by
    simp [runFields, needsByte_empty c (c.emb m.id) hn]))]
  rfl

example : Ex.longer.parse Ex.ctx [1, 2, 0] = .err .truncated :=
  C95_new_reader_fails (m := Ex.item) (m' := Ex.longer) rfl rfl (.inr (.inl ⟨_, rfl⟩)) (v := .msg (Ex.longerV.take 2)) rfl

example : Ex.perhaps.parse Ex.ctx [1, 2, 0] = .err .truncated :=
  C95_new_reader_fails (m := Ex.item) (m' := Ex.perhaps) rfl rfl (.inl rfl) (v := .msg (Ex.longerV.take 2)) rfl

theorem fieldsFromModel_prefix {proto : Protocol} (fs gs : List Model.MField) :
    ∀ {emb : List Nat} {acc : List MField} {k : Nat} {dyn : Bool} {r : List MField × Nat × Bool × List Nat},
      Message.fieldsFromModel proto emb acc k dyn (fs ++ gs) = .ok r →
      ∃ r0, Message.fieldsFromModel proto emb acc k dyn fs = .ok r0 ∧
        Message.fieldsFromModel proto r0.2.2.2 r0.1 r0.2.1 r0.2.2.1 gs = .ok r := by
  induction fs with
  | nil => intro emb acc k dyn r h; exact ⟨_, rfl, h⟩
  | cons f fs ih =>
    intro emb acc k dyn r h
    simp only [List.cons_append, Message.fieldsFromModel] at h ⊢
    cases hf : MField.fromModel proto emb acc f with
    | err e => rw [hf] at h; cases h
    | panic => rw [hf] at h; cases h
    | ok x =>
      rw [hf] at h
      simp only [Res.bind_ok] at h ⊢
      split at h
      · cases h
      · rename_i h1
        rw [if_neg h1]
        generalize (if x.1.size.isElementDynSized = true then k + 1 else k) = k' at h ⊢
        split at h
        · cases h
        · rename_i h2
          rw [if_neg h2]
          exact ih h

theorem fieldsFromModel_acc {proto : Protocol} (gs : List Model.MField) :
    ∀ {emb : List Nat} {acc : List MField} {k : Nat} {dyn : Bool} {r : List MField × Nat × Bool × List Nat},
      Message.fieldsFromModel proto emb acc k dyn gs = .ok r →
      ∃ rest, r.1 = acc ++ rest ∧ rest.length = gs.length := by
  induction gs with
  | nil => intro emb acc k dyn r h; cases h; exact ⟨[], by simp, rfl⟩
  | cons f fs ih =>
    intro emb acc k dyn r h
    simp only [Message.fieldsFromModel] at h
    cases hf : MField.fromModel proto emb acc f with
    | err e => rw [hf] at h; cases h
    | panic => rw [hf] at h; cases h
    | ok x =>
      rw [hf] at h
      simp only [Res.bind_ok] at h
      split at h
      · cases h
      · generalize (if x.1.size.isElementDynSized = true then k + 1 else k) = k' at h
        split at h
        · cases h
        · obtain ⟨rest, e, l⟩ := ih h
          exact ⟨x.1 :: rest, by simp [e], by simp [l]⟩

/-- C95: when a message with fields appended compiles, so does the message without them, to the first
fields of the longer. -/
theorem C95_compiles {proto : Protocol} {emb emb' : List Nat} {id : Nat} {n : Name} {fs gs : List Model.MField}
    {m' : Message} (h : Message.fromModel proto emb id ⟨n, fs ++ gs⟩ = .ok (m', emb')) :
    ∃ m e rest, Message.fromModel proto emb id ⟨n, fs⟩ = .ok (m, e) ∧ m'.fields = m.fields ++ rest ∧
      rest.length = gs.length ∧ m.fields.length = fs.length ∧ m.id = m'.id ∧ m.name = m'.name := by
  simp only [Message.fromModel] at h ⊢
  obtain ⟨r, h, e⟩ := Res.bind_eq_ok.1 h
  obtain ⟨r0, h0, h1⟩ := fieldsFromModel_prefix fs gs h
  obtain ⟨rest, hr, hl⟩ := fieldsFromModel_acc gs h1
  obtain ⟨rest0, hr0, hl0⟩ := fieldsFromModel_acc fs h0
  obtain ⟨rfl, rfl⟩ := Prod.mk.inj (Res.ok.inj e)
  rw [h0]
  refine ⟨_, _, rest, rfl, hr, hl, ?_, rfl, rfl⟩
  show r0.1.length = fs.length
  rw [hr0]
  simpa using hl0

namespace Ex

/-- An empty protocol with the structure `Key`. -/
def keyProto : Protocol :=
  { name := "P".toList, endianness := .little, typePathByName := [], structsByName := [("Key".toList, keyS)],
    messagesByName := [], enumsByName := [], unionsByName := [], structs := [keyS], messages := [], enums := [],
    unions := [] }

def keyFields : List Model.MField :=
  [{ name := "k".toList, info := .item "Key".toList }, { name := "s".toList, info := .string none }]

theorem keyFields_compile : ∃ m e, Message.fromModel keyProto [] 7
    ⟨"M".toList, keyFields ++ [{ name := "p".toList, info := .payload }]⟩ = .ok (m, e) := ⟨_, _, rfl⟩

end Ex

example : ∃ m e, Message.fromModel Ex.keyProto [] 7 ⟨"M".toList, Ex.keyFields⟩ = .ok (m, e) ∧ m.fields.length = 2 := by
  obtain ⟨m', e', h⟩ := Ex.keyFields_compile
  obtain ⟨m, e, rest, h1, -, -, h2, -⟩ := C95_compiles h
  exact ⟨m, e, h1, h2⟩

/-! ## C96: appending fields to a structure -/

theorem fromModels_prefix {p : Profile} {structs : List (Name × Structure)} {enums : List (Name × Enum)}
    {e : Endian} (fs gs : List Model.SField) : ∀ {last : Nat} {r : List SField × Nat},
      SField.fromModels p structs enums e last (fs ++ gs) = .ok r →
      ∃ r0 r1, SField.fromModels p structs enums e last fs = .ok r0 ∧
        SField.fromModels p structs enums e r0.2 gs = .ok r1 ∧ r = (r0.1 ++ r1.1, r1.2) := by
  induction fs with
  | nil => intro last r h; exact ⟨([], last), r, rfl, h, rfl⟩
  | cons f fs ih =>
    intro last r h
    simp only [List.cons_append, SField.fromModels] at h ⊢
    cases hf : SField.fromModel p structs enums e last f with
    | err e => rw [hf] at h; cases h
    | panic => rw [hf] at h; cases h
    | ok x =>
      rw [hf] at h
      simp only [Res.bind_ok] at h ⊢
      obtain ⟨y, hy, e⟩ := Res.bind_eq_ok.1 h
      obtain ⟨r0, r1, h0, h1, rfl⟩ := ih hy
      obtain rfl := Res.ok.inj e
      refine ⟨(x.1 :: r0.1, r0.2), r1, ?_, h1, rfl⟩
      rw [h0]
      rfl

theorem fromModels_length {p : Profile} {structs : List (Name × Structure)} {enums : List (Name × Enum)}
    {e : Endian} (fs : List Model.SField) : ∀ {last : Nat} {r : List SField × Nat},
      SField.fromModels p structs enums e last fs = .ok r → r.1.length = fs.length := by
  induction fs with
  | nil => intro last r h; cases h; rfl
  | cons f fs ih =>
    intro last r h
    simp only [SField.fromModels] at h
    obtain ⟨x, hx, h⟩ := Res.bind_eq_ok.1 h
    obtain ⟨y, hy, h⟩ := Res.bind_eq_ok.1 h
    obtain rfl := Res.ok.inj h
    simp [ih hy]

/-- C96: when a structure with fields appended compiles, so does the structure without them, to the first
fields of the longer: they keep their places. -/
theorem C96_compiles {p : Profile} {structs : List (Name × Structure)} {enums : List (Name × Enum)}
    {e : Endian} {id : Nat} {n : Name} {fs gs : List Model.SField} {s' : Structure}
    (h : Structure.fromModel p structs enums e id ⟨n, fs ++ gs⟩ = .ok s') :
    ∃ s rest, Structure.fromModel p structs enums e id ⟨n, fs⟩ = .ok s ∧ s'.fields = s.fields ++ rest ∧
      s.fields.length = fs.length ∧ rest.length = gs.length := by
  simp only [Structure.fromModel] at h ⊢
  obtain ⟨r, h, e⟩ := Res.bind_eq_ok.1 h
  obtain ⟨r0, r1, h0, h1, rfl⟩ := fromModels_prefix fs gs h
  obtain rfl := Res.ok.inj e
  rw [h0]
  exact ⟨_, r1.1, rfl, rfl, fromModels_length fs h0, fromModels_length gs h1⟩

namespace Ex

/-- `outer` without its last field. -/
def cutC : Structure := .mk 1 "Outer".toList (outerC.fields.take 4) 7 56

theorem cut_compiles : Structure.fromModel .checked [("Inner".toList, innerC)] [] .little 1
    ⟨"Outer".toList, outer.fields.take 4⟩ = .ok cutC := by rfl

theorem cut_fields : outerC.fields = cutC.fields ++ outerC.fields.drop 4 := by rfl

theorem cut_WF : cutC.WF := Structure.fromModel_WF (by
    intro n s h
    simp only [List.lookup] at h
    split at h
    · cases h; exact inner_WF
    · cases h) cut_compiles (.inl rfl)

theorem cut_Sized : cutC.Sized := by
  simp [cutC, outerC, Structure.fields, Structure.Sized, SField.listSized, SField.Sized, ArrayField.itemBitSize]

theorem cut_access : cutC.HasAccess aA := .fixed (by simp [cutC, outerC, Structure.fields])

end Ex

example : ∃ s rest, Structure.fromModel .checked [("Inner".toList, Ex.innerC)] [] .little 1
    ⟨"Outer".toList, Ex.outer.fields.take 4⟩ = .ok s ∧ Ex.outerC.fields = s.fields ++ rest ∧
      s.fields.length = 4 ∧ rest.length = 1 :=
  C96_compiles (fs := Ex.outer.fields.take 4) (gs := Ex.outer.fields.drop 4) Ex.outer_compiles

theorem listWF_append {fs gs : List SField} : ∀ {o e e' : Nat}, SField.listWF (fs ++ gs) o e' →
    SField.listWF fs o e → e ≤ e' := by
  induction fs with
  | nil =>
    intro o e e' h h'
    have := SField.listWF_le h
    simp only [SField.listWF] at h'
    omega
  | cons f fs ih =>
    intro o e e' h h'
    simp only [List.cons_append, SField.listWF] at h h'
    exact ih h.2 h'.2

theorem hasAccess_append {s s' : Structure} {rest : List SField} (hf : s'.fields = s.fields ++ rest)
    {a : Access} (h : s.HasAccess a) : s'.HasAccess a := by
  cases h with
  | fixed h => exact .fixed (by rw [hf]; exact List.mem_append_left _ h)
  | item h hk => exact .item (by rw [hf]; exact List.mem_append_left _ h) hk
  | nested h ha => exact .nested (by rw [hf]; exact List.mem_append_left _ h) ha

/-- C96: the longer structure is not smaller, and a reader of the shorter one accepts its bytes and keeps
the first of them. -/
theorem C96_accepted {s s' : Structure} {rest : List SField} (hf : s'.fields = s.fields ++ rest) (hw : s.WF)
    (hw' : s'.WF) : s.bitSize ≤ s'.bitSize ∧ s.byteSize ≤ s'.byteSize ∧
    ∀ b n v, s'.parse b = .ok ⟨n, v⟩ → s.parse b = .ok ⟨s.byteSize, .struct (b.take s.byteSize)⟩ := by
  have h1 : s.bitSize ≤ s'.bitSize := listWF_append (by rw [← hf]; exact hw'.list) hw.list
  have h2 : s.byteSize ≤ s'.byteSize := by
    rw [hw.byteSize, hw'.byteSize]
    unfold ceil8
    omega
  refine ⟨h1, h2, fun b n v h => ?_⟩
  have := (Structure.parse_eq_ok.1 h).1
  exact Structure.parse_eq_ok.2 ⟨by omega, rfl, rfl⟩

example (b : Bytes) (n : Nat) (v : Value) (h : Ex.outerC.parse b = .ok ⟨n, v⟩) :
    Ex.cutC.parse b = .ok ⟨7, .struct (b.take 7)⟩ :=
  (C96_accepted Ex.cut_fields Ex.cut_WF Ex.outer_WF).2.2 b n v h

theorem bitAt_take {b : Bytes} {n i : Nat} (h : i < 8 * n) : bitAt (b.take n) i = bitAt b i := by
  unfold bitAt
  have : i / 8 < n := by omega
  simp [List.getElem?_take, this]

theorem bitsLE_take {b : Bytes} {n o w : Nat} (h : o + w ≤ 8 * n) : bitsLE (b.take n) o w = bitsLE b o w := by
  apply Nat.eq_of_testBit_eq
  intro i
  simp only [testBit_bitsLE]
  by_cases hi : i < w
  · rw [bitAt_take (by omega)]
  · simp [hi]

/-- C96: reading a field of the shorter structure from the bytes of the longer is reading it from their first
bytes, and writing it changes those alone: the appended part stays as it is. -/
theorem C96_fields (p : Profile) {s s' : Structure} {rest : List SField} (hf : s'.fields = s.fields ++ rest)
    (hw : s.WF) (hw' : s'.WF) (hs : s.Sized) (hs' : s'.Sized) {a : Access} (ha : s.HasAccess a) (b : Bytes)
    (hb : s'.byteSize ≤ b.length) (hl : b.length < 2 ^ 64) :
    s'.HasAccess a ∧ a.get p b = a.get p (b.take s.byteSize) ∧
    ∀ v, ∃ c c0, a.set p b v = .ok c ∧ a.set p (b.take s.byteSize) v = .ok c0 ∧
      c = c0 ++ b.drop s.byteSize := by
  obtain ⟨_, hle, _⟩ := C96_accepted hf hw hw'
  have hlen : (b.take s.byteSize).length = s.byteSize := by
    rw [List.length_take]
    omega
  have hbd := Access.bounds ha hw
  have ho := a.effOffset_le
  have hwd := a.effWidth_le
  have h8 : a.effOffset + a.effWidth ≤ 8 * s.byteSize := by
    rw [hw.byteSize]
    unfold ceil8
    omega
  obtain ⟨g1, s1⟩ := Access.exact_eff p (hasAccess_append hf ha) hw' hs' hb hl
  obtain ⟨g2, s2⟩ := Access.exact_eff p ha hw hs (buf := b.take s.byteSize) (by omega) (by omega)
  refine ⟨hasAccess_append hf ha, by rw [g1, g2, bitsLE_take h8], fun v => ?_⟩
  obtain ⟨c, hc, rc⟩ := s1 v
  obtain ⟨c0, hc0, rc0⟩ := s2 v
  refine ⟨c, c0, hc, hc0, BitsReplaced.unique rc ⟨?_, fun i hi => ?_⟩⟩
  · have := rc0.1
    simp only [List.length_append, List.length_drop]
    omega
  · have hl0 := rc0.1
    rw [hlen] at hl0
    by_cases h : i < 8 * s.byteSize
    · have := rc0.2 i (by omega)
      rw [bitAt_take h] at this
      rw [← this]
      unfold bitAt
      rw [List.getElem?_append_left (by omega)]
    · rw [if_neg (by omega)]
      unfold bitAt
      rw [List.getElem?_append_right (by omega), List.getElem?_drop, hl0]
      congr 3
      omega

example (p : Profile) : ∃ c c0, Ex.aA.set p (List.replicate 10 0xFF) 2 = .ok c ∧
    Ex.aA.set p (List.replicate 7 0xFF) 2 = .ok c0 ∧ c = c0 ++ List.replicate 3 0xFF :=
  (C96_fields p Ex.cut_fields Ex.cut_WF Ex.outer_WF Ex.cut_Sized Ex.outer_Sized Ex.cut_access
    (List.replicate 10 0xFF) (by decide) (by decide)).2.2 2

/-! ## C97: appending cases to a union -/

theorem parseCases_append (c : Ctx) (ks ks' : List UCase) (d : Nat) : ∀ i,
    ((∃ k ∈ ks, k.case = d) → Union.parseCases c (ks ++ ks') i d = Union.parseCases c ks i d) ∧
    ((∀ k ∈ ks, k.case ≠ d) → (∀ b, Union.parseCases c ks i d b = .err (.invalidUnionDiscriminant d)) ∧
      Union.parseCases c (ks ++ ks') i d = Union.parseCases c ks' (i + ks.length) d) := by
  induction ks with
  | nil => intro i; exact ⟨by simp, fun _ => ⟨fun b => rfl, rfl⟩⟩
  | cons k ks ih =>
    intro i
    obtain ⟨kn, kc, kt⟩ := k
    obtain ⟨h1, h2⟩ := ih (i + 1)
    by_cases hd : d = kc
    · subst hd
      constructor
      · intro _
        cases kt <;> simp [Union.parseCases]
      · intro h
        exact absurd rfl (h _ (List.mem_cons_self ..))
    · constructor
      · rintro ⟨k, hk, e⟩
        have : ∃ k ∈ ks, k.case = d := by
          rcases List.mem_cons.1 hk with rfl | hk
          · exact absurd e.symm hd
          · exact ⟨k, hk, e⟩
        cases kt <;> simp [Union.parseCases, hd, h1 this]
      · intro h
        obtain ⟨e1, e2⟩ := h2 fun k hk => h k (List.mem_cons_of_mem _ hk)
        cases kt <;> simp [Union.parseCases, hd, e1, e2, Nat.add_assoc, Nat.add_comm 1]

/-- C97: with cases appended to a union, discriminants of the cases it had are decoded as before, all others
were refused before. -/
theorem C97_decode (c : Ctx) {u u' : Union} {ks : List UCase} (hd : u'.discriminant = u.discriminant)
    (hc : u'.cases = u.cases ++ ks) (env : Env) (on : Name) :
    (∀ d, u.discriminant.read c.p env on = .ok d →
      ((∃ k ∈ u.cases, k.case = d) → ∀ b, u'.parse c env on b = u.parse c env on b) ∧
      ((∀ k ∈ u.cases, k.case ≠ d) → ∀ b, u.parse c env on b = .err (.invalidUnionDiscriminant d))) ∧
    ((∀ d, u.discriminant.read c.p env on ≠ .ok d) → ∀ b, u'.parse c env on b = u.parse c env on b) := by
  obtain ⟨n, di, cs, sz⟩ := u
  obtain ⟨n', di', cs', sz'⟩ := u'
  simp only [Union.discriminant, Union.cases] at hd hc ⊢
  subst hd hc
  constructor
  · intro d h
    obtain ⟨h1, h2⟩ := parseCases_append c cs ks d 0
    refine ⟨fun hk b => ?_, fun hk b => ?_⟩
    · simp only [Union.parse, h, Res.bind_ok, h1 hk]
    · simp only [Union.parse, h, Res.bind_ok, (h2 hk).1]
  · intro h b
    cases hr : di'.read c.p env on with
    | ok d => exact absurd hr (h d)
    | err e => simp [Union.parse, hr]
    | panic => simp [Union.parse, hr]

namespace Ex

/-- `choice` with another case. -/
def choice5 : Union :=
  .mk "Choice".toList keyDisc
    [ .mk "Nothing".toList 0 none, .mk "Keyed".toList 1 (some (.struct keyS)),
      .mk "Itemized".toList 2 (some (.message item)), .mk "Other".toList 5 none ] ⟨true, false⟩

end Ex

example (b : Bytes) : Ex.choice5.parse Ex.ctx [("k".toList, .struct [1, 9])] "k".toList b =
      Ex.choice.parse Ex.ctx [("k".toList, .struct [1, 9])] "k".toList b ∧
    Ex.choice.parse Ex.ctx [("k".toList, .struct [5, 9])] "k".toList b = .err (.invalidUnionDiscriminant 5) ∧
    Ex.choice5.parse Ex.ctx [("k".toList, .struct [5, 9])] "k".toList b = .ok ⟨0, .union 3 .unit⟩ := by
  refine ⟨?_, ?_, rfl⟩
  · exact ((C97_decode Ex.ctx (u := Ex.choice) (u' := Ex.choice5) (ks := [.mk "Other".toList 5 none]) rfl rfl
      [("k".toList, .struct [1, 9])] "k".toList).1 1 rfl).1 ⟨.mk "Keyed".toList 1 (some (.struct Ex.keyS)), by simp [Ex.choice, Union.cases], rfl⟩ b
  · exact ((C97_decode Ex.ctx (u := Ex.choice) (u' := Ex.choice5) (ks := [.mk "Other".toList 5 none]) rfl rfl
      [("k".toList, .struct [5, 9])] "k".toList).1 5 rfl).2 (by simp [Ex.choice, Union.cases, UCase.case]) b

theorem writeCases_append (c : Ctx) (ks ks' : List UCase) (d : Nat) (v : Value) : ∀ i, i < ks.length →
    Union.writeCases c (ks ++ ks') i d v = Union.writeCases c ks i d v := by
  induction ks with
  | nil => intro i h; simp at h
  | cons k ks ih =>
    intro i h
    obtain ⟨kn, kc, kt⟩ := k
    cases i with
    | zero => cases kt <;> simp [Union.writeCases]
    | succ i =>
      have := ih i (by simpa using h)
      cases kt <;> simp [Union.writeCases, this]

theorem writeCases_bare (c : Ctx) {ks : List UCase} (h : ks.any (fun k => k.itemType.isSome) = false) (d : Nat)
    (v : Value) : ∀ i, i < ks.length → Union.writeCases c ks i d v = .done := by
  induction ks with
  | nil => intro i h; simp at h
  | cons k ks ih =>
    intro i hi
    obtain ⟨kn, kc, kt⟩ := k
    simp only [List.any_cons, Bool.or_eq_false_iff] at h
    cases kt with
    | some r => simp [UCase.itemType] at h
    | none =>
      cases i with
      | zero => simp [Union.writeCases]
      | succ i =>
        have := ih h.2 i (by simpa using hi)
        simp [Union.writeCases, this]

/-- C97: values of the cases it had are encoded as before. -/
theorem C97_encode (c : Ctx) {u u' : Union} {ks : List UCase} (hd : u'.discriminant = u.discriminant)
    (hc : u'.cases = u.cases ++ ks) {env : Env} {on : Name} {d : Nat}
    (hr : u.discriminant.read c.p env on = .ok d) {i : Nat} (hi : i < u.cases.length) (x : Value) :
    u'.write c env on (.union i x) = u.write c env on (.union i x) := by
  obtain ⟨n, di, cs, sz⟩ := u
  obtain ⟨n', di', cs', sz'⟩ := u'
  simp only [Union.discriminant, Union.cases] at hd hc hr hi
  subst hd hc
  simp only [Union.write, List.any_append, hr]
  cases h1 : cs.any (fun k => k.itemType.isSome) with
  | true => simp [writeCases_append c cs ks d x i hi]
  | false =>
    cases h2 : ks.any (fun k => k.itemType.isSome) with
    | true => simp [writeCases_append c cs ks d x i hi, writeCases_bare c h1 d x i hi]
    | false => simp

example (x : Value) : Ex.choice5.write Ex.ctx [("k".toList, .struct [2, 9])] "k".toList (.union 2 x) =
    Ex.choice.write Ex.ctx [("k".toList, .struct [2, 9])] "k".toList (.union 2 x) :=
  C97_encode Ex.ctx (u := Ex.choice) (u' := Ex.choice5) (ks := [.mk "Other".toList 5 none]) (d := 2) rfl rfl rfl
    (by decide) x

theorem casesFromModel_prefix {proto : Protocol} {d : Discriminant} (fs gs : List Model.UCase) :
    ∀ {r : List UCase}, Union.casesFromModel proto d (fs ++ gs) = .ok r →
      ∃ r0 r1, Union.casesFromModel proto d fs = .ok r0 ∧ r = r0 ++ r1 ∧ r0.length = fs.length := by
  induction fs with
  | nil => intro r h; exact ⟨[], r, rfl, rfl, rfl⟩
  | cons f fs ih =>
    intro r h
    simp only [List.cons_append, Union.casesFromModel] at h ⊢
    obtain ⟨l, hl, h⟩ := Res.bind_eq_ok.1 h
    obtain ⟨k, hk, h⟩ := Res.bind_eq_ok.1 h
    obtain ⟨y, hy, h⟩ := Res.bind_eq_ok.1 h
    obtain rfl := Res.ok.inj h
    obtain ⟨r0, r1, h0, rfl, hl0⟩ := ih hy
    refine ⟨k :: r0, r1, ?_, rfl, by simp [hl0]⟩
    rw [hl]
    simp only [Res.bind_ok]
    rw [hk]
    simp only [Res.bind_ok]
    rw [h0]
    rfl

/-- C97: when a union with cases appended compiles, so does the union without them, with the same
discriminant, to the first cases. -/
theorem C97_compiles {proto : Protocol} {n : Name} {di : Name} {fs gs : List Model.UCase} {u' : Union}
    (h : Union.fromModel proto ⟨n, di, fs ++ gs⟩ = .ok u') :
    ∃ u ks, Union.fromModel proto ⟨n, di, fs⟩ = .ok u ∧ u'.cases = u.cases ++ ks ∧
      u'.discriminant = u.discriminant ∧ u.cases.length = fs.length := by
  simp only [Union.fromModel] at h ⊢
  obtain ⟨d, hd, h⟩ := Res.bind_eq_ok.1 h
  obtain ⟨r, hr, h⟩ := Res.bind_eq_ok.1 h
  obtain rfl := Res.ok.inj h
  obtain ⟨r0, r1, h0, rfl, hl⟩ := casesFromModel_prefix fs gs hr
  rw [hd]
  simp only [Res.bind_ok]
  rw [h0]
  exact ⟨_, r1, rfl, rfl, rfl, hl⟩

example : ∃ u, ∃ ks : List UCase, Union.fromModel Ex.keyProto ⟨"U".toList, "Key.kind".toList,
      [⟨"A".toList, "0".toList, none⟩]⟩ = .ok u ∧ ks.length = 1 ∧ u.cases.length = 1 := by
  have h : ∃ u', Union.fromModel Ex.keyProto ⟨"U".toList, "Key.kind".toList,
      [⟨"A".toList, "0".toList, none⟩] ++ [⟨"B".toList, "1".toList, some "Key".toList⟩]⟩ = .ok u' ∧
      u'.cases.length = 2 := ⟨_, rfl, rfl⟩
  obtain ⟨u', h, h2⟩ := h
  obtain ⟨u, ks, h1, e, -, hl⟩ := C97_compiles h
  refine ⟨u, ks, h1, ?_, hl⟩
  rw [e, List.length_append, hl] at h2
  have : [(⟨"A".toList, "0".toList, none⟩ : Model.UCase)].length = 1 := rfl
  omega

/-! ## C98: renaming the fields of a message -/

/-- The field with its name, and the name of the key of a union, replaced. -/
def relabelled (ρ : Name → Name) : MField → MField
  | .mk n (.union u on i) o sz e => .mk (ρ n) (.union u (ρ on) i) o sz e
  | .mk n ty o sz e => .mk (ρ n) ty o sz e

/-- The value of a message with the names of its fields replaced. -/
def relabelledValue (ρ : Name → Name) : Value → Value
  | .msg vs => .msg (vs.map fun x => (ρ x.1, x.2))
  | v => v

/-- The declared field with its name, and the name of the key of a union, replaced. -/
def relabelledDecl (ρ : Name → Name) (f : Model.MField) : Model.MField :=
  { f with
    name := ρ f.name
    info := match f.info with
      | .union on t => .union (ρ on) t
      | t => t }

variable {ρ : Name → Name}

theorem lookup_relabelled (hρ : ∀ x y, ρ x = ρ y → x = y) (env : Env) (n : Name) :
    (env.map fun x => (ρ x.1, x.2)).lookup (ρ n) = env.lookup n := by
  induction env with
  | nil => rfl
  | cons x env ih =>
    obtain ⟨k, v⟩ := x
    simp only [List.map_cons, List.lookup_cons]
    by_cases h : n = k
    · subst h
      simp
    · have h' : ρ n ≠ ρ k := fun e => h (hρ _ _ e)
      simp only [beq_eq_false_iff_ne.2 h, beq_eq_false_iff_ne.2 h', ih]

theorem read_relabelled (hρ : ∀ x y, ρ x = ρ y → x = y) (p : Profile) (d : Discriminant) (env : Env) (on : Name) :
    d.read p (env.map fun x => (ρ x.1, x.2)) (ρ on) = d.read p env on := by
  simp only [Discriminant.read, lookup_relabelled hρ]

/-- Only unions look at the names of fields. -/
theorem parse_env (c : Ctx) (emb : Bool) (e : Endian) (ty : MFieldTy) (h : ∀ u on i, ty ≠ .union u on i)
    (env env' : Env) : ty.parse c emb e env = ty.parse c emb e env' := by
  cases ty with
  | union u on i => exact absurd rfl (h u on i)
  | _ => simp only [MFieldTy.parse]

theorem write_env (c : Ctx) (e : Endian) (ty : MFieldTy) (h : ∀ u on i, ty ≠ .union u on i)
    (env env' : Env) : ty.write c e env = ty.write c e env' := by
  cases ty with
  | union u on i => exact absurd rfl (h u on i)
  | _ =>
    funext v
    simp only [MFieldTy.write]

theorem relabelled_parse (hρ : ∀ x y, ρ x = ρ y → x = y) (c : Ctx) (emb : Bool) (f : MField) (env : Env) :
    (relabelled ρ f).parse c emb (env.map fun x => (ρ x.1, x.2)) = f.parse c emb env := by
  obtain ⟨n, ty, o, sz, e⟩ := f
  cases ty with
  | union u on i =>
    obtain ⟨un, di, cs, us⟩ := u
    simp only [relabelled, MField.parse, MFieldTy.parse, Union.parse, read_relabelled hρ]
  | _ => simp only [relabelled, MField.parse, MFieldTy.parse]

theorem relabelled_write (hρ : ∀ x y, ρ x = ρ y → x = y) (c : Ctx) (f : MField) (env : Env) :
    (relabelled ρ f).write c (env.map fun x => (ρ x.1, x.2)) = f.write c env := by
  obtain ⟨n, ty, o, sz, e⟩ := f
  cases ty with
  | union u on i =>
    obtain ⟨un, di, cs, us⟩ := u
    have : (MFieldTy.union (.mk un di cs us) (ρ on) i).write c e (env.map fun x => (ρ x.1, x.2)) =
        (MFieldTy.union (.mk un di cs us) on i).write c e env := by
      funext v
      simp only [MFieldTy.write, Union.write, read_relabelled hρ]
    funext v
    simp only [relabelled, MField.write, this]
  | _ =>
    funext v
    simp only [relabelled, MField.write]
    rw [write_env c e _ (by simp) _ env]

theorem relabelled_name (f : MField) : (relabelled ρ f).name = ρ f.name := by
  obtain ⟨n, ty, o, sz, e⟩ := f
  cases ty <;> rfl

theorem runFields_relabelled (hρ : ∀ x y, ρ x = ρ y → x = y) (c : Ctx) (emb : Bool) (fs : List MField) :
    ∀ (env : Env) (b : Bytes),
      runFields (MField.parse c emb) (fs.map (relabelled ρ)) (env.map fun x => (ρ x.1, x.2)) b =
        match runFields (MField.parse c emb) fs env b with
        | .ok r => .ok (r.1, r.2.map fun x => (ρ x.1, x.2))
        | .err e => .err e
        | .panic => .panic := by
  induction fs with
  | nil => intro env b; rfl
  | cons f fs ih =>
    intro env b
    simp only [List.map_cons, runFields, relabelled_parse hρ, relabelled_name]
    cases h : f.parse c emb env b with
    | err e => rfl
    | panic => rfl
    | ok r =>
      have := ih (env ++ [(f.name, r.data)]) (b.drop r.size)
      simp only [List.map_append, List.map_cons, List.map_nil] at this
      simp only [this]
      cases runFields (MField.parse c emb) fs (env ++ [(f.name, r.data)]) (b.drop r.size) <;> rfl

theorem writeList_relabelled (hρ : ∀ x y, ρ x = ρ y → x = y) (c : Ctx) (env : Env) (fs : List MField) :
    ∀ vs : Env, MField.writeList c (fs.map (relabelled ρ)) (env.map fun x => (ρ x.1, x.2))
      (vs.map fun x => (ρ x.1, x.2)) = MField.writeList c fs env vs := by
  induction fs with
  | nil => intro vs; simp [MField.writeList]
  | cons f fs ih =>
    intro vs
    cases vs with
    | nil => simp [MField.writeList]
    | cons v vs => simp only [List.map_cons, MField.writeList, relabelled_write hρ, ih]

/-- C98: replacing the names of the fields of a message, different names by different names, changes nothing
but the names: the same bytes are accepted, with the same values, and refused, with the same errors. -/
theorem C98_decode (hρ : ∀ x y, ρ x = ρ y → x = y) {c : Ctx} {m m' : Message}
    (hf : m'.fields = m.fields.map (relabelled ρ)) (he : c.emb m'.id = c.emb m.id) (b : Bytes) :
    m'.parse c b = (m.parse c b).bind fun r => .ok ⟨r.size, relabelledValue ρ r.data⟩ := by
  rw [Message.parse_eq, Message.parse_eq, hf, he]
  have := runFields_relabelled hρ c (c.emb m.id) m.fields [] b
  rw [List.map_nil] at this
  rw [this]
  cases runFields (MField.parse c (c.emb m.id)) m.fields [] b <;> rfl

/-- C98: and the same bytes are written. -/
theorem C98_encode (hρ : ∀ x y, ρ x = ρ y → x = y) (c : Ctx) {m m' : Message}
    (hf : m'.fields = m.fields.map (relabelled ρ)) (v : Value) :
    m'.write c (relabelledValue ρ v) = m.write c v := by
  obtain ⟨id, n, fs, sz⟩ := m
  obtain ⟨id', n', fs', sz'⟩ := m'
  simp only [Message.fields] at hf
  subst hf
  cases v with
  | msg vs => simp only [Message.write, relabelledValue, writeList_relabelled hρ]
  | _ => simp only [Message.write, relabelledValue]

namespace Ex

def prefixName (n : Name) : Name := 'n' :: n

theorem prefixName_injective (x y : Name) (h : prefixName x = prefixName y) : x = y := (List.cons.inj h).2

/-- `full` with other field names. -/
def renamed : Message := .mk 22 "Full".toList (full.fields.map (relabelled prefixName)) ⟨true, true⟩

theorem renamed_fields : renamed.fields = full.fields.map (relabelled prefixName) := by simp only [renamed, Message.fields]

end Ex

example (b : Bytes) : Ex.renamed.parse Ex.ctx b =
    (Ex.full.parse Ex.ctx b).bind fun r => .ok ⟨r.size, relabelledValue Ex.prefixName r.data⟩ :=
  C98_decode Ex.prefixName_injective Ex.renamed_fields rfl b

example : Ex.renamed.write Ex.ctx (relabelledValue Ex.prefixName Ex.fullV) = Ex.full.write Ex.ctx Ex.fullV :=
  C98_encode Ex.prefixName_injective Ex.ctx Ex.renamed_fields Ex.fullV

theorem relabelled_ty (f : MField) (s : Structure) :
    (relabelled ρ f).ty = .ref (.struct s) ↔ f.ty = .ref (.struct s) := by
  obtain ⟨n, ty, o, sz, e⟩ := f
  cases ty <;> simp [relabelled, MField.ty]

theorem relabelled_size (f : MField) : (relabelled ρ f).size = f.size := by
  obtain ⟨n, ty, o, sz, e⟩ := f
  cases ty <;> rfl

theorem findIdx_relabelled (hρ : ∀ x y, ρ x = ρ y → x = y) (fs : List MField) (on : Name) :
    (fs.map (relabelled ρ)).findIdx? (fun f => f.name == ρ on) = fs.findIdx? (fun f => f.name == on) := by
  induction fs with
  | nil => rfl
  | cons f fs ih =>
    have : ((relabelled ρ f).name == ρ on) = (f.name == on) := by
      rw [relabelled_name]
      by_cases h : f.name = on
      · simp [h]
      · rw [beq_eq_false_iff_ne.2 h, beq_eq_false_iff_ne.2 fun e => h (hρ _ _ e)]
    simp only [List.map_cons, List.findIdx?_cons, this, ih]

theorem fromModel_relabelled (hρ : ∀ x y, ρ x = ρ y → x = y) {proto : Protocol} {emb : List Nat}
    {acc : List MField} {f : Model.MField} {r : MField × List Nat}
    (h : MField.fromModel proto emb acc f = .ok r) :
    MField.fromModel proto emb (acc.map (relabelled ρ)) (relabelledDecl ρ f) = .ok (relabelled ρ r.1, r.2) := by
  obtain ⟨n, info, o⟩ := f
  cases info with
  | item t =>
    simp only [MField.fromModel, relabelledDecl] at h ⊢
    obtain ⟨x, hx, h⟩ := Res.bind_eq_ok.1 h
    rw [hx]
    simp only [Res.bind_ok]
    cases x with
    | struct s =>
      simp only at h ⊢
      cases hs : s.asScalar with
      | some ty =>
        rw [hs] at h
        obtain rfl := Res.ok.inj h
        rfl
      | none =>
        rw [hs] at h
        obtain rfl := Res.ok.inj h
        rfl
    | message m =>
      obtain rfl := Res.ok.inj h
      rfl
  | list k t =>
    simp only [MField.fromModel, relabelledDecl] at h ⊢
    obtain ⟨x, hx, h⟩ := Res.bind_eq_ok.1 h
    obtain ⟨y, hy, h⟩ := Res.bind_eq_ok.1 h
    rw [hx, hy]
    simp only [Res.bind_ok]
    cases x with
    | struct s =>
      obtain rfl := Res.ok.inj h
      rfl
    | message m =>
      obtain rfl := Res.ok.inj h
      rfl
  | string k =>
    cases k with
    | none =>
      obtain rfl := Res.ok.inj h
      rfl
    | some k =>
      simp only [MField.fromModel, relabelledDecl] at h ⊢
      obtain ⟨y, hy, h⟩ := Res.bind_eq_ok.1 h
      rw [hy]
      obtain rfl := Res.ok.inj h
      rfl
  | payload =>
    obtain rfl := Res.ok.inj h
    rfl
  | union on t =>
    simp only [MField.fromModel, relabelledDecl] at h ⊢
    obtain ⟨i, hi, h⟩ := Res.bind_eq_ok.1 h
    obtain ⟨g, hg, h⟩ := Res.bind_eq_ok.1 h
    obtain ⟨u, hu, h⟩ := Res.bind_eq_ok.1 h
    have hi' := Res.ofOption_eq_ok hi
    have hg' := Res.ofOption_eq_ok hg
    rw [findIdx_relabelled hρ, hi', Res.ofOption_some, Res.bind_ok, List.getElem?_map, hg', hu]
    simp only [Res.ofOption_some, Option.map_some, Res.bind_ok]
    cases ht : g.ty with
    | ref r' =>
      cases r' with
      | struct s =>
        rw [ht] at h
        rw [(relabelled_ty g s).2 ht]
        simp only at h ⊢
        split at h
        · rename_i hs
          rw [if_pos hs]
          obtain rfl := Res.ok.inj h
          rw [relabelled_name]
          rfl
        · cases h
      | message m => rw [ht] at h; cases h
    | _ => rw [ht] at h; cases h

theorem fieldsFromModel_relabelled (hρ : ∀ x y, ρ x = ρ y → x = y) {proto : Protocol} (fs : List Model.MField) :
    ∀ {emb : List Nat} {acc : List MField} {k : Nat} {dyn : Bool} {r : List MField × Nat × Bool × List Nat},
      Message.fieldsFromModel proto emb acc k dyn fs = .ok r →
      Message.fieldsFromModel proto emb (acc.map (relabelled ρ)) k dyn (fs.map (relabelledDecl ρ)) =
        .ok (r.1.map (relabelled ρ), r.2) := by
  induction fs with
  | nil =>
    intro emb acc k dyn r h
    obtain rfl := Res.ok.inj h
    rfl
  | cons f fs ih =>
    intro emb acc k dyn r h
    simp only [List.map_cons, Message.fieldsFromModel] at h ⊢
    obtain ⟨x, hx, h⟩ := Res.bind_eq_ok.1 h
    rw [fromModel_relabelled hρ hx]
    simp only [Res.bind_ok, relabelled_size]
    split at h
    · cases h
    · rename_i h1
      rw [if_neg h1]
      generalize (if x.1.size.isElementDynSized = true then k + 1 else k) = k' at h ⊢
      split at h
      · cases h
      · rename_i h2
        rw [if_neg h2]
        have := ih h
        rwa [List.map_append] at this

/-- C98: the renamed message compiles, to the renamed fields. -/
theorem C98_compiles (hρ : ∀ x y, ρ x = ρ y → x = y) {proto : Protocol} {emb emb' : List Nat} {id : Nat}
    {n : Name} {fs : List Model.MField} {m : Message}
    (h : Message.fromModel proto emb id ⟨n, fs⟩ = .ok (m, emb')) :
    ∃ m', Message.fromModel proto emb id ⟨n, fs.map (relabelledDecl ρ)⟩ = .ok (m', emb') ∧
      m'.fields = m.fields.map (relabelled ρ) ∧ m'.id = m.id ∧ m'.name = m.name ∧ m'.size = m.size := by
  simp only [Message.fromModel] at h ⊢
  obtain ⟨r, h', e⟩ := Res.bind_eq_ok.1 h
  obtain ⟨rfl, rfl⟩ := Prod.mk.inj (Res.ok.inj e)
  have := fieldsFromModel_relabelled hρ fs h'
  rw [List.map_nil] at this
  rw [this]
  exact ⟨_, rfl, rfl, rfl, rfl, rfl⟩

example : ∃ m', Message.fromModel Ex.keyProto [] 7
    ⟨"M".toList, [{ name := "nk".toList, info := .item "Key".toList }, { name := "ns".toList, info := .string none }]⟩ =
      .ok (m', []) := by
  have h : ∃ m, Message.fromModel Ex.keyProto [] 7 ⟨"M".toList, Ex.keyFields⟩ = .ok (m, []) := ⟨_, rfl⟩
  obtain ⟨m, h⟩ := h
  obtain ⟨m', h', -⟩ := C98_compiles Ex.prefixName_injective h
  exact ⟨m', h'⟩

end Proto.Props
