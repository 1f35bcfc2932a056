import Verif.Gen.WireLemmas
import Verif.Gen.StuckLemmas
import Verif.Gen.OffsetLemmas
import Verif.Gen.ReprLemmas
import Verif.Gen.GrammarLemmas
import Verif.Props.Seq
import Verif.Props.Struct

/-!
# C22–C28, C35, C58: messages
-/

namespace Proto.Props

open Proto

/-! ## A schema with every kind of field -/

namespace Ex

/-- Messages 20, 21 and 22 are used as list items. -/
def ctx : Ctx := { p := .checked, emb := fun i => i == 20 || i == 21 || i == 22 }

/-- Two bytes: `kind` and `flags`. -/
def keyS : Structure :=
  .mk 10 "Key".toList
    [ .fixed { name := "kind".toList, ty := .u8, loc := ⟨0, 0, 1, 8⟩, view := .none, endian := .little },
      .fixed { name := "flags".toList, ty := .u8, loc := ⟨1, 0, 1, 8⟩, view := .none, endian := .little } ]
    2 16

def keyDisc : Discriminant := { root := keyS, leaf := keyS, leafIndex := 0, indexList := [0] }

/-- A number, then perhaps a string. -/
def item : Message :=
  .mk 20 "Item".toList
    [ .mk "x".toList (.fixed .u16) false ⟨false, false⟩ .little,
      .mk "s".toList .nullTerminatedString true ⟨true, false⟩ .little ] ⟨true, false⟩

/-- A list of items. -/
def group : Message :=
  .mk 21 "Group".toList [ .mk "items".toList (.list .u8 item) false ⟨true, true⟩ .little ] ⟨true, true⟩

def choice : Union :=
  .mk "Choice".toList keyDisc
    [ .mk "Nothing".toList 0 none, .mk "Keyed".toList 1 (some (.struct keyS)),
      .mk "Itemized".toList 2 (some (.message item)) ] ⟨true, false⟩

/-- Structure, union, array, list of lists, length-prefixed string, optional nested message. -/
def full : Message :=
  .mk 22 "Full".toList
    [ .mk "k".toList (.ref (.struct keyS)) false ⟨false, false⟩ .little,
      .mk "u".toList (.union choice "k".toList 0) false ⟨true, false⟩ .little,
      .mk "a".toList (.array .u8 keyS) false ⟨true, false⟩ .little,
      .mk "l".toList (.list .u16 group) false ⟨true, true⟩ .little,
      .mk "v".toList (.varcharString .u8) false ⟨true, false⟩ .little,
      .mk "o".toList (.ref (.message item)) true ⟨true, false⟩ .little ] ⟨true, true⟩

/-- The above, then a payload. -/
def tail : Message :=
  .mk 23 "Tail".toList
    [ .mk "f".toList (.ref (.message full)) false ⟨true, false⟩ .little,
      .mk "p".toList .payload false ⟨true, true⟩ .little ] ⟨true, true⟩

/-- `full` without the length-prefixed string. -/
def safe : Message :=
  .mk 24 "Safe".toList
    [ .mk "k".toList (.ref (.struct keyS)) false ⟨false, false⟩ .little,
      .mk "u".toList (.union choice "k".toList 0) false ⟨true, false⟩ .little,
      .mk "a".toList (.array .u32 keyS) false ⟨true, false⟩ .little,
      .mk "l".toList (.list .u16 group) false ⟨true, true⟩ .little ] ⟨true, true⟩

def itemV : Value := .msg [("x".toList, .num 513), ("s".toList, .some (.str [104, 105]))]
def itemW : Value := .msg [("x".toList, .num 7), ("s".toList, .none)]
/-- `itemV` then `itemW`. -/
def groupV : Value := .msg [("items".toList, .seq ⟨[1, 2, 1, 104, 105, 0, 7, 0, 0], 2⟩)]
def fullV : Value :=
  .msg [ ("k".toList, .struct [2, 9]), ("u".toList, .union 2 itemV),
         ("a".toList, .seq ⟨[1, 2, 3, 4], 2⟩),
         ("l".toList, .seq ⟨[2, 1, 2, 1, 104, 105, 0, 7, 0, 0], 1⟩),
         ("v".toList, .str [65]), ("o".toList, .some itemW) ]
def tailV : Value := .msg [("f".toList, fullV), ("p".toList, .buf [5, 6])]

/-- Two structures and an array. -/
def keyed : Message :=
  .mk 26 "Keyed".toList
    [ .mk "k".toList (.ref (.struct keyS)) false ⟨false, false⟩ .little,
      .mk "l".toList (.ref (.struct keyS)) false ⟨false, false⟩ .little,
      .mk "a".toList (.array .u8 keyS) false ⟨true, false⟩ .little ] ⟨true, false⟩

def keyedV : Value :=
  .msg [("k".toList, .struct [1, 9]), ("l".toList, .struct [3, 4]), ("a".toList, .seq ⟨[5, 6], 1⟩)]

theorem full_delimited : full.delimited ctx.emb = true := by decide
theorem tail_tailGreedy : tail.tailGreedy ctx.emb = true := by decide
theorem tail_not_delimited : tail.delimited ctx.emb = false := by decide

theorem itemV_repr : item.Repr ctx itemV := by
  simp only [item, itemV, Message.Repr, MField.ListRepr]
  refine ⟨_, rfl, _, _, rfl, ?_, _, _, rfl, ?_, rfl⟩
  · simp only [MField.Repr, MFieldTy.Repr, Bool.false_eq_true, if_false]
    exact ⟨513, rfl, by decide⟩
  · simp only [MField.Repr, MFieldTy.Repr, if_true]
    exact .inr ⟨_, rfl, _, rfl, isUtf8_ascii _ (by decide), by decide⟩

theorem itemW_repr : item.Repr ctx itemW := by
  simp only [item, itemW, Message.Repr, MField.ListRepr]
  refine ⟨_, rfl, _, _, rfl, ?_, _, _, rfl, ?_, rfl⟩
  · simp only [MField.Repr, MFieldTy.Repr, Bool.false_eq_true, if_false]
    exact ⟨7, rfl, by decide⟩
  · simp only [MField.Repr, if_true]
    exact .inl trivial

theorem groupV_repr : group.Repr ctx groupV := by
  simp only [group, groupV, Message.Repr, MField.ListRepr]
  refine ⟨_, rfl, _, _, rfl, ?_, rfl⟩
  simp only [MField.Repr, MFieldTy.Repr, Bool.false_eq_true, if_false]
  refine ⟨_, rfl, by decide, fun _ => ⟨[itemV, itemW], rfl, ?_, by rfl⟩⟩
  intro x hx
  simp only [List.mem_cons, List.not_mem_nil, or_false] at hx
  rcases hx with rfl | rfl
  · exact itemV_repr
  · exact itemW_repr

theorem fullV_repr : full.Repr ctx fullV := by
  simp only [full, fullV, Message.Repr, MField.ListRepr]
  refine ⟨_, rfl, _, _, rfl, ?_, _, _, rfl, ?_, _, _, rfl, ?_, _, _, rfl, ?_, _, _, rfl, ?_, _, _, rfl,
    ?_, rfl⟩
  · simp only [MField.Repr, MFieldTy.Repr, Referenced.Repr, Bool.false_eq_true, if_false]
    exact ⟨_, rfl, rfl⟩
  · simp only [MField.Repr, MFieldTy.Repr, choice, Union.Repr, Bool.false_eq_true, if_false]
    refine ⟨2, itemV, 2, rfl, by rfl, ?_⟩
    simp only [UCase.ReprCase]
    exact ⟨by decide, by decide, trivial, by simpa only [Referenced.Repr] using itemV_repr⟩
  · simp only [MField.Repr, MFieldTy.Repr, Bool.false_eq_true, if_false]
    exact ⟨_, rfl, by decide, by decide, by decide⟩
  · simp only [MField.Repr, MFieldTy.Repr, Bool.false_eq_true, if_false]
    refine ⟨_, rfl, by decide, fun _ => ⟨[groupV], rfl, ?_, by rfl⟩⟩
    intro x hx
    simp only [List.mem_cons, List.not_mem_nil, or_false] at hx
    subst hx
    exact groupV_repr
  · simp only [MField.Repr, MFieldTy.Repr, Bool.false_eq_true, if_false]
    exact ⟨_, rfl, isUtf8_ascii _ (by decide), by decide, by decide⟩
  · simp only [MField.Repr, MFieldTy.Repr, Referenced.Repr, if_true]
    exact .inr ⟨_, rfl, itemW_repr⟩

theorem tailV_repr : tail.Repr ctx tailV := by
  simp only [tail, tailV, Message.Repr, MField.ListRepr]
  refine ⟨_, rfl, _, _, rfl, ?_, _, _, rfl, ?_, rfl⟩
  · simp only [MField.Repr, MFieldTy.Repr, Referenced.Repr, Bool.false_eq_true, if_false]
    exact fullV_repr
  · simp only [MField.Repr, MFieldTy.Repr, Bool.false_eq_true, if_false]
    exact ⟨_, rfl⟩

end Ex

/-! ## C58 -/

/-- C58: the encoding of a representable value is the concatenation of its fields' wire forms
(`Message.wire`), and encoding succeeds. -/
theorem C58_wire (c : Ctx) {m : Message} {v : Value} (h : m.Repr c v) :
    (m.write c v).res = .ok () ∧ (m.write c v).bytes = m.wire v := Message.write_wire h

example : Ex.full.Repr Ex.ctx Ex.fullV ∧ Ex.full.wire Ex.fullV =
    [2, 9] ++ [1, 2, 1, 104, 105, 0] ++ [2, 1, 2, 3, 4] ++ [1, 0, 2, 1, 2, 1, 104, 105, 0, 7, 0, 0] ++
      [1, 65] ++ [1, 7, 0, 0] := ⟨Ex.fullV_repr, by rfl⟩

/-! ## C22 -/

/-- C22: a message whose greedy part, if any, comes last: encoding a representable value succeeds, and
decoding the bytes returns the value and their number. -/
theorem C22_roundtrip (c : Ctx) {m : Message} (hm : m.tailGreedy c.emb = true) {v : Value}
    (hv : m.Repr c v) :
    (m.write c v).res = .ok () ∧
      m.parse c (m.write c v).bytes = .ok ⟨(m.write c v).bytes.length, v⟩ :=
  ⟨(Message.roundTrips c m v hv).1, (Message.roundTrips c m v hv).2.2 hm⟩

example : (Ex.tail.write Ex.ctx Ex.tailV).res = .ok () ∧
    Ex.tail.parse Ex.ctx (Ex.tail.write Ex.ctx Ex.tailV).bytes =
      .ok ⟨(Ex.tail.write Ex.ctx Ex.tailV).bytes.length, Ex.tailV⟩ :=
  C22_roundtrip Ex.ctx Ex.tail_tailGreedy Ex.tailV_repr

/-- C22: the same through the specified wire form. -/
theorem C22_decode_wire (c : Ctx) {m : Message} (hm : m.tailGreedy c.emb = true) {v : Value}
    (hv : m.Repr c v) : m.parse c (m.wire v) = .ok ⟨(m.wire v).length, v⟩ := by
  have := (C22_roundtrip c hm hv).2
  rwa [(C58_wire c hv).2] at this

example : Ex.tail.tailGreedy Ex.ctx.emb = true ∧ Ex.tail.Repr Ex.ctx Ex.tailV :=
  ⟨Ex.tail_tailGreedy, Ex.tailV_repr⟩

/-! ## C23 -/

/-- C23: a message without greedy part decodes identically whatever follows its encoding. -/
theorem C23_trailing (c : Ctx) {m : Message} (hm : m.delimited c.emb = true) {v : Value}
    (hv : m.Repr c v) (t : Bytes) :
    m.parse c ((m.write c v).bytes ++ t) = .ok ⟨(m.write c v).bytes.length, v⟩ :=
  (Message.roundTrips c m v hv).2.1 hm t

example : Ex.full.parse Ex.ctx ((Ex.full.write Ex.ctx Ex.fullV).bytes ++ [1, 2, 3]) =
    .ok ⟨(Ex.full.write Ex.ctx Ex.fullV).bytes.length, Ex.fullV⟩ :=
  C23_trailing Ex.ctx Ex.full_delimited Ex.fullV_repr [1, 2, 3]

/-- C23: any accepted input of such a message may be extended or cut after the reported size. -/
theorem C23_accepted (c : Ctx) {m : Message} (hm : m.delimited c.emb = true) {b : Bytes} {n : Nat}
    {v : Value} (h : m.parse c b = .ok ⟨n, v⟩) (t : Bytes) :
    m.parse c (b ++ t) = .ok ⟨n, v⟩ ∧ m.parse c (b.take n ++ t) = .ok ⟨n, v⟩ :=
  ⟨Message.delimits hm b n v h t,
   Message.delimits hm _ n v ((Message.cut c m b n v h).2 n (Nat.le_refl _)) t⟩

example : Ex.item.parse Ex.ctx ([7, 0, 0, 99] ++ [5]) = .ok ⟨3, Ex.itemW⟩ :=
  (C23_accepted Ex.ctx (by decide) (b := [7, 0, 0, 99]) rfl [5]).1

/-- A client that decodes one message of each listed type, one after the other: sizes and values, and
the bytes left. -/
def readAll (c : Ctx) : List Message → Bytes → R (List (Nat × Value) × Bytes)
  | [], b => .ok ([], b)
  | m :: ms, b =>
    match m.parse c b with
    | .ok r =>
      match readAll c ms (b.drop r.size) with
      | .ok (vs, rest) => .ok ((r.size, r.data) :: vs, rest)
      | .err e => .err e
      | .panic => .panic
    | .err e => .err e
    | .panic => .panic

/-- C23: a concatenation of encodings of self-delimiting messages decodes back to the same sequence of
values, each reporting the size of its encoding; what follows is left over. -/
theorem C23_stream (c : Ctx) (items : List (Message × Value))
    (h : ∀ x ∈ items, x.1.delimited c.emb = true ∧ x.1.Repr c x.2) (t : Bytes) :
    readAll c (items.map Prod.fst) (items.flatMap (fun x => (x.1.write c x.2).bytes) ++ t) =
      .ok (items.map (fun x => ((x.1.write c x.2).bytes.length, x.2)), t) := by
  induction items with
  | nil => rfl
  | cons x xs ih =>
    obtain ⟨hd, hr⟩ := h x (by simp)
    simp only [List.map_cons, List.flatMap_cons, readAll, List.append_assoc]
    rw [C23_trailing c hd hr]
    simp only [List.drop_left]
    rw [ih (fun y hy => h y (by simp [hy]))]

example : ∀ x ∈ [(Ex.full, Ex.fullV), (Ex.item, Ex.itemW), (Ex.group, Ex.groupV)],
    x.1.delimited Ex.ctx.emb = true ∧ x.1.Repr Ex.ctx x.2 := by
  intro x hx
  simp only [List.mem_cons, List.not_mem_nil, or_false] at hx
  rcases hx with rfl | rfl | rfl
  · exact ⟨Ex.full_delimited, Ex.fullV_repr⟩
  · exact ⟨by decide, Ex.itemW_repr⟩
  · exact ⟨by decide, Ex.groupV_repr⟩

/-! ## C24 -/

/-- C24: the reported size never exceeds the input, and the bytes beyond it are irrelevant when they
are removed: any cut at or after the size gives the same result. -/
theorem C24_local (c : Ctx) (m : Message) {b : Bytes} {n : Nat} {v : Value}
    (h : m.parse c b = .ok ⟨n, v⟩) :
    n ≤ b.length ∧ ∀ k, n ≤ k → m.parse c (b.take k) = .ok ⟨n, v⟩ := Message.cut c m b n v h

example : Ex.item.parse Ex.ctx ([7, 0, 0, 99].take 3) = .ok ⟨3, Ex.itemW⟩ :=
  (C24_local Ex.ctx Ex.item (b := [7, 0, 0, 99]) rfl).2 3 (by decide)

/-- C24: if bytes were left over, they do not matter. -/
theorem C24_left_over (c : Ctx) (m : Message) {b : Bytes} {n : Nat} {v : Value}
    (h : m.parse c b = .ok ⟨n, v⟩) (hn : n < b.length) (t : Bytes) :
    m.parse c (b.take n ++ t) = .ok ⟨n, v⟩ := Message.insensitive c m b n v h hn t

example : Ex.item.parse Ex.ctx [7, 0, 0, 99] = .ok ⟨3, Ex.itemW⟩ := by rfl

/-! ## C25 -/

/-- The whole C25: no input makes a decoder panic. -/
def C25_full : Prop := ∀ (c : Ctx) (m : Message) (b : Bytes), m.parse c b ≠ .panic

/-- C25 for every message without length-prefixed strings whose arrays announce sizes that fit the
machine word and whose unions are keyed on a usable structure. -/
theorem C25_no_panic (c : Ctx) {m : Message} (h : m.allFields MField.notVarchar = true)
    (ha : m.allFields MField.countFits = true) (hk : m.AllMessages Message.Keyed) (b : Bytes) :
    m.parse c b ≠ .panic := by
  refine Message.total c ?_ hk b
  exact Message.allFields_and h ha

/-- C25: 8, 16 and 32-bit counts of items below 2^31 bytes always fit. -/
theorem C25_count_fits {n : Name} {ty : FixedTy} {s : Structure} {o : Bool} {sz : SizeInfo} {e : Endian}
    (hty : ty.byteSize ≤ 4) (hs : s.byteSize < 2 ^ 31) :
    MField.countFits (.mk n (.array ty s) o sz e) = true := by
  simp only [MField.countFits, MField.ty, decide_eq_true_eq]
  have h1 : 256 ^ ty.byteSize ≤ 256 ^ 4 := Nat.pow_le_pow_right (by omega) hty
  have h2 : (256 ^ ty.byteSize - 1) * s.byteSize ≤ (256 ^ 4 - 1) * s.byteSize :=
    Nat.mul_le_mul_right _ (by omega)
  omega

example : MField.countFits (.mk ['a'] (.array .u32 Ex.keyS) false ⟨true, false⟩ .little) = true :=
  C25_count_fits (by decide) (by decide)

/-- C25: the inputs on which decoding panics, for every message and every input a machine can hold. -/
theorem C25_panics_iff (c : Ctx) (m : Message) {b : Bytes} (hb : b.length < 2 ^ 64) :
    m.parse c b = .panic ↔ m.Stuck c b := Message.panicsOn c m b hb

example {b : Bytes} (hb : b.length < 2 ^ 64) (h : Ex.full.parse Ex.ctx b = .panic) : Ex.full.Stuck Ex.ctx b :=
  (C25_panics_iff Ex.ctx Ex.full hb).1 h

/-- C25: a field that panics where the fields before it end makes the message panic, whatever follows
it. -/
theorem C25_reached (c : Ctx) {id : Nat} {nm : Name} {pre post : List MField} {f : MField}
    {sz sz' : SizeInfo} {b : Bytes} {n : Nat} {env : Env}
    (h : Message.parse c (.mk id nm pre sz) b = .ok ⟨n, .msg env⟩)
    (hf : f.parse c (c.emb id) env (b.drop n) = .panic) :
    Message.parse c (.mk id nm (pre ++ f :: post) sz') b = .panic := by
  obtain ⟨vs, hvs, hr⟩ := Message.parse_eq_ok.1 h
  cases hvs
  rw [Message.parse_eq]
  simp only [Message.id, Message.fields] at hr ⊢
  suffices hs : ∀ (env0 : Env) (b : Bytes) (n : Nat),
      runFields (MField.parse c (c.emb id)) pre env0 b = .ok (n, env) →
      f.parse c (c.emb id) env (b.drop n) = .panic →
      runFields (MField.parse c (c.emb id)) (pre ++ f :: post) env0 b = .panic by
    rw [hs [] b n hr hf]; rfl
  clear hr hf h
  intro env0 b n h1 h2
  induction pre generalizing env0 b n with
  | nil =>
    simp only [runFields, Res.ok.injEq, Prod.mk.injEq] at h1
    obtain ⟨rfl, rfl⟩ := h1
    simp only [List.drop_zero] at h2
    simp only [List.nil_append, runFields, h2]
  | cons g pre ih =>
    obtain ⟨m, v, k, h3, h4, rfl⟩ := runFields_cons_ok.mp h1
    simp only [List.cons_append, runFields, h3]
    rw [ih _ _ _ h4 (by rw [List.drop_drop]; exact h2)]

example : Message.parse ⟨.wrapping, fun _ => false⟩ (.mk 0 ['m'] ([.mk ['n'] (.fixed .u8) false ⟨false, false⟩ .little] ++
    .mk ['v'] (.varcharString .u8) false ⟨true, false⟩ .little :: []) ⟨true, false⟩) [7, 5, 65] = .panic :=
  C25_reached (sz := ⟨false, false⟩) (n := 1) (env := [(['n'], .num 7)]) _ rfl rfl

/-- C25: every message with a length-prefixed string behind self-delimiting fields that can be decoded
at all has an input that makes it panic. -/
theorem C25_varchar_panics (c : Ctx) {id : Nat} {nm : Name} {pre post : List MField} {sz sz' szf : SizeInfo}
    {b : Bytes} {n : Nat} {env : Env} {name : Name} {ty : FixedTy} {e : Endian}
    (hd : Message.delimited c.emb (.mk id nm pre sz) = true)
    (h : Message.parse c (.mk id nm pre sz) b = .ok ⟨n, .msg env⟩) :
    Message.parse c (.mk id nm (pre ++ .mk name (.varcharString ty) false szf e :: post) sz')
      (b.take n ++ wireInt e ty.byteSize 1) = .panic := by
  have hle := (Message.cut c _ _ _ _ h).1
  have hl : (b.take n).length = n := by simp; omega
  refine C25_reached c (sz := sz) (C23_accepted c hd h _).2 ?_
  rw [List.drop_append_of_le_length (by omega), List.drop_of_length_le (by omega), List.nil_append]
  have hp : 0 < ty.byteSize ∧ ty.byteSize ≤ 8 := by cases ty <;> decide
  have h1 : 1 < 256 ^ ty.byteSize := Nat.one_lt_pow (by omega) (by omega)
  have hv := Varchar.fromSlice_short (p := c.p) (e := e) (sz := ty.byteSize)
    (b := wireInt e ty.byteSize 1) (by simp) (by
      rw [List.take_of_length_le (by simp), intOfWire_wireInt, Nat.mod_eq_of_lt h1]; simp) hp.2
  simp only [MField.parse, MFieldTy.parse, Bool.false_eq_true, if_false, Parser.map, hv]
  rfl

example : Message.Stuck ⟨.wrapping, fun _ => false⟩ (.mk 0 ['m'] [.mk ['n'] (.fixed .u8) false ⟨false, false⟩ .little,
    .mk ['v'] (.varcharString .u8) true ⟨true, false⟩ .little] ⟨true, false⟩) [9, 1, 5, 65] := by
  simp only [Message.Stuck, MField.ListStuck, MField.Stuck]
  refine .inr ⟨1, .num 9, rfl, .inl ?_⟩
  exact ⟨1, [5, 65], rfl, by decide, by decide, by decide⟩

/-- C25 is false of the code: a length-prefixed string announcing more than there is panics. -/
theorem C25_false_varchar : Message.parse ⟨.wrapping, fun _ => false⟩
    (.mk 0 ['m'] [.mk ['v'] (.varcharString .u8) false ⟨true, false⟩ .little] ⟨true, false⟩) [5, 65] =
      .panic := by rfl

/-- C25 is false of the code: an array with a 64-bit count overflows (with overflow checks). -/
theorem C25_false_array : Message.parse ⟨.checked, fun _ => false⟩
    (.mk 0 ['m'] [.mk ['a'] (.array .u64 Ex.keyS) false ⟨true, false⟩ .little] ⟨true, false⟩)
      [255, 255, 255, 255, 255, 255, 255, 255] = .panic := by rfl

theorem C25_full_false : ¬ C25_full := fun h => h _ _ _ C25_false_varchar

namespace Ex

theorem key_usable : keyS.Usable := by
  refine ⟨?_, ?_, by decide⟩
  · simp [keyS, Structure.WF, SField.listWF, SField.WF, SField.width, ceil8]
  · simp [keyS, Structure.Sized, SField.listSized, SField.Sized]

theorem safe_keyed : safe.AllMessages Message.Keyed := by
  have trivialKeyed : ∀ m : Message, (∀ f ∈ m.fields, ∀ u on i, f.ty ≠ .union u on i) → m.Keyed := by
    intro m hm before f after heq
    have := hm f (by rw [heq]; simp)
    unfold MField.Keyed
    split
    · next u on i hu => exact absurd hu (this u on i)
    · trivial
  have hitem : Message.Keyed item := trivialKeyed _ (by
    intro f hf u on i
    simp only [item, Message.fields, List.mem_cons, List.not_mem_nil, or_false] at hf
    rcases hf with rfl | rfl <;> simp [MField.ty])
  have hgroup : Message.Keyed group := trivialKeyed _ (by
    intro f hf u on i
    simp only [group, Message.fields, List.mem_cons, List.not_mem_nil, or_false] at hf
    subst hf; simp [MField.ty])
  have hitem' : Message.AllMessages Message.Keyed item := by
    simp only [item, Message.AllMessages, MField.ListAllMessages, MFieldTy.AllMessages]
    exact ⟨hitem, trivial, trivial, trivial⟩
  have hgroup' : Message.AllMessages Message.Keyed group := by
    simp only [group, Message.AllMessages, MField.ListAllMessages, MFieldTy.AllMessages]
    exact ⟨hgroup, hitem', trivial⟩
  simp only [safe, Message.AllMessages, MField.ListAllMessages, MFieldTy.AllMessages, choice,
    Union.AllMessages, UCase.ListAllMessages, Referenced.AllMessages]
  refine ⟨?_, trivial, ⟨trivial, hitem', trivial⟩, trivial, hgroup', trivial⟩
  intro before f after heq
  simp only [Message.fields] at heq
  unfold MField.Keyed
  split
  · next u on i hu =>
    rcases before with _ | ⟨f0, _ | ⟨f1, _ | ⟨f2, _ | ⟨f3, _ | ⟨f4, rest⟩⟩⟩⟩⟩ <;>
      simp only [List.nil_append, List.cons_append, List.cons.injEq] at heq
    · rw [← heq.1] at hu; simp [MField.ty] at hu
    · rw [← heq.2.1] at hu
      simp only [MField.ty, MFieldTy.union.injEq] at hu
      obtain ⟨rfl, rfl, rfl⟩ := hu
      rw [← heq.1]
      exact ⟨_, rfl, rfl, rfl, key_usable, by decide⟩
    · rw [← heq.2.2.1] at hu; simp [MField.ty] at hu
    · rw [← heq.2.2.2.1] at hu; simp [MField.ty] at hu
    · exact absurd heq.2.2.2.2 (by simp)
    · exact absurd heq.2.2.2.2 (by simp)
  · trivial

end Ex

example : Ex.safe.allFields MField.notVarchar = true ∧ Ex.safe.allFields MField.countFits = true ∧
    Ex.safe.AllMessages Message.Keyed := ⟨by decide, by decide, Ex.safe_keyed⟩

/-! ## C26 -/

/-- C26: no strict prefix of the encoding of a self-delimiting message decodes. -/
theorem C26_prefix (c : Ctx) {m : Message} (hm : m.delimited c.emb = true) {v : Value}
    (hv : m.Repr c v) {k : Nat} (hk : k < (m.write c v).bytes.length) (r : Msg Value) :
    m.parse c ((m.write c v).bytes.take k) ≠ .ok r := by
  have h := C23_trailing c hm hv []
  rw [List.append_nil] at h
  rcases Message.truncates True hm (.inl trivial) _ _ _ h k hk with h | ⟨_, h⟩ <;> rw [h] <;> simp

example (r : Msg Value) : Ex.group.parse Ex.ctx ((Ex.group.write Ex.ctx Ex.groupV).bytes.take 4) ≠ .ok r :=
  C26_prefix Ex.ctx (by decide) Ex.groupV_repr (by decide) r

/-- C26: without length-prefixed strings the result is a truncation error. -/
theorem C26_truncated (c : Ctx) {m : Message} (hm : m.delimited c.emb = true)
    (hs : m.allFields MField.notVarchar = true) {v : Value} (hv : m.Repr c v) {k : Nat}
    (hk : k < (m.write c v).bytes.length) :
    m.parse c ((m.write c v).bytes.take k) = .err .truncated := by
  have h := C23_trailing c hm hv []
  rw [List.append_nil] at h
  rcases Message.truncates False hm (.inr hs) _ _ _ h k hk with h | ⟨hf, _⟩
  · exact h
  · exact absurd hf id

example : Ex.group.parse Ex.ctx ((Ex.group.write Ex.ctx Ex.groupV).bytes.take 4) = .err .truncated :=
  C26_truncated Ex.ctx (by decide) (by decide) Ex.groupV_repr (by decide)

/-- C26: the same for any accepted input cut below the reported size. -/
theorem C26_cut (c : Ctx) {m : Message} (hm : m.delimited c.emb = true) {b : Bytes} {n : Nat}
    {v : Value} (h : m.parse c b = .ok ⟨n, v⟩) {k : Nat} (hk : k < n) :
    (∀ r, m.parse c (b.take k) ≠ .ok r) ∧
      (m.allFields MField.notVarchar = true → m.parse c (b.take k) = .err .truncated) := by
  refine ⟨fun r => ?_, fun hs => ?_⟩
  · rcases Message.truncates True hm (.inl trivial) b n v h k hk with h | ⟨_, h⟩ <;> rw [h] <;> simp
  · rcases Message.truncates False hm (.inr hs) b n v h k hk with h | ⟨hf, _⟩
    · exact h
    · exact absurd hf id

example : Ex.group.delimited Ex.ctx.emb = true ∧ Ex.group.allFields MField.notVarchar = true ∧
    Ex.group.Repr Ex.ctx Ex.groupV := ⟨by decide, by decide, Ex.groupV_repr⟩

/-! ## C27 -/

/-- C27: what was decoded can be encoded, to the same number of bytes, which decode to the same value;
without optional fields the bytes are exactly those decoded. -/
theorem C27_reencode (c : Ctx) (m : Message) {b : Bytes} {n : Nat} {v : Value}
    (h : m.parse c b = .ok ⟨n, v⟩) :
    (m.write c v).res = .ok () ∧ (m.write c v).bytes.length = n ∧
      m.parse c (m.write c v).bytes = .ok ⟨n, v⟩ ∧
      (n < b.length → ∀ t, m.parse c ((m.write c v).bytes ++ t) = .ok ⟨n, v⟩) ∧
      (m.allFields MField.notOptional = true → (m.write c v).bytes = b.take n) :=
  Message.reencodes c m b n v h

example : (Ex.item.write Ex.ctx Ex.itemW).bytes.length = 3 ∧
    Ex.item.parse Ex.ctx ((Ex.item.write Ex.ctx Ex.itemW).bytes ++ [1]) = .ok ⟨3, Ex.itemW⟩ :=
  have h := C27_reencode Ex.ctx Ex.item (b := [7, 0, 0, 99]) (n := 3) (v := Ex.itemW) rfl
  ⟨h.2.1, h.2.2.2.1 (by decide) [1]⟩

/-- C27: with optional fields the bytes may differ: any non-zero flag decodes as present. -/
theorem C27_flag_not_canonical :
    Ex.item.parse Ex.ctx [7, 0, 9, 104, 0] =
        .ok ⟨5, .msg [("x".toList, .num 7), ("s".toList, .some (.str [104]))]⟩ ∧
      (Ex.item.write Ex.ctx (.msg [("x".toList, .num 7), ("s".toList, .some (.str [104]))])).bytes =
        [7, 0, 1, 104, 0] := ⟨by rfl, by rfl⟩

/-! ## C28 -/

/-- C28: two representable values with the same encoding are equal. -/
theorem C28_injective (c : Ctx) {m : Message} (hm : m.tailGreedy c.emb = true) {v w : Value}
    (hv : m.Repr c v) (hw : m.Repr c w) (h : (m.write c v).bytes = (m.write c w).bytes) : v = w := by
  have h1 := (C22_roundtrip c hm hv).2
  have h2 := (C22_roundtrip c hm hw).2
  rw [h, h2] at h1
  simpa using h1.symm

example : (Ex.item.write Ex.ctx Ex.itemV).bytes ≠ (Ex.item.write Ex.ctx Ex.itemW).bytes := fun h =>
  absurd (C28_injective Ex.ctx (by decide) Ex.itemV_repr Ex.itemW_repr h) (by simp [Ex.itemV, Ex.itemW])

/-- C28: no encoding of a self-delimiting message is a strict prefix of another. -/
theorem C28_prefix_free (c : Ctx) {m : Message} (hm : m.delimited c.emb = true) {v w : Value}
    (hv : m.Repr c v) (hw : m.Repr c w) {t : Bytes}
    (h : (m.write c v).bytes ++ t = (m.write c w).bytes) : v = w ∧ t = [] := by
  have h1 := C23_trailing c hm hv t
  have h2 := C23_trailing c hm hw []
  rw [List.append_nil, ← h, h1] at h2
  simp only [Res.ok.injEq, Msg.mk.injEq, List.length_append] at h2
  exact ⟨h2.2, List.eq_nil_of_length_eq_zero (by omega)⟩

example (t : Bytes) : (Ex.item.write Ex.ctx Ex.itemW).bytes ++ t ≠ (Ex.item.write Ex.ctx Ex.itemV).bytes :=
  fun h => absurd (C28_prefix_free Ex.ctx (by decide) Ex.itemW_repr Ex.itemV_repr h).1
    (by simp [Ex.itemV, Ex.itemW])

/-- C28: what is decoded is a value that can be encoded faithfully, when no array can announce more
than the machine word holds and the items of lists have no optional fields. -/
theorem C28_decoded (c : Ctx) {m : Message} (ha : m.allFields MField.countFits = true)
    (hl : m.allFields MField.plainItems = true) {b : Bytes} {n : Nat} {v : Value}
    (hb : b.length < 2 ^ 64) (h : m.parse c b = .ok ⟨n, v⟩) : m.Repr c v :=
  Message.parse_repr ha hl hb h

example : Ex.item.Repr Ex.ctx Ex.itemW :=
  C28_decoded Ex.ctx (by decide) (by decide) (b := [7, 0, 0, 99]) (n := 3) (by decide) rfl

/-- Without optional fields lists have none in their items. -/
theorem plainItems_of_notOptional : ∀ {m : Message}, m.allFields MField.notOptional = true →
    m.allFields MField.plainItems = true := by
  intro m
  refine (SchemaInd.all (P := fun m => m.allFields MField.notOptional = true →
    m.allFields MField.plainItems = true) (Q := fun t => t.allFields MField.notOptional = true →
      t.allFields MField.plainItems = true) ⟨?_, ?_, ?_, ?_, ?_, ?_, ?_, ?_, ?_, ?_⟩) m
  · intro ty _; rfl
  · intro s _; rfl
  · intro m h hm
    simp only [MFieldTy.allFields, Referenced.allFields] at hm ⊢
    exact h hm
  · intro _; rfl
  · intro ty _; rfl
  · intro ty s _; rfl
  · intro n d cs sz on i h hc
    simp only [MFieldTy.allFields, Union.allFields] at hc ⊢
    have hc' := UCase.listAllFields_mem hc
    clear hc
    induction cs with
    | nil => rfl
    | cons k cs ih =>
      obtain ⟨nm, case, t⟩ := k
      have ih' := ih (fun k hk => h k (by simp [hk])) (fun k hk => hc' k (by simp [hk]))
      cases t with
      | none => simpa only [UCase.listAllFields] using ih'
      | some r =>
        simp only [UCase.listAllFields, Bool.and_eq_true]
        have := h (.mk nm case (some r)) (by simp) r rfl (by
          simpa only [MFieldTy.allFields] using hc' (.mk nm case (some r)) (by simp) r rfl)
        exact ⟨by simpa only [MFieldTy.allFields] using this, ih'⟩
  · intro ty m h hm
    simp only [MFieldTy.allFields] at hm ⊢
    exact h hm
  · intro _; rfl
  · intro id n fs sz h hm
    simp only [Message.allFields] at hm ⊢
    have hm' := MField.listAllFields_mem hm
    clear hm
    induction fs with
    | nil => rfl
    | cons f fs ih =>
      obtain ⟨nm, ty, o, sz', e⟩ := f
      have ih' := ih (fun k hk => h k (by simp [hk])) (fun k hk => hm' k (by simp [hk]))
      obtain ⟨h1, h2⟩ := hm' (.mk nm ty o sz' e) (by simp)
      simp only [MField.listAllFields, Bool.and_eq_true]
      refine ⟨⟨?_, h (.mk nm ty o sz' e) (by simp) h2⟩, ih'⟩
      unfold MField.plainItems
      split
      · next h3 =>
        simp only [MField.ty] at h2 h3
        rw [h3] at h2
        simpa only [MFieldTy.allFields] using h2
      · rfl

/-- C28: the decoder of a self-delimiting message without optional fields accepts exactly the inputs
that begin with the wire form of a representable value, and returns that value and the length of its
wire form. -/
theorem C28_accepts (c : Ctx) {m : Message} (hm : m.delimited c.emb = true)
    (ha : m.allFields MField.countFits = true) (ho : m.allFields MField.notOptional = true) {b : Bytes}
    (hb : b.length < 2 ^ 64) (n : Nat) (v : Value) :
    m.parse c b = .ok ⟨n, v⟩ ↔ m.Repr c v ∧ n = (m.wire v).length ∧ m.wire v <+: b := by
  constructor
  · intro h
    have hr := C28_decoded c ha (plainItems_of_notOptional ho) hb h
    obtain ⟨-, h2, -, -, h5⟩ := C27_reencode c m h
    rw [(C58_wire c hr).2] at h2 h5
    exact ⟨hr, h2.symm, by rw [h5 ho]; exact List.take_prefix _ _⟩
  · rintro ⟨hr, rfl, t, rfl⟩
    have := C23_trailing c hm hr t
    rwa [(C58_wire c hr).2] at this

example : Ex.keyed.Repr Ex.ctx Ex.keyedV ∧ Ex.keyed.wire Ex.keyedV <+: [1, 9, 3, 4, 1, 5, 6, 77] :=
  have h := (C28_accepts Ex.ctx (m := Ex.keyed) (by decide) (by decide) (by decide)
    (b := [1, 9, 3, 4, 1, 5, 6, 77]) (by decide) 7 Ex.keyedV).1 rfl
  ⟨h.1, h.2.2⟩

/-- C28: the same where something may take the rest of the input, at the end. -/
theorem C28_accepts_whole (c : Ctx) {m : Message} (hm : m.tailGreedy c.emb = true)
    (ha : m.allFields MField.countFits = true) (ho : m.allFields MField.notOptional = true) {b : Bytes}
    (hb : b.length < 2 ^ 64) (v : Value) :
    m.parse c b = .ok ⟨b.length, v⟩ ↔ m.Repr c v ∧ m.wire v = b := by
  constructor
  · intro h
    have hr := C28_decoded c ha (plainItems_of_notOptional ho) hb h
    obtain ⟨-, -, -, -, h5⟩ := C27_reencode c m h
    rw [(C58_wire c hr).2, List.take_length] at h5
    exact ⟨hr, h5 ho⟩
  · rintro ⟨hr, rfl⟩
    exact C22_decode_wire c hm hr

example : Ex.keyed.wire Ex.keyedV = [1, 9, 3, 4, 1, 5, 6] :=
  ((C28_accepts_whole Ex.ctx (m := Ex.keyed) (by decide) (by decide) (by decide)
    (b := [1, 9, 3, 4, 1, 5, 6]) (by decide) Ex.keyedV).1 rfl).2

/-- C28: the decoder of a self-delimiting message accepts exactly the inputs that begin with a word of
its grammar (`Message.Enc`), optional fields, lists and unions included, and returns the value of that
word and its length. -/
theorem C28_grammar (c : Ctx) {m : Message} (hm : m.delimited c.emb = true)
    (ha : c.p = .checked ∨ m.allFields MField.countFits = true) {b : Bytes} (hb : b.length < 2 ^ 64)
    (n : Nat) (v : Value) :
    m.parse c b = .ok ⟨n, v⟩ ↔ ∃ w t, b = w ++ t ∧ n = w.length ∧ m.Enc c v w := by
  constructor
  · intro h
    have hn := (Message.cut c m b n v h).1
    exact ⟨b.take n, b.drop n, (List.take_append_drop n b).symm, by simp; omega, Message.parse_enc ha h⟩
  · rintro ⟨w, t, rfl, rfl, hw⟩
    rw [List.length_append] at hb
    exact (Message.takes c m v w (by omega) hw).1 hm t

example : ∃ w t, [7, 0, 9, 104, 0, 8] = w ++ t ∧ 5 = w.length ∧
    Ex.item.Enc Ex.ctx (.msg [("x".toList, .num 7), ("s".toList, .some (.str [104]))]) w :=
  (C28_grammar Ex.ctx (m := Ex.item) (by decide) (.inl rfl) (by decide) 5 _).1 rfl

/-- C28: the same where something may take the rest of the input, at the end. -/
theorem C28_grammar_whole (c : Ctx) {m : Message} (hm : m.tailGreedy c.emb = true)
    (ha : c.p = .checked ∨ m.allFields MField.countFits = true) {b : Bytes} (hb : b.length < 2 ^ 64)
    (v : Value) : m.parse c b = .ok ⟨b.length, v⟩ ↔ m.Enc c v b := by
  constructor
  · intro h
    have := Message.parse_enc ha h
    rwa [List.take_length] at this
  · exact fun hw => (Message.takes c m v b hb hw).2 hm

example : Ex.item.Enc Ex.ctx (.msg [("x".toList, .num 7), ("s".toList, .some (.str [104]))]) [7, 0, 9, 104, 0] :=
  (C28_grammar_whole Ex.ctx (m := Ex.item) (by decide) (.inl rfl) (by decide) _).1 C27_flag_not_canonical.1

/-- C28: the grammar is unambiguous, also when something follows. -/
theorem C28_unambiguous (c : Ctx) {m : Message} (hm : m.delimited c.emb = true) {v v' : Value}
    {w w' t t' : Bytes} (hw : w.length < 2 ^ 64) (hw' : w'.length < 2 ^ 64) (h : m.Enc c v w)
    (h' : m.Enc c v' w') (ht : w ++ t = w' ++ t') : v = v' ∧ w = w' := by
  have h1 := (Message.takes c m v w hw h).1 hm t
  rw [ht, (Message.takes c m v' w' hw' h').1 hm t'] at h1
  simp only [Res.ok.injEq, Msg.mk.injEq] at h1
  exact ⟨h1.2.symm, (List.append_inj ht h1.1.symm).1⟩

example {v v' : Value} {w w' t t' : Bytes} (hw : w.length < 2 ^ 64) (hw' : w'.length < 2 ^ 64)
    (h : Ex.full.Enc Ex.ctx v w) (h' : Ex.full.Enc Ex.ctx v' w') (ht : w ++ t = w' ++ t') : v = v' ∧ w = w' :=
  C28_unambiguous Ex.ctx Ex.full_delimited hw hw' h h' ht

/-- C28: values with a form in the grammar can be written; without optional fields the form is what is
written, and in any case what is written is as long and is a form of the same value. -/
theorem C28_written (c : Ctx) {m : Message} (hm : m.tailGreedy c.emb = true)
    (ha : c.p = .checked ∨ m.allFields MField.countFits = true) {v : Value} {w : Bytes}
    (hw : w.length < 2 ^ 64) (h : m.Enc c v w) :
    (m.write c v).res = .ok () ∧ (m.write c v).bytes.length = w.length ∧
      m.Enc c v (m.write c v).bytes ∧
      (m.allFields MField.notOptional = true → (m.write c v).bytes = w) := by
  have hp := (C28_grammar_whole c hm ha hw v).2 h
  obtain ⟨h1, h2, h3, -, h5⟩ := C27_reencode c m hp
  refine ⟨h1, h2, ?_, fun ho => by rw [h5 ho, List.take_length]⟩
  rw [← h2] at h3
  exact (C28_grammar_whole c hm ha (by omega) v).1 h3

/-- Nine for "present". -/
example : Ex.item.Enc Ex.ctx (.msg [("x".toList, .num 7), ("s".toList, .some (.str [104]))])
    [7, 0, 9, 104, 0] := by
  have := Message.parse_enc (.inl rfl) C27_flag_not_canonical.1
  rwa [List.take_of_length_le (by decide)] at this

example : Ex.keyed.delimited Ex.ctx.emb = true ∧ Ex.keyed.allFields MField.countFits = true ∧
    Ex.keyed.allFields MField.notOptional = true ∧
    Ex.keyed.parse Ex.ctx [1, 9, 3, 4, 1, 5, 6, 77] = .ok ⟨7, Ex.keyedV⟩ :=
  ⟨by decide, by decide, by decide, by rfl⟩

/-! ## C35 -/

/-- C35: forgetting the offsets gives exactly the result of plain decoding: same value and size, same
error, same panic. -/
theorem C35_agree (c : Ctx) (m : Message) (b : Bytes) :
    (m.parseOff c b).bind (fun r => .ok ⟨r.size, r.data.1⟩) = m.parse c b := by
  have := congrFun (Message.offOk c m).2 b
  unfold Parser.map at this
  rw [← this]
  cases m.parseOff c b <;> rfl

example : Ex.item.parse Ex.ctx [7, 0, 0, 99] = .ok ⟨3, Ex.itemW⟩ := by
  rw [← C35_agree]; rfl

/-- The bytes from `r.start` to `r.stop`. -/
def bytesOf (b : Bytes) (r : FieldOffset) : Bytes := (b.drop r.start).take (r.stop - r.start)

theorem runOff_tiles {c : Ctx} {emb : Bool} {fs : List MField} {env : Env} {off : Nat} {b : Bytes}
    {n : Nat} {env' : Env} {offs : OffEnv}
    (h : runOff (MField.parseOff c emb) fs env off (b.drop off) = .ok (n, env', offs))
    (hoff : off ≤ b.length) :
    ∃ vs : Env, env' = env ++ vs ∧ vs.length = fs.length ∧ offs.length = fs.length ∧
      (fs = [] → n = 0) ∧
      ∀ i f, fs[i]? = some f → ∃ r o v, offs[i]? = some (f.name, r, o) ∧ vs[i]? = some (f.name, v) ∧
        r.start ≤ r.stop ∧ r.stop ≤ off + n ∧ (i = 0 → r.start = off) ∧
        (∀ p, i ≠ 0 → offs[i - 1]? = some p → r.start = p.2.1.stop) ∧
        (i + 1 = fs.length → r.stop = off + n) ∧
        f.parseOff c emb (env ++ vs.take i) (bytesOf b r) = .ok ⟨r.stop - r.start, (v, o)⟩ := by
  induction fs generalizing env off n offs with
  | nil =>
    simp only [runOff, Res.ok.injEq, Prod.mk.injEq] at h
    obtain ⟨rfl, rfl, rfl⟩ := h
    exact ⟨[], by simp, rfl, rfl, fun _ => rfl, by simp⟩
  | cons f fs ih =>
    obtain ⟨m, v, o, k, rest, h1, h2, rfl, rfl⟩ := runOff_cons_ok.mp h
    obtain ⟨hm, hcut⟩ := MField.parseOff_cut c emb f env _ _ _ h1
    rw [List.length_drop] at hm
    rw [List.drop_drop] at h2
    obtain ⟨vs, rfl, hvl, hol, hnil, hi⟩ := ih h2 (by omega)
    refine ⟨(f.name, v) :: vs, by simp, by simp [hvl], by simp [hol], by simp, ?_⟩
    intro i g hg
    cases i with
    | zero =>
      simp only [List.getElem?_cons_zero, Option.some.injEq] at hg
      subst hg
      refine ⟨⟨off, off + m⟩, o, v, by simp, by simp, by simp, by simp, fun _ => rfl,
        fun _ h => absurd rfl h, fun hlen => ?_, ?_⟩
      · have : fs = [] := List.eq_nil_of_length_eq_zero (by simpa using hlen.symm)
        have := hnil this
        simp only; omega
      · simp only [bytesOf, Nat.add_sub_cancel_left, List.take_zero, List.append_nil]
        exact hcut m (Nat.le_refl _)
    | succ i =>
      simp only [List.getElem?_cons_succ] at hg ⊢
      obtain ⟨r, o', v', ho, hv, hr1, hr2, hz, hp, hlast, hparse⟩ := hi i g hg
      refine ⟨r, o', v', ho, hv, hr1, by omega, by omega, ?_, ?_, ?_⟩
      · intro p _ hpget
        simp only [Nat.add_sub_cancel] at hpget
        cases i with
        | zero =>
          simp only [List.getElem?_cons_zero, Option.some.injEq] at hpget
          subst hpget
          exact hz rfl
        | succ i =>
          simp only [List.getElem?_cons_succ] at hpget
          exact hp p (by omega) (by simpa using hpget)
      · intro hlen
        have := hlast (by simpa using hlen)
        omega
      · rw [List.take_succ_cons]
        simpa using hparse

/-- C35: the reported ranges: one per field, named after it, in field order; the first starts at 0,
each next one starts where the previous one stops, the last one stops at the reported size; decoding
the bytes of a range alone, in the context of the fields before, yields the field's value, its nested
offsets, and the size of the range. -/
theorem C35_tiles (c : Ctx) (m : Message) {b : Bytes} {n : Nat} {v : Value} {o : Offsets}
    (h : m.parseOff c b = .ok ⟨n, (v, o)⟩) :
    ∃ (vs : Env) (offs : OffEnv), v = .msg vs ∧ o = .msg offs ∧
      vs.length = m.fields.length ∧ offs.length = m.fields.length ∧ (m.fields = [] → n = 0) ∧
      ∀ i f, m.fields[i]? = some f → ∃ r o v, offs[i]? = some (f.name, r, o) ∧
        vs[i]? = some (f.name, v) ∧ r.start ≤ r.stop ∧ r.stop ≤ n ∧ (i = 0 → r.start = 0) ∧
        (∀ p, i ≠ 0 → offs[i - 1]? = some p → r.start = p.2.1.stop) ∧
        (i + 1 = m.fields.length → r.stop = n) ∧
        f.parse c (c.emb m.id) (vs.take i) (bytesOf b r) = .ok ⟨r.stop - r.start, v⟩ ∧
        f.parseOff c (c.emb m.id) (vs.take i) (bytesOf b r) = .ok ⟨r.stop - r.start, (v, o)⟩ := by
  obtain ⟨vs, offs, rfl, rfl, hr⟩ := Message.parseOff_eq_ok.mp h
  have hr' : runOff (MField.parseOff c (c.emb m.id)) m.fields [] 0 (b.drop 0) = .ok (n, vs, offs) := by
    simpa using hr
  obtain ⟨vs', heq, h1, h2, h3, h4⟩ := runOff_tiles hr' (by omega)
  rw [List.nil_append] at heq
  subst heq
  simp only [List.nil_append, Nat.zero_add] at h4 ⊢
  refine ⟨vs, offs, rfl, rfl, h1, h2, h3, fun i f hf => ?_⟩
  obtain ⟨r, o, v, g1, g2, g3, g4, g5, g6, g7, g8⟩ := h4 i f hf
  refine ⟨r, o, v, g1, g2, g3, g4, g5, g6, g7, ?_, g8⟩
  rw [← MField.parseOff_fst]
  unfold Parser.map
  rw [g8]; rfl

example : ∀ (n : Nat) (v : Value) (o : Offsets), Ex.item.parseOff Ex.ctx [7, 0, 0, 99] = .ok ⟨n, (v, o)⟩ →
    ∃ (vs : Env) (offs : OffEnv), v = .msg vs ∧ o = .msg offs ∧ vs.length = 2 ∧ offs.length = 2 :=
  fun _ _ _ h => let ⟨vs, offs, h1, h2, h3, h4, _⟩ := C35_tiles Ex.ctx Ex.item h
    ⟨vs, offs, h1, h2, h3, h4⟩

/-- C35: the nested offsets of a field: those of the referenced message decoded from the field's own
bytes (hence relative to them), after the flag byte if the field is optional; none for other types. -/
theorem C35_nested (c : Ctx) (emb : Bool) (f : MField) (env : Env) (b : Bytes) {n : Nat} {v : Value}
    {o : Offsets} (h : f.parseOff c emb env b = .ok ⟨n, (v, o)⟩) :
    (∀ m, f.ty = .ref (.message m) → f.optional = false → m.parseOff c b = .ok ⟨n, (v, o)⟩) ∧
    (∀ m, f.ty = .ref (.message m) → f.optional = true →
      (v = .none ∧ o = .absent ∧ n = 1) ∨
      ∃ x y, v = .some x ∧ o = .present y ∧ 0 < n ∧ m.parseOff c (b.drop 1) = .ok ⟨n - 1, (x, y)⟩) ∧
    ((∀ m, f.ty ≠ .ref (.message m)) → o = .unit) := by
  obtain ⟨nm, ty, opt, sz, e⟩ := f
  simp only [MField.ty, MField.optional]
  refine ⟨?_, ?_, ?_⟩
  · rintro m rfl rfl
    simpa only [MField.parseOff, Bool.false_eq_true, if_false] using h
  · rintro m rfl rfl
    simp only [MField.parseOff, if_true] at h
    obtain ⟨x, hx, hvo⟩ := Parser.map_eq_ok.mp h
    obtain ⟨rfl, rfl⟩ := Prod.mk.inj hvo
    rcases Optional.offsets_eq_ok.mp hx with ⟨t, rfl, rfl, rfl⟩ | ⟨y, t, k, w, o, rfl, hy, hk, rfl, rfl⟩
    · exact .inl ⟨rfl, rfl, rfl⟩
    · exact .inr ⟨w, o, rfl, rfl, by omega, by simpa using hk⟩
  · intro hne
    cases ty with
    | ref r =>
      cases r with
      | message m => exact absurd rfl (hne m)
      | struct s =>
        simp only [MField.parseOff] at h
        obtain ⟨x, _, hvo⟩ := Parser.map_eq_ok.mp h
        exact (Prod.mk.inj hvo).2
    | _ =>
      simp only [MField.parseOff] at h
      obtain ⟨x, _, hvo⟩ := Parser.map_eq_ok.mp h
      exact (Prod.mk.inj hvo).2

/-- C35: decoding with offsets is decoding, and the ranges are those of the wire form of the value
decoded: each field as long as its own wire form, in order, from 0, and in each message within one
relative to that message.  The size reported is the length of the wire form. -/
theorem C35_exact (c : Ctx) (m : Message) (b : Bytes) :
    m.parseOff c b =
      (m.parse c b).bind (fun r => .ok ⟨(m.wire r.data).length, (r.data, m.offsetsOf r.data)⟩) := by
  rw [← C35_agree]
  cases h : m.parseOff c b with
  | ok r =>
    obtain ⟨n, v, o⟩ := r
    have hp : m.parse c b = .ok ⟨n, v⟩ := by rw [← C35_agree, h]; rfl
    have hn := Message.parse_wire hp
    have ho := Message.parseOff_offsets h
    subst hn ho
    rfl
  | err e => rfl
  | panic => rfl

/-- C35: the size that plain decoding reports is the length of the wire form of the value. -/
theorem C35_size (c : Ctx) (m : Message) {b : Bytes} {n : Nat} {v : Value}
    (h : m.parse c b = .ok ⟨n, v⟩) : n = (m.wire v).length := (Message.parse_wire h).symm

/-- A structure, a nested message, perhaps another one. -/
def Ex.pair : Message :=
  .mk 25 "Pair".toList
    [ .mk "k".toList (.ref (.struct Ex.keyS)) false ⟨false, false⟩ .little,
      .mk "i".toList (.ref (.message Ex.item)) false ⟨true, false⟩ .little,
      .mk "o".toList (.ref (.message Ex.item)) true ⟨true, false⟩ .little ] ⟨true, false⟩

example : Ex.pair.parseOff Ex.ctx [0, 1, 7, 0, 0, 1, 7, 0, 0] =
    .ok ⟨9, (.msg [("k".toList, .struct [0, 1]), ("i".toList, Ex.itemW), ("o".toList, .some Ex.itemW)],
      .msg [("k".toList, ⟨0, 2⟩, .unit),
        ("i".toList, ⟨2, 5⟩, .msg [("x".toList, ⟨0, 2⟩, .unit), ("s".toList, ⟨2, 3⟩, .unit)]),
        ("o".toList, ⟨5, 9⟩,
          .present (.msg [("x".toList, ⟨0, 2⟩, .unit), ("s".toList, ⟨2, 3⟩, .unit)]))])⟩ := by rfl

example : Ex.pair.offsetsOf
      (.msg [("k".toList, .struct [0, 1]), ("i".toList, Ex.itemW), ("o".toList, .some Ex.itemW)]) =
    .msg [("k".toList, ⟨0, 2⟩, .unit),
      ("i".toList, ⟨2, 5⟩, .msg [("x".toList, ⟨0, 2⟩, .unit), ("s".toList, ⟨2, 3⟩, .unit)]),
      ("o".toList, ⟨5, 9⟩,
        .present (.msg [("x".toList, ⟨0, 2⟩, .unit), ("s".toList, ⟨2, 3⟩, .unit)]))] := by rfl

end Proto.Props
