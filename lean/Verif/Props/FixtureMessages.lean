import Verif.Fixtures.Compiled
import Verif.Props.Message
import Verif.Props.Union
import Verif.Props.Seq
import Verif.Base.Lit

/-!
# C87: the messages of the test program

What `testprog/tests/test_test.rs`, `test_unions.rs`, `test_lists.rs` and `test_arrays.rs` check on
examples, for every value.  `id` and the like stand for allocations; `C87_compiles` has their values.
-/

namespace Proto.Fix

open Props

/-- A string that can be NUL-terminated. -/
def Plain (s : Bytes) : Prop := IsUtf8 s ∧ 0 ∉ s

/-- The four bytes of a number, least significant first. -/
def four (n : Nat) : Bytes :=
  [UInt8.ofNat n, UInt8.ofNat (n / 256), UInt8.ofNat (n / 65536), UInt8.ofNat (n / 16777216)]

theorem wireInt_one (n : Nat) : wireInt .little 1 n = [UInt8.ofNat n] := by
  simp [wireInt, natLe]

theorem wireInt_four (n : Nat) : wireInt .little 4 n = four n := by
  simp [wireInt, natLe, four, Nat.div_div_eq_div_mul]

/-! ## `Test` -/

def test1V (s : Bytes) (n : Nat) : Value := .msg [("s1".toList, .str s), ("p1".toList, .num n)]

/-- The value of a `Test`; `p1` is the string and the number of its `Test1`. -/
def testV (s1 s2 : Bytes) (p1 : Option (Bytes × Nat)) : Value :=
  .msg [("s1".toList, .str s1), ("s2".toList, .str s2),
    ("p1".toList, match p1 with
      | none => .none
      | some (s, n) => .some (test1V s n))]

/-- Its bytes. -/
def testWire (s1 s2 : Bytes) (p1 : Option (Bytes × Nat)) : Bytes :=
  s1 ++ [0] ++ [UInt8.ofNat s2.length] ++ s2 ++
    match p1 with
    | none => [0]
    | some (s, n) => [1] ++ s ++ [0] ++ four n

/-- What a `Test` can hold. -/
def TestOk (s1 s2 : Bytes) (p1 : Option (Bytes × Nat)) : Prop :=
  Plain s1 ∧ IsUtf8 s2 ∧ s2.length < 256 ∧ ∀ s n, p1 = some (s, n) → Plain s ∧ n < 2 ^ 32

/-- Where its fields are. -/
def testOffsets (s1 s2 : Bytes) (p1 : Option (Bytes × Nat)) : Offsets :=
  .msg [("s1".toList, ⟨0, s1.length + 1⟩, .unit),
    ("s2".toList, ⟨s1.length + 1, s1.length + s2.length + 2⟩, .unit),
    ("p1".toList, ⟨s1.length + s2.length + 2, (testWire s1 s2 p1).length⟩,
      match p1 with
      | none => .absent
      | some (s, _) => .present (.msg [("s1".toList, ⟨0, s.length + 1⟩, .unit),
          ("p1".toList, ⟨s.length + 1, s.length + 5⟩, .unit)]))]

theorem test1_repr (c : Ctx) (id : Nat) (v : Value) :
    (testTest1 id).Repr c v ↔ ∃ s n, Plain s ∧ n < 2 ^ 32 ∧ v = test1V s n := by
  simp only [testTest1, Message.Repr, MField.ListRepr, MField.Repr, MFieldTy.Repr, MField.name,
    Bool.false_eq_true, if_false, test1V, Plain]
  constructor
  · rintro ⟨_, rfl, _, _, rfl, ⟨s, rfl, h1, h2⟩, _, _, rfl, ⟨n, rfl, h3⟩, rfl⟩
    exact ⟨s, n, ⟨h1, h2⟩, h3, rfl⟩
  · rintro ⟨s, n, ⟨h1, h2⟩, h3, rfl⟩
    exact ⟨_, rfl, _, _, rfl, ⟨s, rfl, h1, h2⟩, _, _, rfl, ⟨n, rfl, h3⟩, rfl⟩

theorem test_repr (c : Ctx) (id : Nat) (v : Value) :
    (testTest id).Repr c v ↔ ∃ s1 s2 p1, TestOk s1 s2 p1 ∧ v = testV s1 s2 p1 := by
  simp only [testTest, Message.Repr, MField.ListRepr, MField.Repr, MFieldTy.Repr, Referenced.Repr,
    MField.name, Bool.false_eq_true, if_false, if_true, test1_repr]
  constructor
  · rintro ⟨_, rfl, _, _, rfl, ⟨s1, rfl, h1, h2⟩, _, _, rfl, ⟨s2, rfl, h3, h4, -⟩, p, _, rfl, hp, rfl⟩
    rcases hp with rfl | ⟨_, rfl, s, n, h5, h6, rfl⟩
    · exact ⟨s1, s2, none, ⟨⟨h1, h2⟩, h3, h4, by simp⟩, rfl⟩
    · exact ⟨s1, s2, some (s, n), ⟨⟨h1, h2⟩, h3, h4, by rintro _ _ ⟨⟩; exact ⟨h5, h6⟩⟩, rfl⟩
  · rintro ⟨s1, s2, p1, ⟨⟨h1, h2⟩, h3, h4, h5⟩, rfl⟩
    refine ⟨_, rfl, _, _, rfl, ⟨s1, rfl, h1, h2⟩, _, _, rfl, ⟨s2, rfl, h3, h4, ?_⟩, _, _, rfl, ?_, rfl⟩
    · show 1 + _ < _; omega
    · cases p1 with
      | none => exact .inl rfl
      | some x => exact .inr ⟨_, rfl, x.1, x.2, (h5 x.1 x.2 rfl).1, (h5 x.1 x.2 rfl).2, rfl⟩

theorem test_wire (id : Nat) (s1 s2 : Bytes) (p1 : Option (Bytes × Nat)) :
    (testTest id).wire (testV s1 s2 p1) = testWire s1 s2 p1 := by
  cases p1 <;>
  simp [testTest, testTest1, testV, test1V, testWire, Message.wire, MField.listWire, MField.wire,
    MFieldTy.wire, Referenced.wire, FixedTy.byteSize, wireInt_one, wireInt_four]

theorem test_offsetsOf (id : Nat) (s1 s2 : Bytes) (p1 : Option (Bytes × Nat)) :
    (testTest id).offsetsOf (testV s1 s2 p1) = testOffsets s1 s2 p1 := by
  cases p1 <;>
  simp [testTest, testTest1, testV, test1V, testWire, testOffsets, Message.offsetsOf,
    MField.listOffsets, MField.offsetsOf, MField.name, Message.wire, MField.listWire, MField.wire,
    MFieldTy.wire, Referenced.wire, FixedTy.byteSize, wireInt_one, wireInt_four, four] <;> omega

/-- C87: writing a `Test` gives exactly these bytes; reading them back, whatever follows, gives the
value, its size and the offsets (`test_test.rs`). -/
theorem C87_test (c : Ctx) (id : Nat) {s1 s2 : Bytes} {p1 : Option (Bytes × Nat)}
    (h : TestOk s1 s2 p1) (t : Bytes) :
    ((testTest id).write c (testV s1 s2 p1)).res = .ok () ∧
    ((testTest id).write c (testV s1 s2 p1)).bytes = testWire s1 s2 p1 ∧
    (testTest id).parse c (testWire s1 s2 p1 ++ t) =
      .ok ⟨(testWire s1 s2 p1).length, testV s1 s2 p1⟩ ∧
    (testTest id).parseOff c (testWire s1 s2 p1 ++ t) =
      .ok ⟨(testWire s1 s2 p1).length, (testV s1 s2 p1, testOffsets s1 s2 p1)⟩ := by
  have hr : (testTest id).Repr c (testV s1 s2 p1) := (test_repr c id _).2 ⟨s1, s2, p1, h, rfl⟩
  obtain ⟨h1, h2⟩ := C58_wire c hr
  rw [test_wire] at h2
  have h3 := C23_trailing c (m := testTest id) rfl hr t
  rw [h2] at h3
  refine ⟨h1, h2, h3, ?_⟩
  rw [C35_exact, h3]
  simp only [Res.bind, test_wire, test_offsetsOf]

/-- A form of a `Test`; `flag` tells that `p1` is there. -/
def testForm (flag : UInt8) (s1 s2 : Bytes) (p1 : Option (Bytes × Nat)) : Bytes :=
  s1 ++ [0] ++ [UInt8.ofNat s2.length] ++ s2 ++
    match p1 with
    | none => [0]
    | some (s, n) => [flag] ++ s ++ [0] ++ four n

theorem test_enc (c : Ctx) (id : Nat) (v : Value) (w : Bytes) :
    (testTest id).Enc c v w ↔ ∃ s1 s2 p1 flag, TestOk s1 s2 p1 ∧ flag ≠ 0 ∧ v = testV s1 s2 p1 ∧
      w = testForm flag s1 s2 p1 := by
  simp only [testTest, testTest1, Message.Enc, MField.ListEnc, MField.Enc, MFieldTy.Enc,
    Referenced.Enc, MField.name, Bool.false_eq_true, if_false, if_true, FixedTy.byteSize,
    wireInt_one, wireInt_four]
  constructor
  · rintro ⟨_, rfl, _, _, _, _, rfl, rfl, ⟨s1, rfl, h1, h2, rfl⟩, _, _, _, _, rfl, rfl,
      ⟨s2, rfl, h3, h4, rfl⟩, p, _, _, _, rfl, rfl, hp, rfl, rfl⟩
    rcases hp with ⟨rfl, rfl⟩ | ⟨_, flag, _, rfl, hf, rfl, _, rfl, _, _, _, _, rfl, rfl,
      ⟨s, rfl, h5, h6, rfl⟩, _, _, _, _, rfl, rfl, ⟨n, rfl, h7, rfl⟩, rfl, rfl⟩
    · exact ⟨s1, s2, none, 1, ⟨⟨h1, h2⟩, h3, h4, by simp⟩, by decide, rfl, by simp [testForm]⟩
    · exact ⟨s1, s2, some (s, n), flag,
        ⟨⟨h1, h2⟩, h3, h4, by rintro _ _ ⟨⟩; exact ⟨⟨h5, h6⟩, h7⟩⟩, hf, rfl, by simp [testForm]⟩
  · rintro ⟨s1, s2, p1, flag, ⟨⟨h1, h2⟩, h3, h4, h5⟩, hf, rfl, rfl⟩
    have hp : ∃ y, testForm flag s1 s2 p1 = (s1 ++ [0]) ++ (([UInt8.ofNat s2.length] ++ s2) ++ (y ++ [])) ∧
        ((match p1 with
          | none => Value.none
          | some (s, n) => .some (test1V s n)) = .none ∧ y = [0] ∨ ∃ x f w, (match p1 with
          | none => Value.none
          | some (s, n) => .some (test1V s n)) = .some x ∧ f ≠ 0 ∧ y = f :: w ∧
            ∃ s n, p1 = some (s, n) ∧ x = test1V s n ∧ w = s ++ [0] ++ (four n ++ [])) := by
      cases p1 with
      | none => exact ⟨[0], by simp [testForm], .inl ⟨rfl, rfl⟩⟩
      | some x =>
        exact ⟨flag :: (x.1 ++ [0] ++ four x.2), by simp [testForm],
          .inr ⟨_, flag, _, rfl, hf, rfl, x.1, x.2, rfl, rfl, by simp⟩⟩
    obtain ⟨y, hy, hp⟩ := hp
    refine ⟨_, rfl, _, _, _, _, rfl, hy, ⟨s1, rfl, h1, h2, rfl⟩, _, _, _, _, rfl, rfl,
      ⟨s2, rfl, h3, h4, rfl⟩, _, _, _, _, rfl, rfl, ?_, rfl, rfl⟩
    rcases hp with hp | ⟨x, f, w, e1, e2, e3, s, n, rfl, rfl, rfl⟩
    · exact .inl hp
    · obtain ⟨⟨h6, h7⟩, h8⟩ := h5 s n rfl
      exact .inr ⟨_, f, _, e1, e2, e3, _, rfl, _, _, _, _, rfl, rfl, ⟨s, rfl, h6, h7, rfl⟩, _, _, _, _,
        rfl, rfl, ⟨n, rfl, h8, rfl⟩, rfl, rfl⟩

/-- C87: exactly the inputs that begin with such bytes, any non-zero byte telling that `p1` is there,
read as a `Test`. -/
theorem C87_test_accepts (c : Ctx) (id : Nat) {b : Bytes} (hb : b.length < 2 ^ 64) (n : Nat)
    (v : Value) :
    (testTest id).parse c b = .ok ⟨n, v⟩ ↔
      ∃ s1 s2 p1 flag t, TestOk s1 s2 p1 ∧ flag ≠ 0 ∧ b = testForm flag s1 s2 p1 ++ t ∧
        n = (testForm flag s1 s2 p1).length ∧ v = testV s1 s2 p1 := by
  rw [C28_grammar c (m := testTest id) rfl (.inr rfl) hb]
  simp only [test_enc]
  constructor
  · rintro ⟨w, t, rfl, rfl, s1, s2, p1, flag, h1, h2, rfl, rfl⟩
    exact ⟨s1, s2, p1, flag, t, h1, h2, rfl, rfl, rfl⟩
  · rintro ⟨s1, s2, p1, flag, t, h1, h2, rfl, rfl, rfl⟩
    exact ⟨_, t, rfl, rfl, s1, s2, p1, flag, h1, h2, rfl, rfl⟩

/-! The value of `test_test.rs`. -/

/-- The value written by `write_message` (`test_test.rs` 33-43). -/
def Ex.testV : Value :=
  Fix.testV b!"a test" b!"hello world" (some (b!"this is a test", 42))

example : TestOk b!"a test" b!"hello world" (some (b!"this is a test", 42)) := by
  refine ⟨⟨isUtf8_ascii _ (by decide), by decide⟩, isUtf8_ascii _ (by decide), by decide, ?_⟩
  rintro _ _ ⟨⟩
  exact ⟨⟨isUtf8_ascii _ (by decide), by decide⟩, by decide⟩

/-- The offsets checked by `test_offsets` (`test_test.rs` 58-77). -/
example : testOffsets b!"a test" b!"hello world" (some (b!"this is a test", 42)) =
    .msg [("s1".toList, ⟨0, 7⟩, .unit), ("s2".toList, ⟨7, 19⟩, .unit),
      ("p1".toList, ⟨19, 39⟩, .present (.msg [("s1".toList, ⟨0, 15⟩, .unit),
        ("p1".toList, ⟨15, 19⟩, .unit)]))] := by rfl

/-! ## `Item`: a union -/

/-- A content of case `i` of `Value`: nothing, a string, or a number of the width of its type. -/
inductive Content : Nat → Value → Bytes → Prop where
  | null : Content 0 .unit []
  | string {s : Bytes} (h : Plain s) : Content 1 (.msg [("data".toList, .str s)]) (s ++ [0])
  | number {i : Nat} {b : Bytes} (h : [1, 2, 4, 8, 1, 2, 4, 8, 4, 8][i]? = some b.length) :
    Content (i + 2) (.struct b) b

/-- The value of an `Item`. -/
def itemV (kind : UInt8) (name : Bytes) (x : Value) : Value :=
  .msg [("header".toList, .struct [kind]), ("name".toList, .str name),
    ("value".toList, .union kind.toNat x)]

theorem header_read (p : Profile) (header values : Nat) (k : UInt8) (rest : Env) :
    (unionsValue header values).discriminant.read p (("header".toList, .struct [k]) :: rest)
      "header".toList = .ok k.toNat := by rfl

theorem content_null {x : Value} {w : Bytes} : Content 0 x w ↔ x = .unit ∧ w = [] := by
  constructor
  · intro h; cases h; exact ⟨rfl, rfl⟩
  · rintro ⟨rfl, rfl⟩; exact .null

theorem content_string {x : Value} {w : Bytes} :
    Content 1 x w ↔ ∃ s, Plain s ∧ x = .msg [("data".toList, .str s)] ∧ w = s ++ [0] := by
  constructor
  · intro h; cases h; exact ⟨_, ‹_›, rfl, rfl⟩
  · rintro ⟨s, h, rfl, rfl⟩; exact .string h

theorem content_number {i : Nat} {x : Value} {w : Bytes} :
    Content (i + 2) x w ↔ x = .struct w ∧ [1, 2, 4, 8, 1, 2, 4, 8, 4, 8][i]? = some w.length := by
  constructor
  · intro h; cases h; exact ⟨rfl, ‹_›⟩
  · rintro ⟨rfl, h⟩; exact .number h

theorem string_enc (c : Ctx) (id : Nat) (x : Value) (w : Bytes) :
    (valuesValueString id).Enc c x w ↔ Content 1 x w := by
  rw [content_string]
  simp only [valuesValueString, Message.Enc, MField.ListEnc, MField.Enc, MFieldTy.Enc, MField.name,
    Bool.false_eq_true, if_false, Plain]
  constructor
  · rintro ⟨_, rfl, _, _, _, _, rfl, rfl, ⟨s, rfl, h1, h2, rfl⟩, rfl, rfl⟩
    exact ⟨s, ⟨h1, h2⟩, rfl, by simp⟩
  · rintro ⟨s, ⟨h1, h2⟩, rfl, rfl⟩
    exact ⟨_, rfl, _, _, s ++ [0], [], rfl, by simp, ⟨s, rfl, h1, h2, rfl⟩, rfl, rfl⟩

theorem content_enc (c : Ctx) (header values i d : Nat) (x : Value) (w : Bytes) :
    UCase.EncCase c (unionsValue header values).cases i d x w ↔ d = i ∧ Content i x w := by
  simp only [unionsValue, Union.cases]
  rcases i with _ | _ | i
  · simp [UCase.EncCase, content_null]
  · simp only [UCase.EncCase, Referenced.Enc, string_enc]
    simp
    omega
  · rw [content_number]
    rcases i with _ | _ | _ | _ | _ | _ | _ | _ | _ | _ | i
    case succ =>
      simp [UCase.EncCase]
    all_goals
      simp [UCase.EncCase, Referenced.Enc, Structure.byteSize, valuesValueInt8, valuesValueInt16,
        valuesValueInt32, valuesValueInt64, valuesValueUInt8, valuesValueUInt16, valuesValueUInt32,
        valuesValueUInt64, valuesValueFloat, valuesValueDouble, eq_comm]
      constructor <;> (intro h; simp_all)

theorem item_enc (c : Ctx) (id header values : Nat) (v : Value) (w : Bytes) :
    (unionsItem id header values).Enc c v w ↔ ∃ kind name x y, Plain name ∧ Content kind.toNat x y ∧
      v = itemV kind name x ∧ w = [kind] ++ name ++ [0] ++ y := by
  have hu : ∀ env on v w, (unionsValue header values).Enc c env on v w ↔
      ∃ i x d, v = .union i x ∧ (unionsValue header values).discriminant.read c.p env on = .ok d ∧
        UCase.EncCase c (unionsValue header values).cases i d x w := by
    intro env on v w
    simp only [unionsValue, Union.Enc, Union.discriminant, Union.cases]
  simp only [unionsItem, Message.Enc, MField.ListEnc, MField.Enc, MFieldTy.Enc, Referenced.Enc,
    MField.name, Bool.false_eq_true, if_false, hu, content_enc]
  constructor
  · rintro ⟨_, rfl, _, _, h, _, rfl, rfl, ⟨rfl, hl⟩, _, _, _, _, rfl, rfl, ⟨s, rfl, h1, h2, rfl⟩, _, _,
      y, _, rfl, rfl, ⟨i, x, d, rfl, hd, rfl, hc⟩, rfl, rfl⟩
    obtain ⟨k, rfl⟩ := List.length_eq_one_iff.mp hl
    have hk := Res.ok.inj ((header_read c.p header values k [("name".toList, .str s)]).symm.trans hd)
    subst hk
    exact ⟨k, s, x, y, ⟨h1, h2⟩, hc, rfl, by simp⟩
  · rintro ⟨k, s, x, y, ⟨h1, h2⟩, hc, rfl, rfl⟩
    exact ⟨_, rfl, _, _, [k], s ++ [0] ++ y, rfl, by simp, ⟨rfl, rfl⟩, _, _, s ++ [0], y, rfl, rfl, ⟨s, rfl, h1, h2, rfl⟩, _, _, y, [], rfl, by simp,
      ⟨_, x, _, rfl, header_read c.p header values k _, rfl, hc⟩, rfl, rfl⟩

theorem item_delimited (emb : Nat → Bool) (id header values : Nat) :
    (unionsItem id header values).delimited emb = true := by rfl

/-- C87: exactly the inputs that begin with a byte, a NUL-terminated name and a content of the case of
that number read as an `Item`. -/
theorem C87_item_accepts (c : Ctx) (id header values : Nat) {b : Bytes} (hb : b.length < 2 ^ 64)
    (n : Nat) (v : Value) :
    (unionsItem id header values).parse c b = .ok ⟨n, v⟩ ↔
      ∃ kind name x y t, Plain name ∧ Content kind.toNat x y ∧ v = itemV kind name x ∧
        b = [kind] ++ name ++ [0] ++ y ++ t ∧ n = name.length + y.length + 2 := by
  rw [C28_grammar c (item_delimited _ _ _ _) (.inr rfl) hb]
  simp only [item_enc]
  constructor
  · rintro ⟨w, t, rfl, rfl, kind, name, x, y, h1, h2, rfl, rfl⟩
    exact ⟨kind, name, x, y, t, h1, h2, rfl, rfl, by simp; omega⟩
  · rintro ⟨kind, name, x, y, t, h1, h2, rfl, rfl, rfl⟩
    exact ⟨_, t, rfl, by simp; omega, kind, name, x, y, h1, h2, rfl, rfl⟩

theorem item_repr (c : Ctx) (id header values : Nat) {kind : UInt8} {name : Bytes} {x : Value}
    {y : Bytes} (h1 : Plain name) (h2 : Content kind.toNat x y) (hy : name.length + y.length + 2 < 2 ^ 64) :
    (unionsItem id header values).Repr c (itemV kind name x) :=
  C28_decoded c rfl rfl (b := [kind] ++ name ++ [0] ++ y) (by simp; omega)
    ((C87_item_accepts c id header values (by simp; omega) _ _).2
      ⟨kind, name, x, y, [], h1, h2, rfl, by simp, rfl⟩)

/-- C87: writing an `Item` gives exactly these bytes. -/
theorem C87_item (c : Ctx) (id header values : Nat) {kind : UInt8} {name : Bytes} {x : Value}
    {y : Bytes} (h1 : Plain name) (h2 : Content kind.toNat x y) (hy : name.length + y.length + 2 < 2 ^ 64) :
    ((unionsItem id header values).write c (itemV kind name x)).res = .ok () ∧
    ((unionsItem id header values).write c (itemV kind name x)).bytes = [kind] ++ name ++ [0] ++ y := by
  have hp := (C87_item_accepts c id header values (b := [kind] ++ name ++ [0] ++ y) (by simp; omega) _ _).2
      ⟨kind, name, x, y, [], h1, h2, rfl, by simp, rfl⟩
  obtain ⟨g1, -, -, -, g2⟩ := C27_reencode c _ hp
  refine ⟨g1, (g2 rfl).trans (List.take_of_length_le (by simp; omega))⟩

/-- C87: an `Item` of an unknown kind does not read. -/
theorem C87_item_unknown (c : Ctx) (id header values : Nat) {kind : UInt8} {name : Bytes}
    (h1 : Plain name) (h2 : 12 ≤ kind.toNat) (t : Bytes) :
    (unionsItem id header values).parse c ([kind] ++ name ++ [0] ++ t) =
      .err (.invalidUnionDiscriminant kind.toNat) := by
  have hs : (enumsHeader header).parse ([kind] ++ (name ++ [0] ++ t)) = .ok ⟨1, .struct [kind]⟩ :=
    Structure.parse_eq_ok.mpr ⟨by simp [enumsHeader, Structure.byteSize], rfl, rfl⟩
  have hn : (NullTerminated.fromSlice.map Value.str) (name ++ [0] ++ t) =
      .ok ⟨name.length + 1, .str name⟩ :=
    Parser.map_eq_ok.mpr ⟨name, NullTerminated.fromSlice_eq_ok.mpr
      ⟨t, by simp, h1.2, (validUtf8_iff _).mpr h1.1, rfl⟩, rfl⟩
  have hr := header_read c.p header values kind [("name".toList, .str name)]
  have hc : ∀ b, Union.parseCases c (unionsValue header values).cases 0 kind.toNat b =
      .err (.invalidUnionDiscriminant kind.toNat) := by
    intro b
    simp only [unionsValue, Union.cases, Union.parseCases]
    repeat rw [if_neg (by omega)]
  have hu : (unionsValue header values).parse c
      [("header".toList, .struct [kind]), ("name".toList, .str name)] "header".toList t =
        .err (.invalidUnionDiscriminant kind.toNat) := by
    have := hc t
    revert this hr
    simp only [unionsValue, Union.parse, Union.discriminant, Union.cases]
    intro h1 h2
    rw [h1, Res.bind_ok, h2]
  have e : [kind] ++ name ++ [0] ++ t = [kind] ++ (name ++ [0] ++ t) := by simp
  have d1 : ([kind] ++ (name ++ [0] ++ t)).drop 1 = name ++ [0] ++ t := rfl
  have d2 : (name ++ [0] ++ t).drop (name.length + 1) = t := by simp
  rw [e, Message.parse_eq]
  simp only [unionsItem, Message.fields, runFields, MField.parse, MFieldTy.parse, Referenced.parse,
    Bool.false_eq_true, if_false, hs, MField.name, List.nil_append, d1, hn, d2]
  rw [show [("header".toList, Value.struct [kind])] ++ [("name".toList, Value.str name)] =
    [("header".toList, .struct [kind]), ("name".toList, .str name)] from rfl, hu]
  rfl

/-- C87: `set_discriminant` stores the number of the case in the header. -/
theorem C87_set_discriminant (p : Profile) (header values i : Nat) (h : i < 12) (k : UInt8) :
    (unionsValue header values).setDiscriminant p i [k] = .ok [UInt8.ofNat i] := by
  rcases i with _ | _ | _ | _ | _ | _ | _ | _ | _ | _ | _ | _ | i
  case succ => omega
  all_goals rfl

/-! ## `SpanRun` and `Dataset`: lists -/

/-- The bytes are a form of the `Item` value. -/
def ItemForm (v : Value) (w : Bytes) : Prop :=
  ∃ kind name x y, Plain name ∧ Content kind.toNat x y ∧ v = itemV kind name x ∧
    w = [kind] ++ name ++ [0] ++ y

/-- The bytes are a form of the `SpanRun` value: two 64-bit times, the number of variables, the
variables. -/
def RunForm (v : Value) (w : Bytes) : Prop :=
  ∃ (times : Bytes) (items : List (Value × Bytes)), times.length = 16 ∧ items.length < 256 ∧ (∀ p ∈ items, ItemForm p.1 p.2) ∧
    v = .msg [("times".toList, .struct times),
      ("vars".toList, .seq ⟨items.flatMap Prod.snd, items.length⟩)] ∧
    w = times ++ [UInt8.ofNat items.length] ++ items.flatMap Prod.snd

theorem forms_of {P : Value → Bytes → Prop} {l : List Bytes} (h : ∀ x ∈ l, ∃ y, P y x) :
    ∃ items : List (Value × Bytes), items.map Prod.snd = l ∧ ∀ p ∈ items, P p.1 p.2 := by
  induction l with
  | nil => exact ⟨[], rfl, by simp⟩
  | cons x l ih =>
    obtain ⟨y, hy⟩ := h x (by simp)
    obtain ⟨items, rfl, h2⟩ := ih (fun z hz => h z (by simp [hz]))
    exact ⟨(y, x) :: items, rfl, List.forall_mem_cons.mpr ⟨hy, h2⟩⟩

theorem run_enc (c : Ctx) {id : Nat} (he : c.emb id = true) (i header values : Nat) (v : Value)
    (w : Bytes) : (listsSpanRun id (unionsItem i header values)).Enc c v w ↔ RunForm v w := by
  simp only [listsSpanRun, Message.Enc, MField.ListEnc, MField.Enc, MFieldTy.Enc, Referenced.Enc,
    MField.name, Bool.false_eq_true, if_false, he, item_enc, FixedTy.byteSize, wireInt_one]
  constructor
  · rintro ⟨_, rfl, _, _, times, _, rfl, rfl, ⟨rfl, hl⟩, _, _, _, _, rfl, rfl,
      ⟨n, d, rfl, h1, rfl, h2⟩, rfl, rfl⟩
    obtain ⟨l, rfl, rfl, h3⟩ := h2 trivial
    obtain ⟨items, rfl, h4⟩ := forms_of (P := ItemForm) h3
    refine ⟨times, items, hl, by simpa using h1, h4, ?_, ?_⟩ <;> simp [List.flatMap]
  · rintro ⟨times, items, hl, h1, h2, rfl, rfl⟩
    refine ⟨_, rfl, _, _, times, [UInt8.ofNat items.length] ++ items.flatMap Prod.snd, rfl, by simp,
      ⟨rfl, hl⟩, _, _, [UInt8.ofNat items.length] ++ items.flatMap Prod.snd, [], rfl, by simp,
      ⟨_, _, rfl, h1, rfl, fun _ => ⟨items.map Prod.snd, by simp, by simp [List.flatMap], ?_⟩⟩,
      rfl, rfl⟩
    intro x hx
    obtain ⟨p, hp, rfl⟩ := List.mem_map.mp hx
    exact ⟨p.1, h2 p hp⟩

theorem run_delimited (c : Ctx) {id : Nat} (he : c.emb id = true) (i header values : Nat) :
    (listsSpanRun id (unionsItem i header values)).delimited c.emb = true := by
  simp only [listsSpanRun, Message.delimited, MField.listDelimited, MFieldTy.delimited,
    Referenced.delimited, he, item_delimited]
  rfl

/-- C87: exactly the inputs that begin with such bytes read as a `SpanRun`, which is used as an item
of a list. -/
theorem C87_run_accepts (c : Ctx) {id : Nat} (he : c.emb id = true) (i header values : Nat) {b : Bytes}
    (hb : b.length < 2 ^ 64) (n : Nat) (v : Value) :
    (listsSpanRun id (unionsItem i header values)).parse c b = .ok ⟨n, v⟩ ↔
      ∃ w t, b = w ++ t ∧ n = w.length ∧ RunForm v w := by
  rw [C28_grammar c (run_delimited c he _ _ _) (.inr rfl) hb]
  simp only [run_enc c he]

/-- C87: writing a `SpanRun` gives exactly such bytes. -/
theorem C87_run (c : Ctx) {id : Nat} (he : c.emb id = true) (i header values : Nat) {v : Value}
    {w : Bytes} (hw : w.length < 2 ^ 64) (h : RunForm v w) :
    ((listsSpanRun id (unionsItem i header values)).write c v).res = .ok () ∧
    ((listsSpanRun id (unionsItem i header values)).write c v).bytes = w := by
  obtain ⟨h1, -, -, h2⟩ := C28_written c (m := listsSpanRun id (unionsItem i header values))
    (by
      simp only [listsSpanRun, Message.tailGreedy, MField.listTailGreedy, MFieldTy.delimited,
        MFieldTy.tailGreedy, Referenced.delimited, he, item_delimited]
      rfl) (.inr rfl) hw ((run_enc c he i header values v w).2 h)
  exact ⟨h1, h2 rfl⟩

theorem steps_forms {f : Parser Value} {items : List (Value × Bytes)}
    (h : ∀ p ∈ items, ∀ t, f (p.2 ++ t) = .ok ⟨p.2.length, p.1⟩) (k : Nat) :
    Lst.steps f (items.length + k) ⟨items.flatMap Prod.snd, items.length⟩ =
      items.map (fun p => some (.ok p.1)) ++ List.replicate k none := by
  have hb : f.Blocks (items.map Prod.fst) (items.flatMap Prod.snd) := by
    induction items with
    | nil => exact .nil
    | cons p ps ih => exact .cons (h p (by simp)) (ih fun q hq => h q (by simp [hq]))
  have := steps_blocks hb [] k
  rw [List.append_nil, List.length_map, List.map_map] at this
  exact this

/-- C87: the `vars` of such a `SpanRun` are read one by one, and then there are no more. -/
theorem C87_run_vars (c : Ctx) (i header values : Nat) {items : List (Value × Bytes)}
    (hs : (items.flatMap Prod.snd).length < 2 ^ 64) (h : ∀ p ∈ items, ItemForm p.1 p.2) (k : Nat) :
    Lst.steps ((unionsItem i header values).parse c) (items.length + k)
        ⟨items.flatMap Prod.snd, items.length⟩ =
      items.map (fun p => some (.ok p.1)) ++ List.replicate k none :=
  steps_forms (fun p hp t => by
    have hle : p.2.length ≤ (items.flatMap Prod.snd).length := by
      obtain ⟨a, b, rfl⟩ := List.append_of_mem hp
      simp; omega
    exact (Message.takes c (unionsItem i header values) p.1 p.2 (by omega)
      ((item_enc c i header values _ _).2 (h p hp))).1 (item_delimited _ _ _ _) t) k

/-- C87: any four bytes and whatever follows read as a `Dataset`, which is not used as an item of a
list: its runs are not looked at. -/
theorem C87_dataset_accepts (c : Ctx) {id : Nat} (he : c.emb id = false) (run : Message) (b : Bytes)
    (n : Nat) (v : Value) :
    (listsDataset id run).parse c b = .ok ⟨n, v⟩ ↔
      ∃ count d, count < 2 ^ 32 ∧ b = four count ++ d ∧ n = b.length ∧
        v = .msg [("runs".toList, .seq ⟨d, count⟩)] := by
  have key : (listsDataset id run).parse c b =
      ((Lst.unsizedFromSlice .little 4 b).bind fun r =>
        .ok ⟨r.size, .msg [("runs".toList, .seq r.data)]⟩) := by
    rw [Message.parse_eq]
    simp only [listsDataset, Message.fields, Message.id, runFields, MField.parse, MFieldTy.parse, he,
      Bool.false_eq_true, if_false, MField.name, List.nil_append, FixedTy.byteSize, Parser.map]
    cases Lst.unsizedFromSlice .little 4 b <;> rfl
  rw [key]
  refine Iff.trans (Res.bind_eq_ok (x := Lst.unsizedFromSlice .little 4 b)) ?_
  constructor
  · rintro ⟨⟨m, l⟩, h, h'⟩
    obtain ⟨h1, rfl, rfl⟩ := Lst.unsized_eq_ok.mp h
    simp only [Res.ok.injEq, Msg.mk.injEq] at h'
    refine ⟨_, b.drop 4, intOfWire_take .little h1, ?_, h'.1.symm, h'.2.symm⟩
    rw [← wireInt_four, wireInt_take .little h1, List.take_append_drop]
  · rintro ⟨count, d, h1, rfl, rfl, rfl⟩
    refine ⟨⟨_, ⟨d, count⟩⟩, Lst.unsized_eq_ok.mpr ⟨by simp [four], rfl, ?_⟩, rfl⟩
    have e1 : (four count ++ d).take 4 = wireInt .little 4 count := by rw [wireInt_four]; rfl
    rw [e1, intOfWire_wireInt, Nat.mod_eq_of_lt h1]
    rfl

/-- C87: writing a `Dataset` gives the count and the runs. -/
theorem C87_dataset (c : Ctx) (id : Nat) (run : Message) (d : Bytes) (count : Nat) :
    ((listsDataset id run).write c (.msg [("runs".toList, .seq ⟨d, count⟩)])).res = .ok () ∧
    ((listsDataset id run).write c (.msg [("runs".toList, .seq ⟨d, count⟩)])).bytes =
      four count ++ d := by
  simp only [listsDataset, Message.write, MField.writeList, MField.write, MFieldTy.write,
    Bool.false_eq_true, if_false, FixedTy.byteSize]
  refine ⟨rfl, ?_⟩
  rw [Out.andThen_bytes rfl, Seq.writeTo_bytes, wireInt_four]
  simp [Out.done, Out.bytes]

/-- C87: the runs of a `Dataset` are read one by one, and then there are no more. -/
theorem C87_dataset_runs (c : Ctx) {id : Nat} (he : c.emb id = true) (i header values : Nat)
    {runs : List (Value × Bytes)} (hs : (runs.flatMap Prod.snd).length < 2 ^ 64)
    (h : ∀ p ∈ runs, RunForm p.1 p.2) (k : Nat) :
    Lst.steps ((listsSpanRun id (unionsItem i header values)).parse c) (runs.length + k)
        ⟨runs.flatMap Prod.snd, runs.length⟩ =
      runs.map (fun p => some (.ok p.1)) ++ List.replicate k none :=
  steps_forms (fun p hp t => by
    have hle : p.2.length ≤ (runs.flatMap Prod.snd).length := by
      obtain ⟨a, b, rfl⟩ := List.append_of_mem hp
      simp; omega
    exact (Message.takes c (listsSpanRun id (unionsItem i header values)) p.1 p.2 (by omega)
      ((run_enc c he i header values _ _).2 (h p hp))).1 (run_delimited c he _ _ _) t) k

/-! ## `Msg` and `Msg1`: arrays -/

/-- C87: exactly the inputs that begin with a count and that many blocks of three bytes read as a
`Msg`. -/
theorem C87_msg_accepts (c : Ctx) (id : Nat) {b : Bytes} (hb : b.length < 2 ^ 64) (n : Nat)
    (v : Value) :
    (arraysMsg id).parse c b = .ok ⟨n, v⟩ ↔
      ∃ count d t, count < 256 ∧ d.length = count * 3 ∧ b = [UInt8.ofNat count] ++ d ++ t ∧
        n = d.length + 1 ∧ v = .msg [("items".toList, .seq ⟨d, count⟩)] := by
  rw [C28_grammar c (m := arraysMsg id) rfl (.inr rfl) hb]
  simp only [arraysMsg, arraysItem, Message.Enc, MField.ListEnc, MField.Enc, MFieldTy.Enc, MField.name,
    Bool.false_eq_true, if_false, FixedTy.byteSize, wireInt_one, Structure.byteSize]
  constructor
  · rintro ⟨_, t, rfl, rfl, _, rfl, _, _, _, _, rfl, rfl, ⟨count, d, rfl, h1, h2, rfl⟩, rfl, rfl⟩
    exact ⟨count, d, t, h1, h2, by simp, by simp, rfl⟩
  · rintro ⟨count, d, t, h1, h2, rfl, rfl, rfl⟩
    exact ⟨[UInt8.ofNat count] ++ d, t, rfl, by simp, _, rfl, _, _, [UInt8.ofNat count] ++ d, [], rfl,
      by simp, ⟨count, d, rfl, h1, h2, rfl⟩, rfl, rfl⟩

/-- C87: a `Msg1` is a zero byte, or another byte, a count and that many blocks of three bytes. -/
theorem C87_msg1_accepts (c : Ctx) (id : Nat) {b : Bytes} (hb : b.length < 2 ^ 64) (n : Nat)
    (v : Value) :
    (arraysMsg1 id).parse c b = .ok ⟨n, v⟩ ↔
      (∃ t, b = 0 :: t ∧ n = 1 ∧ v = .msg [("items".toList, .none)]) ∨
      ∃ flag count d t, flag ≠ 0 ∧ count < 256 ∧ d.length = count * 3 ∧
        b = [flag] ++ [UInt8.ofNat count] ++ d ++ t ∧ n = d.length + 2 ∧
        v = .msg [("items".toList, .some (.seq ⟨d, count⟩))] := by
  rw [C28_grammar c (m := arraysMsg1 id) rfl (.inr rfl) hb]
  simp only [arraysMsg1, arraysItem, Message.Enc, MField.ListEnc, MField.Enc, MFieldTy.Enc, MField.name,
    if_true, FixedTy.byteSize, wireInt_one, Structure.byteSize]
  constructor
  · rintro ⟨_, t, rfl, rfl, _, rfl, _, _, _, _, rfl, rfl, h, rfl, rfl⟩
    rcases h with ⟨rfl, rfl⟩ | ⟨_, flag, _, rfl, hf, rfl, count, d, rfl, h1, h2, rfl⟩
    · exact .inl ⟨t, rfl, rfl, rfl⟩
    · exact .inr ⟨flag, count, d, t, hf, h1, h2, by simp, by simp, rfl⟩
  · rintro (⟨t, rfl, rfl, rfl⟩ | ⟨flag, count, d, t, hf, h1, h2, rfl, rfl, rfl⟩)
    · exact ⟨[0], t, rfl, rfl, _, rfl, _, _, [0], [], rfl, rfl, .inl ⟨rfl, rfl⟩, rfl, rfl⟩
    · exact ⟨flag :: ([UInt8.ofNat count] ++ d), t, by simp, by simp, _, rfl, _, _,
        flag :: ([UInt8.ofNat count] ++ d), [], rfl, by simp,
        .inr ⟨_, flag, _, rfl, hf, rfl, count, d, rfl, h1, h2, rfl⟩, rfl, rfl⟩

/-- The messages of `test_arrays.rs`: four items, and none. -/
example : (arraysMsg 26).parse ⟨.checked, fun _ => false⟩
    ([4, 3, 0, 4, 2, 255, 11, 1, 16, 16, 0, 4, 24] ++ [99]) =
      .ok ⟨13, .msg [("items".toList, .seq ⟨[3, 0, 4, 2, 255, 11, 1, 16, 16, 0, 4, 24], 4⟩)]⟩ := by rfl
example : (arraysMsg1 27).parse ⟨.checked, fun _ => false⟩ [0] =
    .ok ⟨1, .msg [("items".toList, .none)]⟩ := by rfl

end Proto.Fix
