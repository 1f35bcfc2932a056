import Verif.Fixtures.Schemas
import Verif.Compiler.Protocol

/-!
# What the schemas of `testprog` compile to

Expected values, written from the schemas and not computed by the model: `Props/Fixtures.lean` proves
that compilation returns them.  `id` stands for the allocation.
-/

namespace Proto.Fix

/-- `Type` of `testprog/src/enums.json5`. -/
def enumsType : Enum :=
  ⟨"Type".toList, 11,
    [("Null".toList, 0), ("String".toList, 1), ("Int8".toList, 2), ("Int16".toList, 3),
      ("Int32".toList, 4), ("Int64".toList, 5), ("UInt8".toList, 6), ("UInt16".toList, 7),
      ("UInt32".toList, 8), ("UInt64".toList, 9), ("Float".toList, 10), ("Double".toList, 11)]⟩

/-- `Test` of `testprog/src/unions2.json5`. -/
def unions2Test : Enum := ⟨"Test".toList, 1, [("V1".toList, 0), ("V2".toList, 1)]⟩

/-- `IntContainer` of `testprog/src/test.json5`. -/
def testIntContainer (id : Nat) : Structure :=
  .mk id "IntContainer".toList [
    .fixed ⟨"test_int".toList, .u32, ⟨0, 0, 4, 32⟩, .none, .little⟩] 4 32

/-- `Numbers` of `testprog/src/structs.json5`. -/
def structsNumbers (id : Nat) : Structure :=
  .mk id "Numbers".toList [
    .fixed ⟨"u_a".toList, .u32, ⟨0, 0, 4, 32⟩, .none, .little⟩,
    .fixed ⟨"a".toList, .i32, ⟨4, 0, 4, 32⟩, .transmute, .little⟩,
    .fixed ⟨"u_b".toList, .u16, ⟨8, 0, 2, 16⟩, .none, .little⟩,
    .fixed ⟨"b".toList, .i16, ⟨10, 0, 2, 16⟩, .transmute, .little⟩,
    .fixed ⟨"u_c".toList, .u8, ⟨12, 0, 1, 8⟩, .none, .little⟩,
    .fixed ⟨"c".toList, .i8, ⟨13, 0, 1, 8⟩, .transmute, .little⟩] 14 112

/-- `Flags` of `testprog/src/structs.json5`. -/
def structsFlags (id : Nat) : Structure :=
  .mk id "Flags".toList [
    .fixed ⟨"a".toList, .bool, ⟨0, 0, 1, 8⟩, .transmute, .little⟩,
    .fixed ⟨"b".toList, .bool, ⟨1, 0, 2, 16⟩, .transmute, .little⟩,
    .fixed ⟨"c".toList, .bool, ⟨3, 0, 4, 32⟩, .transmute, .little⟩,
    .fixed ⟨"d".toList, .bool, ⟨7, 0, 8, 64⟩, .transmute, .little⟩] 15 120

/-- `Floats` of `testprog/src/structs.json5`. -/
def structsFloats (id : Nat) : Structure :=
  .mk id "Floats".toList [
    .fixed ⟨"a".toList, .f32, ⟨0, 0, 4, 32⟩, .transmute, .little⟩,
    .fixed ⟨"b".toList, .f64, ⟨4, 0, 8, 64⟩, .transmute, .little⟩] 12 96

/-- `Master` of `testprog/src/structs.json5`. -/
def structsMaster (id : Nat) : Structure :=
  .mk id "Master".toList [
    .struct "floats".toList (structsFloats (id - 1)) ⟨0, 0, 12, 96⟩,
    .struct "nums".toList (structsNumbers (id - 3)) ⟨12, 0, 14, 112⟩,
    .struct "flags".toList (structsFlags (id - 2)) ⟨26, 0, 15, 120⟩] 41 328

/-- `Numbers` of `testprog/src/bits.json5`. -/
def bitsNumbers (id : Nat) : Structure :=
  .mk id "Numbers".toList [
    .fixed ⟨"a".toList, .i8, ⟨0, 0, 1, 4⟩, (.signedCast 7), .little⟩,
    .fixed ⟨"b".toList, .u8, ⟨0, 4, 1, 4⟩, .none, .little⟩,
    .fixed ⟨"c".toList, .i32, ⟨1, 0, 3, 17⟩, (.signedCast 65535), .little⟩,
    .fixed ⟨"d".toList, .u8, ⟨3, 1, 1, 7⟩, .none, .little⟩] 4 32

/-- `Numbers` of `testprog/src/bits2.json5`. -/
def bits2Numbers (id : Nat) : Structure :=
  .mk id "Numbers".toList [
    .fixed ⟨"a".toList, .i8, ⟨0, 0, 1, 4⟩, (.signedCast 7), .little⟩,
    .fixed ⟨"b".toList, .u8, ⟨0, 4, 1, 4⟩, .none, .little⟩,
    .fixed ⟨"c".toList, .i32, ⟨1, 0, 3, 17⟩, (.signedCast 65535), .little⟩,
    .fixed ⟨"d".toList, .u8, ⟨3, 1, 1, 7⟩, .none, .little⟩] 4 32

/-- `Floats` of `testprog/src/views.json5`. -/
def viewsFloats (id : Nat) : Structure :=
  .mk id "Floats".toList [
    .fixed ⟨"a".toList, .f64, ⟨0, 0, 3, 17⟩, (.float (10 / 131071) 0 (131071 / 10) 0), .little⟩,
    .fixed ⟨"b".toList, .f32, ⟨2, 1, 1, 7⟩, (.float (1 / 10) 0 10 0), .little⟩] 3 24

/-- `Basic` of `testprog/src/struct_arrays.json5`. -/
def structArraysBasic (id : Nat) : Structure :=
  .mk id "Basic".toList [
    .fixed ⟨"p1".toList, .u32, ⟨0, 0, 4, 32⟩, .none, .little⟩,
    .array ⟨"p2".toList, .u8, 32, ⟨4, 0, 32, 256⟩, .little⟩,
    .array ⟨"p3".toList, .f32, 4, ⟨36, 0, 16, 128⟩, .little⟩,
    .array ⟨"p4".toList, .u32, 2, ⟨52, 0, 6, 48⟩, .little⟩] 58 464

/-- `Header` of `testprog/src/enums.json5`. -/
def enumsHeader (id : Nat) : Structure :=
  .mk id "Header".toList [
    .fixed ⟨"type".toList, .u8, ⟨0, 0, 1, 8⟩, (.enum enumsType), .little⟩] 1 8

/-- `ValueInt8` of `testprog/src/values.json5`. -/
def valuesValueInt8 (id : Nat) : Structure :=
  .mk id "ValueInt8".toList [
    .fixed ⟨"data".toList, .i8, ⟨0, 0, 1, 8⟩, .transmute, .little⟩] 1 8

/-- `ValueInt16` of `testprog/src/values.json5`. -/
def valuesValueInt16 (id : Nat) : Structure :=
  .mk id "ValueInt16".toList [
    .fixed ⟨"data".toList, .i16, ⟨0, 0, 2, 16⟩, .transmute, .little⟩] 2 16

/-- `ValueInt32` of `testprog/src/values.json5`. -/
def valuesValueInt32 (id : Nat) : Structure :=
  .mk id "ValueInt32".toList [
    .fixed ⟨"data".toList, .i32, ⟨0, 0, 4, 32⟩, .transmute, .little⟩] 4 32

/-- `ValueInt64` of `testprog/src/values.json5`. -/
def valuesValueInt64 (id : Nat) : Structure :=
  .mk id "ValueInt64".toList [
    .fixed ⟨"data".toList, .i64, ⟨0, 0, 8, 64⟩, .transmute, .little⟩] 8 64

/-- `ValueUInt8` of `testprog/src/values.json5`. -/
def valuesValueUInt8 (id : Nat) : Structure :=
  .mk id "ValueUInt8".toList [
    .fixed ⟨"data".toList, .u8, ⟨0, 0, 1, 8⟩, .none, .little⟩] 1 8

/-- `ValueUInt16` of `testprog/src/values.json5`. -/
def valuesValueUInt16 (id : Nat) : Structure :=
  .mk id "ValueUInt16".toList [
    .fixed ⟨"data".toList, .u16, ⟨0, 0, 2, 16⟩, .none, .little⟩] 2 16

/-- `ValueUInt32` of `testprog/src/values.json5`. -/
def valuesValueUInt32 (id : Nat) : Structure :=
  .mk id "ValueUInt32".toList [
    .fixed ⟨"data".toList, .u32, ⟨0, 0, 4, 32⟩, .none, .little⟩] 4 32

/-- `ValueUInt64` of `testprog/src/values.json5`. -/
def valuesValueUInt64 (id : Nat) : Structure :=
  .mk id "ValueUInt64".toList [
    .fixed ⟨"data".toList, .u64, ⟨0, 0, 8, 64⟩, .none, .little⟩] 8 64

/-- `ValueFloat` of `testprog/src/values.json5`. -/
def valuesValueFloat (id : Nat) : Structure :=
  .mk id "ValueFloat".toList [
    .fixed ⟨"data".toList, .f32, ⟨0, 0, 4, 32⟩, .transmute, .little⟩] 4 32

/-- `ValueDouble` of `testprog/src/values.json5`. -/
def valuesValueDouble (id : Nat) : Structure :=
  .mk id "ValueDouble".toList [
    .fixed ⟨"data".toList, .f64, ⟨0, 0, 8, 64⟩, .transmute, .little⟩] 8 64

/-- `Header` of `testprog/src/unions2.json5`. -/
def unions2Header (id : Nat) : Structure :=
  .mk id "Header".toList [
    .fixed ⟨"test".toList, .u8, ⟨0, 0, 1, 1⟩, (.enum unions2Test), .little⟩,
    .fixed ⟨"test2".toList, .i8, ⟨0, 1, 1, 7⟩, (.signedCast 63), .little⟩] 1 8

/-- `Header2` of `testprog/src/unions2.json5`. -/
def unions2Header2 (id : Nat) : Structure :=
  .mk id "Header2".toList [
    .struct "inner".toList (unions2Header (id - 1)) ⟨0, 0, 1, 8⟩] 1 8

/-- `Item` of `testprog/src/arrays.json5`. -/
def arraysItem (id : Nat) : Structure :=
  .mk id "Item".toList [
    .fixed ⟨"id".toList, .u8, ⟨0, 0, 1, 8⟩, .none, .little⟩,
    .fixed ⟨"count".toList, .u16, ⟨1, 0, 2, 11⟩, .none, .little⟩,
    .fixed ⟨"slot".toList, .u8, ⟨2, 3, 1, 5⟩, .none, .little⟩] 3 24

/-- `Times` of `testprog/src/lists.json5`. -/
def listsTimes (id : Nat) : Structure :=
  .mk id "Times".toList [
    .fixed ⟨"start".toList, .u64, ⟨0, 0, 8, 64⟩, .none, .little⟩,
    .fixed ⟨"end".toList, .u64, ⟨8, 0, 8, 64⟩, .none, .little⟩] 16 128

/-- `Test1` of `testprog/src/test.json5`. -/
def testTest1 (id : Nat) : Message :=
  .mk id "Test1".toList [
    .mk "s1".toList .nullTerminatedString false ⟨true, false⟩ .little,
    .mk "p1".toList (.fixed .u32) false ⟨false, false⟩ .little] ⟨true, false⟩

/-- `Test` of `testprog/src/test.json5`. -/
def testTest (id : Nat) : Message :=
  .mk id "Test".toList [
    .mk "s1".toList .nullTerminatedString false ⟨true, false⟩ .little,
    .mk "s2".toList (.varcharString .u8) false ⟨true, false⟩ .little,
    .mk "p1".toList (.ref (.message (testTest1 (id - 1)))) true ⟨true, false⟩ .little] ⟨true, false⟩

/-- `ValueString` of `testprog/src/values.json5`. -/
def valuesValueString (id : Nat) : Message :=
  .mk id "ValueString".toList [
    .mk "data".toList .nullTerminatedString false ⟨true, false⟩ .little] ⟨true, false⟩

/-- `NestedDiscriminant` of `testprog/src/unions2.json5`; `id` is that of `Header`. -/
def unions2NestedDiscriminant (id : Nat) : Union :=
  .mk "NestedDiscriminant".toList ⟨unions2Header2 (id + 1), unions2Header id, 0, [0, 0]⟩ [
    .mk "V1".toList 0 none,
    .mk "V2".toList 1 none] ⟨false, false⟩

/-- `Msg` of `testprog/src/arrays.json5`. -/
def arraysMsg (id : Nat) : Message :=
  .mk id "Msg".toList [
    .mk "items".toList (.array .u8 (arraysItem (id - 1))) false ⟨true, false⟩ .little] ⟨true, false⟩

/-- `Msg1` of `testprog/src/arrays.json5`. -/
def arraysMsg1 (id : Nat) : Message :=
  .mk id "Msg1".toList [
    .mk "items".toList (.array .u8 (arraysItem (id - 2))) true ⟨true, false⟩ .little] ⟨true, false⟩

/-- `Value` of `testprog/src/unions.json5`; `header` and `values` are the identities of `Header` and
of the first structure of `values.json5`. -/
def unionsValue (header values : Nat) : Union :=
  .mk "Value".toList ⟨enumsHeader header, enumsHeader header, 0, [0]⟩ [
    .mk "Null".toList 0 none,
    .mk "String".toList 1 (some (.message (valuesValueString (values + 10)))),
    .mk "Int8".toList 2 (some (.struct (valuesValueInt8 values))),
    .mk "Int16".toList 3 (some (.struct (valuesValueInt16 (values + 1)))),
    .mk "Int32".toList 4 (some (.struct (valuesValueInt32 (values + 2)))),
    .mk "Int64".toList 5 (some (.struct (valuesValueInt64 (values + 3)))),
    .mk "UInt8".toList 6 (some (.struct (valuesValueUInt8 (values + 4)))),
    .mk "UInt16".toList 7 (some (.struct (valuesValueUInt16 (values + 5)))),
    .mk "UInt32".toList 8 (some (.struct (valuesValueUInt32 (values + 6)))),
    .mk "UInt64".toList 9 (some (.struct (valuesValueUInt64 (values + 7)))),
    .mk "Float".toList 10 (some (.struct (valuesValueFloat (values + 8)))),
    .mk "Double".toList 11 (some (.struct (valuesValueDouble (values + 9))))] ⟨true, false⟩

/-- `Item` of `testprog/src/unions.json5`. -/
def unionsItem (id : Nat) (header values : Nat) : Message :=
  .mk id "Item".toList [
    .mk "header".toList (.ref (.struct (enumsHeader header))) false ⟨false, false⟩ .little,
    .mk "name".toList .nullTerminatedString false ⟨true, false⟩ .little,
    .mk "value".toList (.union (unionsValue header values) "header".toList 0) false ⟨true, false⟩
      .little] ⟨true, false⟩

/-- `SpanRun` of `testprog/src/lists.json5`. -/
def listsSpanRun (id : Nat) (item : Message) : Message :=
  .mk id "SpanRun".toList [
    .mk "times".toList (.ref (.struct (listsTimes (id - 1)))) false ⟨false, false⟩ .little,
    .mk "vars".toList (.list .u8 item) false ⟨true, true⟩ .little] ⟨true, true⟩

/-- `Dataset` of `testprog/src/lists.json5`. -/
def listsDataset (id : Nat) (run : Message) : Message :=
  .mk id "Dataset".toList [
    .mk "runs".toList (.list .u32 run) false ⟨true, true⟩ .little] ⟨true, true⟩

/-- Entries of a map filled in the given order. -/
def named {α : Type} (name : α → Name) (l : List α) : List (Name × α) :=
  (l.map fun x => (name x, x)).reverse

/-- A protocol without imports. -/
def plain (name : Name) (structs : List Structure) (messages : List Message) (enums : List Enum)
    (unions : List Union) : Protocol :=
  { name, endianness := .little, typePathByName := [], structsByName := named Structure.name structs,
    messagesByName := named Message.name messages, enumsByName := named Enum.name enums,
    unionsByName := named Union.name unions, structs, messages, enums, unions }

/-- `testprog/src/enums.json5`, its first structure being `id`. -/
def enumsP (id : Nat) : Protocol := plain "enums".toList [enumsHeader id] [] [enumsType] []

/-- The structures of `testprog/src/values.json5`. -/
def valuesStructs (id : Nat) : List Structure :=
  [valuesValueInt8 id, valuesValueInt16 (id + 1), valuesValueInt32 (id + 2), valuesValueInt64 (id + 3),
    valuesValueUInt8 (id + 4), valuesValueUInt16 (id + 5), valuesValueUInt32 (id + 6),
    valuesValueUInt64 (id + 7), valuesValueFloat (id + 8), valuesValueDouble (id + 9)]

/-- `testprog/src/values.json5`, its first structure being `id`. -/
def valuesP (id : Nat) : Protocol :=
  plain "values".toList (valuesStructs id) [valuesValueString (id + 10)] [] []

/-- The protocols of the first `generate_rust` of `testprog/build.rs` (32-44). -/
def first : List Protocol := [
  plain "test".toList [testIntContainer 0] [testTest1 1, testTest 2] [] [],
  plain "structs".toList [structsNumbers 3, structsFlags 4, structsFloats 5, structsMaster 6] [] [] [],
  plain "bits".toList [bitsNumbers 7] [] [] [],
  plain "bits2".toList [bits2Numbers 8] [] [] [],
  plain "views".toList [viewsFloats 9] [] [] [],
  plain "struct_arrays".toList [structArraysBasic 10] [] [] [],
  enumsP 11,
  valuesP 12,
  plain "unions2".toList [unions2Header 23, unions2Header2 24] [] [unions2Test]
    [unions2NestedDiscriminant 23],
  plain "arrays".toList [arraysItem 25] [arraysMsg 26, arraysMsg1 27] [] []]

/-- The names of the structures of `testprog/src/values.json5`. -/
def valuesNames : List Name := [
  "ValueInt8".toList, "ValueInt16".toList, "ValueInt32".toList, "ValueInt64".toList,
  "ValueUInt8".toList, "ValueUInt16".toList, "ValueUInt32".toList, "ValueUInt64".toList,
  "ValueFloat".toList, "ValueDouble".toList]

/-- `Item` where `enums.json5` and `values.json5` were imported first. -/
def item : Message := unionsItem 12 0 1

/-- `testprog/src/unions.json5`, where `enums.json5` and `values.json5` were imported first. -/
def unionsP : Protocol where
  name := "unions".toList
  endianness := .little
  typePathByName :=
    (("ValueString".toList, "crate::values::ValueString".toList) ::
      (valuesNames.map fun n => (n, "crate::values::".toList ++ n)).reverse) ++
    [("Type".toList, "crate::enums::Type".toList), ("Header".toList, "crate::enums::Header".toList)]
  structsByName := named Structure.name (enumsHeader 0 :: valuesStructs 1)
  messagesByName := [("Item".toList, item), ("ValueString".toList, valuesValueString 11)]
  enumsByName := [("Type".toList, enumsType)]
  unionsByName := [("Value".toList, unionsValue 0 1)]
  structs := []
  messages := [item]
  enums := []
  unions := [unionsValue 0 1]

/-- The protocols of the second `generate_rust` of `testprog/build.rs` (45-50). -/
def second : List Protocol := [unionsP]

/-- `SpanRun`, where `enums.json5`, `values.json5` and `unions.json5` were imported first. -/
def spanRun : Message := listsSpanRun 14 item

/-- `Dataset`, where `enums.json5`, `values.json5` and `unions.json5` were imported first. -/
def dataset : Message := listsDataset 15 spanRun

/-- The protocols of the third `generate_rust` of `testprog/build.rs` (51-57). -/
def third : List Protocol := [{
  name := "lists".toList
  endianness := .little
  typePathByName := [("Item".toList, "crate::unions::Item".toList)]
  structsByName := [("Times".toList, listsTimes 13)]
  messagesByName := [("Dataset".toList, dataset), ("SpanRun".toList, spanRun), ("Item".toList, item)]
  enumsByName := []
  unionsByName := []
  structs := [listsTimes 13]
  messages := [spanRun, dataset]
  enums := []
  unions := [] }]

end Proto.Fix
