import Verif.Compiler.Input

/-!
# The schemas of `testprog/src`

Written by `tools/fixtures.py` from the files; the syntax of JSON5 (comments, unquoted names,
trailing commas) is not modelled.  For each file: the JSON value, and the model it describes.
-/

namespace Proto.Fix

open Proto.Input

/-- `testprog/src/test.json5` 1-63. -/
def testJson : Json :=
  .obj [
    ("name".toList, .str "test".toList),
    ("structs".toList, .arr [
      .obj [
        ("name".toList, .str "IntContainer".toList),
        ("fields".toList, .arr [
          .obj [
            ("name".toList, .str "test_int".toList),
            ("info".toList, .obj [("type".toList, .str "unsigned".toList), ("bits".toList, .num 32)])]])]]),
    ("messages".toList, .arr [
      .obj [
        ("name".toList, .str "Test1".toList),
        ("fields".toList, .arr [
          .obj [
            ("name".toList, .str "s1".toList),
            ("info".toList, .obj [("type".toList, .str "string".toList)])],
          .obj [
            ("name".toList, .str "p1".toList),
            ("info".toList, .obj [
              ("type".toList, .str "item".toList),
              ("item_type".toList, .str "IntContainer".toList)])]])],
      .obj [
        ("name".toList, .str "Test".toList),
        ("fields".toList, .arr [
          .obj [
            ("name".toList, .str "s1".toList),
            ("info".toList, .obj [("type".toList, .str "string".toList)])],
          .obj [
            ("name".toList, .str "s2".toList),
            ("info".toList, .obj [("type".toList, .str "string".toList), ("max_len".toList, .num 32)])],
          .obj [
            ("name".toList, .str "p1".toList),
            ("info".toList, .obj [
              ("type".toList, .str "item".toList),
              ("item_type".toList, .str "Test1".toList)]),
            ("optional".toList, .bool true)]])]])]

/-- What `testprog/src/test.json5` describes. -/
def testM : Model.Protocol where
  name := "test".toList
  structs := [
    ⟨"IntContainer".toList, [
      ⟨"test_int".toList, .unsigned 32, none, none⟩]⟩]
  messages := [
    ⟨"Test1".toList, [
      ⟨"s1".toList, .string none, none⟩,
      ⟨"p1".toList, .item "IntContainer".toList, none⟩]⟩,
    ⟨"Test".toList, [
      ⟨"s1".toList, .string none, none⟩,
      ⟨"s2".toList, .string (some 32), none⟩,
      ⟨"p1".toList, .item "Test1".toList, some true⟩]⟩]

/-- `testprog/src/structs.json5` 1-130. -/
def structsJson : Json :=
  .obj [
    ("name".toList, .str "structs".toList),
    ("structs".toList, .arr [
      .obj [
        ("name".toList, .str "Numbers".toList),
        ("fields".toList, .arr [
          .obj [
            ("name".toList, .str "u_a".toList),
            ("info".toList, .obj [("type".toList, .str "unsigned".toList), ("bits".toList, .num 32)])],
          .obj [
            ("name".toList, .str "a".toList),
            ("info".toList, .obj [("type".toList, .str "signed".toList), ("bits".toList, .num 32)])],
          .obj [
            ("name".toList, .str "u_b".toList),
            ("info".toList, .obj [("type".toList, .str "unsigned".toList), ("bits".toList, .num 16)])],
          .obj [
            ("name".toList, .str "b".toList),
            ("info".toList, .obj [("type".toList, .str "signed".toList), ("bits".toList, .num 16)])],
          .obj [
            ("name".toList, .str "u_c".toList),
            ("info".toList, .obj [("type".toList, .str "unsigned".toList), ("bits".toList, .num 8)])],
          .obj [
            ("name".toList, .str "c".toList),
            ("info".toList, .obj [("type".toList, .str "signed".toList), ("bits".toList, .num 8)])]])],
      .obj [
        ("name".toList, .str "Flags".toList),
        ("fields".toList, .arr [
          .obj [
            ("name".toList, .str "a".toList),
            ("info".toList, .obj [("type".toList, .str "boolean".toList), ("bits".toList, .num 8)])],
          .obj [
            ("name".toList, .str "b".toList),
            ("info".toList, .obj [("type".toList, .str "boolean".toList), ("bits".toList, .num 16)])],
          .obj [
            ("name".toList, .str "c".toList),
            ("info".toList, .obj [("type".toList, .str "boolean".toList), ("bits".toList, .num 32)])],
          .obj [
            ("name".toList, .str "d".toList),
            ("info".toList, .obj [("type".toList, .str "boolean".toList), ("bits".toList, .num 64)])]])],
      .obj [
        ("name".toList, .str "Floats".toList),
        ("fields".toList, .arr [
          .obj [
            ("name".toList, .str "a".toList),
            ("info".toList, .obj [("type".toList, .str "float".toList), ("bits".toList, .num 32)])],
          .obj [
            ("name".toList, .str "b".toList),
            ("info".toList, .obj [("type".toList, .str "float".toList), ("bits".toList, .num 64)])]])],
      .obj [
        ("name".toList, .str "Master".toList),
        ("fields".toList, .arr [
          .obj [
            ("name".toList, .str "floats".toList),
            ("info".toList, .obj [
              ("type".toList, .str "struct".toList),
              ("item_type".toList, .str "Floats".toList)])],
          .obj [
            ("name".toList, .str "nums".toList),
            ("info".toList, .obj [
              ("type".toList, .str "struct".toList),
              ("item_type".toList, .str "Numbers".toList)])],
          .obj [
            ("name".toList, .str "flags".toList),
            ("info".toList, .obj [
              ("type".toList, .str "struct".toList),
              ("item_type".toList, .str "Flags".toList)])]])]])]

/-- What `testprog/src/structs.json5` describes. -/
def structsM : Model.Protocol where
  name := "structs".toList
  structs := [
    ⟨"Numbers".toList, [
      ⟨"u_a".toList, .unsigned 32, none, none⟩,
      ⟨"a".toList, .signed 32, none, none⟩,
      ⟨"u_b".toList, .unsigned 16, none, none⟩,
      ⟨"b".toList, .signed 16, none, none⟩,
      ⟨"u_c".toList, .unsigned 8, none, none⟩,
      ⟨"c".toList, .signed 8, none, none⟩]⟩,
    ⟨"Flags".toList, [
      ⟨"a".toList, .boolean 8, none, none⟩,
      ⟨"b".toList, .boolean 16, none, none⟩,
      ⟨"c".toList, .boolean 32, none, none⟩,
      ⟨"d".toList, .boolean 64, none, none⟩]⟩,
    ⟨"Floats".toList, [
      ⟨"a".toList, .float 32, none, none⟩,
      ⟨"b".toList, .float 64, none, none⟩]⟩,
    ⟨"Master".toList, [
      ⟨"floats".toList, .struct "Floats".toList, none, none⟩,
      ⟨"nums".toList, .struct "Numbers".toList, none, none⟩,
      ⟨"flags".toList, .struct "Flags".toList, none, none⟩]⟩]

/-- `testprog/src/bits.json5` 1-38. -/
def bitsJson : Json :=
  .obj [
    ("name".toList, .str "bits".toList),
    ("structs".toList, .arr [
      .obj [
        ("name".toList, .str "Numbers".toList),
        ("fields".toList, .arr [
          .obj [
            ("name".toList, .str "a".toList),
            ("info".toList, .obj [("type".toList, .str "signed".toList), ("bits".toList, .num 4)])],
          .obj [
            ("name".toList, .str "b".toList),
            ("info".toList, .obj [("type".toList, .str "unsigned".toList), ("bits".toList, .num 4)])],
          .obj [
            ("name".toList, .str "c".toList),
            ("info".toList, .obj [("type".toList, .str "signed".toList), ("bits".toList, .num 17)])],
          .obj [
            ("name".toList, .str "d".toList),
            ("info".toList, .obj [("type".toList, .str "unsigned".toList), ("bits".toList, .num 7)])]])]])]

/-- What `testprog/src/bits.json5` describes. -/
def bitsM : Model.Protocol where
  name := "bits".toList
  structs := [
    ⟨"Numbers".toList, [
      ⟨"a".toList, .signed 4, none, none⟩,
      ⟨"b".toList, .unsigned 4, none, none⟩,
      ⟨"c".toList, .signed 17, none, none⟩,
      ⟨"d".toList, .unsigned 7, none, none⟩]⟩]

/-- `testprog/src/bits2.json5` 1-39. -/
def bits2Json : Json :=
  .obj [
    ("name".toList, .str "bits2".toList),
    ("endianness".toList, .str "big".toList),
    ("structs".toList, .arr [
      .obj [
        ("name".toList, .str "Numbers".toList),
        ("fields".toList, .arr [
          .obj [
            ("name".toList, .str "a".toList),
            ("info".toList, .obj [("type".toList, .str "signed".toList), ("bits".toList, .num 4)])],
          .obj [
            ("name".toList, .str "b".toList),
            ("info".toList, .obj [("type".toList, .str "unsigned".toList), ("bits".toList, .num 4)])],
          .obj [
            ("name".toList, .str "c".toList),
            ("info".toList, .obj [("type".toList, .str "signed".toList), ("bits".toList, .num 17)])],
          .obj [
            ("name".toList, .str "d".toList),
            ("info".toList, .obj [("type".toList, .str "unsigned".toList), ("bits".toList, .num 7)])]])]])]

/-- What `testprog/src/bits2.json5` describes. -/
def bits2M : Model.Protocol where
  name := "bits2".toList
  endianness := some .big
  structs := [
    ⟨"Numbers".toList, [
      ⟨"a".toList, .signed 4, none, none⟩,
      ⟨"b".toList, .unsigned 4, none, none⟩,
      ⟨"c".toList, .signed 17, none, none⟩,
      ⟨"d".toList, .unsigned 7, none, none⟩]⟩]

/-- `testprog/src/views.json5` 1-33. -/
def viewsJson : Json :=
  .obj [
    ("name".toList, .str "views".toList),
    ("structs".toList, .arr [
      .obj [
        ("name".toList, .str "Floats".toList),
        ("fields".toList, .arr [
          .obj [
            ("name".toList, .str "a".toList),
            ("info".toList, .obj [("type".toList, .str "float".toList), ("bits".toList, .num 17)]),
            ("view".toList, .obj [
              ("type".toList, .str "float-range".toList),
              ("min".toList, .num 0),
              ("max".toList, .num 10)])],
          .obj [
            ("name".toList, .str "b".toList),
            ("info".toList, .obj [("type".toList, .str "float".toList), ("bits".toList, .num 7)]),
            ("view".toList, .obj [
              ("type".toList, .str "float-multiplier".toList),
              ("multiplier".toList, .num (1 / 10))])]])]])]

/-- What `testprog/src/views.json5` describes. -/
def viewsM : Model.Protocol where
  name := "views".toList
  structs := [
    ⟨"Floats".toList, [
      ⟨"a".toList, .float 17, some (.floatRange 0 10), none⟩,
      ⟨"b".toList, .float 7, some (.floatMultiplier (1 / 10)), none⟩]⟩]

/-- `testprog/src/struct_arrays.json5` 1-42. -/
def structArraysJson : Json :=
  .obj [
    ("name".toList, .str "struct_arrays".toList),
    ("structs".toList, .arr [
      .obj [
        ("name".toList, .str "Basic".toList),
        ("fields".toList, .arr [
          .obj [
            ("name".toList, .str "p1".toList),
            ("info".toList, .obj [("type".toList, .str "unsigned".toList), ("bits".toList, .num 32)])],
          .obj [
            ("name".toList, .str "p2".toList),
            ("info".toList, .obj [("type".toList, .str "unsigned".toList), ("bits".toList, .num 8)]),
            ("array_len".toList, .num 32)],
          .obj [
            ("name".toList, .str "p3".toList),
            ("info".toList, .obj [("type".toList, .str "float".toList), ("bits".toList, .num 32)]),
            ("array_len".toList, .num 4)],
          .obj [
            ("name".toList, .str "p4".toList),
            ("info".toList, .obj [("type".toList, .str "unsigned".toList), ("bits".toList, .num 24)]),
            ("array_len".toList, .num 2)]])]])]

/-- What `testprog/src/struct_arrays.json5` describes. -/
def structArraysM : Model.Protocol where
  name := "struct_arrays".toList
  structs := [
    ⟨"Basic".toList, [
      ⟨"p1".toList, .unsigned 32, none, none⟩,
      ⟨"p2".toList, .unsigned 8, none, some 32⟩,
      ⟨"p3".toList, .float 32, none, some 4⟩,
      ⟨"p4".toList, .unsigned 24, none, some 2⟩]⟩]

/-- `testprog/src/enums.json5` 1-40. -/
def enumsJson : Json :=
  .obj [
    ("name".toList, .str "enums".toList),
    ("structs".toList, .arr [
      .obj [
        ("name".toList, .str "Header".toList),
        ("fields".toList, .arr [
          .obj [
            ("name".toList, .str "type".toList),
            ("info".toList, .obj [("type".toList, .str "unsigned".toList), ("bits".toList, .num 8)]),
            ("view".toList, .obj [
              ("type".toList, .str "enum".toList),
              ("name".toList, .str "Type".toList)])]])]]),
    ("enums".toList, .arr [
      .obj [
        ("name".toList, .str "Type".toList),
        ("variants".toList, .obj [
          ("Null".toList, .num 0),
          ("String".toList, .num 1),
          ("Int8".toList, .num 2),
          ("Int16".toList, .num 3),
          ("Int32".toList, .num 4),
          ("Int64".toList, .num 5),
          ("UInt8".toList, .num 6),
          ("UInt16".toList, .num 7),
          ("UInt32".toList, .num 8),
          ("UInt64".toList, .num 9),
          ("Float".toList, .num 10),
          ("Double".toList, .num 11)])]])]

/-- What `testprog/src/enums.json5` describes. -/
def enumsM : Model.Protocol where
  name := "enums".toList
  structs := [
    ⟨"Header".toList, [
      ⟨"type".toList, .unsigned 8, some (.enum "Type".toList), none⟩]⟩]
  enums := [
    ⟨"Type".toList, [
      ("Null".toList, 0),
      ("String".toList, 1),
      ("Int8".toList, 2),
      ("Int16".toList, 3),
      ("Int32".toList, 4),
      ("Int64".toList, 5),
      ("UInt8".toList, 6),
      ("UInt16".toList, 7),
      ("UInt32".toList, 8),
      ("UInt64".toList, 9),
      ("Float".toList, 10),
      ("Double".toList, 11)]⟩]

/-- `testprog/src/values.json5` 1-18. -/
def valuesJson : Json :=
  .obj [
    ("name".toList, .str "values".toList),
    ("structs".toList, .arr [
      .obj [
        ("name".toList, .str "ValueInt8".toList),
        ("fields".toList, .arr [
          .obj [
            ("name".toList, .str "data".toList),
            ("info".toList, .obj [("type".toList, .str "signed".toList), ("bits".toList, .num 8)])]])],
      .obj [
        ("name".toList, .str "ValueInt16".toList),
        ("fields".toList, .arr [
          .obj [
            ("name".toList, .str "data".toList),
            ("info".toList, .obj [("type".toList, .str "signed".toList), ("bits".toList, .num 16)])]])],
      .obj [
        ("name".toList, .str "ValueInt32".toList),
        ("fields".toList, .arr [
          .obj [
            ("name".toList, .str "data".toList),
            ("info".toList, .obj [("type".toList, .str "signed".toList), ("bits".toList, .num 32)])]])],
      .obj [
        ("name".toList, .str "ValueInt64".toList),
        ("fields".toList, .arr [
          .obj [
            ("name".toList, .str "data".toList),
            ("info".toList, .obj [("type".toList, .str "signed".toList), ("bits".toList, .num 64)])]])],
      .obj [
        ("name".toList, .str "ValueUInt8".toList),
        ("fields".toList, .arr [
          .obj [
            ("name".toList, .str "data".toList),
            ("info".toList, .obj [("type".toList, .str "unsigned".toList), ("bits".toList, .num 8)])]])],
      .obj [
        ("name".toList, .str "ValueUInt16".toList),
        ("fields".toList, .arr [
          .obj [
            ("name".toList, .str "data".toList),
            ("info".toList, .obj [("type".toList, .str "unsigned".toList), ("bits".toList, .num 16)])]])],
      .obj [
        ("name".toList, .str "ValueUInt32".toList),
        ("fields".toList, .arr [
          .obj [
            ("name".toList, .str "data".toList),
            ("info".toList, .obj [("type".toList, .str "unsigned".toList), ("bits".toList, .num 32)])]])],
      .obj [
        ("name".toList, .str "ValueUInt64".toList),
        ("fields".toList, .arr [
          .obj [
            ("name".toList, .str "data".toList),
            ("info".toList, .obj [("type".toList, .str "unsigned".toList), ("bits".toList, .num 64)])]])],
      .obj [
        ("name".toList, .str "ValueFloat".toList),
        ("fields".toList, .arr [
          .obj [
            ("name".toList, .str "data".toList),
            ("info".toList, .obj [("type".toList, .str "float".toList), ("bits".toList, .num 32)])]])],
      .obj [
        ("name".toList, .str "ValueDouble".toList),
        ("fields".toList, .arr [
          .obj [
            ("name".toList, .str "data".toList),
            ("info".toList, .obj [("type".toList, .str "float".toList), ("bits".toList, .num 64)])]])]]),
    ("messages".toList, .arr [
      .obj [
        ("name".toList, .str "ValueString".toList),
        ("fields".toList, .arr [
          .obj [
            ("name".toList, .str "data".toList),
            ("info".toList, .obj [("type".toList, .str "string".toList)])]])]])]

/-- What `testprog/src/values.json5` describes. -/
def valuesM : Model.Protocol where
  name := "values".toList
  structs := [
    ⟨"ValueInt8".toList, [
      ⟨"data".toList, .signed 8, none, none⟩]⟩,
    ⟨"ValueInt16".toList, [
      ⟨"data".toList, .signed 16, none, none⟩]⟩,
    ⟨"ValueInt32".toList, [
      ⟨"data".toList, .signed 32, none, none⟩]⟩,
    ⟨"ValueInt64".toList, [
      ⟨"data".toList, .signed 64, none, none⟩]⟩,
    ⟨"ValueUInt8".toList, [
      ⟨"data".toList, .unsigned 8, none, none⟩]⟩,
    ⟨"ValueUInt16".toList, [
      ⟨"data".toList, .unsigned 16, none, none⟩]⟩,
    ⟨"ValueUInt32".toList, [
      ⟨"data".toList, .unsigned 32, none, none⟩]⟩,
    ⟨"ValueUInt64".toList, [
      ⟨"data".toList, .unsigned 64, none, none⟩]⟩,
    ⟨"ValueFloat".toList, [
      ⟨"data".toList, .float 32, none, none⟩]⟩,
    ⟨"ValueDouble".toList, [
      ⟨"data".toList, .float 64, none, none⟩]⟩]
  messages := [
    ⟨"ValueString".toList, [
      ⟨"data".toList, .string none, none⟩]⟩]

/-- `testprog/src/unions2.json5` 1-59. -/
def unions2Json : Json :=
  .obj [
    ("name".toList, .str "unions2".toList),
    ("enums".toList, .arr [
      .obj [
        ("name".toList, .str "Test".toList),
        ("variants".toList, .obj [("V1".toList, .num 0), ("V2".toList, .num 1)])]]),
    ("unions".toList, .arr [
      .obj [
        ("name".toList, .str "NestedDiscriminant".toList),
        ("discriminant".toList, .str "Header2.inner.test".toList),
        ("cases".toList, .arr [
          .obj [("case".toList, .str "V1".toList), ("name".toList, .str "V1".toList)],
          .obj [("case".toList, .str "V2".toList), ("name".toList, .str "V2".toList)]])]]),
    ("structs".toList, .arr [
      .obj [
        ("name".toList, .str "Header".toList),
        ("fields".toList, .arr [
          .obj [
            ("name".toList, .str "test".toList),
            ("info".toList, .obj [("type".toList, .str "unsigned".toList), ("bits".toList, .num 1)]),
            ("view".toList, .obj [
              ("type".toList, .str "enum".toList),
              ("name".toList, .str "Test".toList)])],
          .obj [
            ("name".toList, .str "test2".toList),
            ("info".toList, .obj [("type".toList, .str "signed".toList), ("bits".toList, .num 7)])]])],
      .obj [
        ("name".toList, .str "Header2".toList),
        ("fields".toList, .arr [
          .obj [
            ("name".toList, .str "inner".toList),
            ("info".toList, .obj [
              ("type".toList, .str "struct".toList),
              ("item_type".toList, .str "Header".toList)])]])]])]

/-- What `testprog/src/unions2.json5` describes. -/
def unions2M : Model.Protocol where
  name := "unions2".toList
  structs := [
    ⟨"Header".toList, [
      ⟨"test".toList, .unsigned 1, some (.enum "Test".toList), none⟩,
      ⟨"test2".toList, .signed 7, none, none⟩]⟩,
    ⟨"Header2".toList, [
      ⟨"inner".toList, .struct "Header".toList, none, none⟩]⟩]
  enums := [
    ⟨"Test".toList, [
      ("V1".toList, 0),
      ("V2".toList, 1)]⟩]
  unions := [
    ⟨"NestedDiscriminant".toList, "Header2.inner.test".toList, [
      ⟨"V1".toList, "V1".toList, none⟩,
      ⟨"V2".toList, "V2".toList, none⟩]⟩]

/-- `testprog/src/arrays.json5` 1-60. -/
def arraysJson : Json :=
  .obj [
    ("name".toList, .str "arrays".toList),
    ("structs".toList, .arr [
      .obj [
        ("name".toList, .str "Item".toList),
        ("fields".toList, .arr [
          .obj [
            ("name".toList, .str "id".toList),
            ("info".toList, .obj [("type".toList, .str "unsigned".toList), ("bits".toList, .num 8)])],
          .obj [
            ("name".toList, .str "count".toList),
            ("info".toList, .obj [("type".toList, .str "unsigned".toList), ("bits".toList, .num 11)])],
          .obj [
            ("name".toList, .str "slot".toList),
            ("info".toList, .obj [("type".toList, .str "unsigned".toList), ("bits".toList, .num 5)])]])]]),
    ("messages".toList, .arr [
      .obj [
        ("name".toList, .str "Msg".toList),
        ("fields".toList, .arr [
          .obj [
            ("name".toList, .str "items".toList),
            ("info".toList, .obj [
              ("type".toList, .str "list".toList),
              ("max_len".toList, .num 255),
              ("item_type".toList, .str "Item".toList)])]])],
      .obj [
        ("name".toList, .str "Msg1".toList),
        ("fields".toList, .arr [
          .obj [
            ("name".toList, .str "items".toList),
            ("info".toList, .obj [
              ("type".toList, .str "list".toList),
              ("max_len".toList, .num 255),
              ("item_type".toList, .str "Item".toList)]),
            ("optional".toList, .bool true)]])]])]

/-- What `testprog/src/arrays.json5` describes. -/
def arraysM : Model.Protocol where
  name := "arrays".toList
  structs := [
    ⟨"Item".toList, [
      ⟨"id".toList, .unsigned 8, none, none⟩,
      ⟨"count".toList, .unsigned 11, none, none⟩,
      ⟨"slot".toList, .unsigned 5, none, none⟩]⟩]
  messages := [
    ⟨"Msg".toList, [
      ⟨"items".toList, .list 255 "Item".toList, none⟩]⟩,
    ⟨"Msg1".toList, [
      ⟨"items".toList, .list 255 "Item".toList, some true⟩]⟩]

/-- `testprog/src/unions.json5` 1-66. -/
def unionsJson : Json :=
  .obj [
    ("name".toList, .str "unions".toList),
    ("imports".toList, .arr [
      .obj [
        ("protocol".toList, .str "enums".toList),
        ("type".toList, .str "Header".toList)],
      .obj [("protocol".toList, .str "enums".toList), ("type".toList, .str "Type".toList)],
      .obj [
        ("protocol".toList, .str "values".toList),
        ("type".toList, .str "ValueInt8".toList)],
      .obj [
        ("protocol".toList, .str "values".toList),
        ("type".toList, .str "ValueInt16".toList)],
      .obj [
        ("protocol".toList, .str "values".toList),
        ("type".toList, .str "ValueInt32".toList)],
      .obj [
        ("protocol".toList, .str "values".toList),
        ("type".toList, .str "ValueInt64".toList)],
      .obj [
        ("protocol".toList, .str "values".toList),
        ("type".toList, .str "ValueUInt8".toList)],
      .obj [
        ("protocol".toList, .str "values".toList),
        ("type".toList, .str "ValueUInt16".toList)],
      .obj [
        ("protocol".toList, .str "values".toList),
        ("type".toList, .str "ValueUInt32".toList)],
      .obj [
        ("protocol".toList, .str "values".toList),
        ("type".toList, .str "ValueUInt64".toList)],
      .obj [
        ("protocol".toList, .str "values".toList),
        ("type".toList, .str "ValueFloat".toList)],
      .obj [
        ("protocol".toList, .str "values".toList),
        ("type".toList, .str "ValueDouble".toList)],
      .obj [
        ("protocol".toList, .str "values".toList),
        ("type".toList, .str "ValueString".toList)]]),
    ("unions".toList, .arr [
      .obj [
        ("name".toList, .str "Value".toList),
        ("discriminant".toList, .str "Header.type".toList),
        ("cases".toList, .arr [
          .obj [("name".toList, .str "Null".toList), ("case".toList, .str "Null".toList)],
          .obj [
            ("name".toList, .str "String".toList),
            ("case".toList, .str "String".toList),
            ("item_type".toList, .str "ValueString".toList)],
          .obj [
            ("name".toList, .str "Int8".toList),
            ("case".toList, .str "Int8".toList),
            ("item_type".toList, .str "ValueInt8".toList)],
          .obj [
            ("name".toList, .str "Int16".toList),
            ("case".toList, .str "Int16".toList),
            ("item_type".toList, .str "ValueInt16".toList)],
          .obj [
            ("name".toList, .str "Int32".toList),
            ("case".toList, .str "Int32".toList),
            ("item_type".toList, .str "ValueInt32".toList)],
          .obj [
            ("name".toList, .str "Int64".toList),
            ("case".toList, .str "Int64".toList),
            ("item_type".toList, .str "ValueInt64".toList)],
          .obj [
            ("name".toList, .str "UInt8".toList),
            ("case".toList, .str "UInt8".toList),
            ("item_type".toList, .str "ValueUInt8".toList)],
          .obj [
            ("name".toList, .str "UInt16".toList),
            ("case".toList, .str "UInt16".toList),
            ("item_type".toList, .str "ValueUInt16".toList)],
          .obj [
            ("name".toList, .str "UInt32".toList),
            ("case".toList, .str "UInt32".toList),
            ("item_type".toList, .str "ValueUInt32".toList)],
          .obj [
            ("name".toList, .str "UInt64".toList),
            ("case".toList, .str "UInt64".toList),
            ("item_type".toList, .str "ValueUInt64".toList)],
          .obj [
            ("name".toList, .str "Float".toList),
            ("case".toList, .str "Float".toList),
            ("item_type".toList, .str "ValueFloat".toList)],
          .obj [
            ("name".toList, .str "Double".toList),
            ("case".toList, .str "Double".toList),
            ("item_type".toList, .str "ValueDouble".toList)]])]]),
    ("messages".toList, .arr [
      .obj [
        ("name".toList, .str "Item".toList),
        ("fields".toList, .arr [
          .obj [
            ("name".toList, .str "header".toList),
            ("info".toList, .obj [
              ("type".toList, .str "item".toList),
              ("item_type".toList, .str "Header".toList)])],
          .obj [
            ("name".toList, .str "name".toList),
            ("info".toList, .obj [("type".toList, .str "string".toList)])],
          .obj [
            ("name".toList, .str "value".toList),
            ("info".toList, .obj [
              ("type".toList, .str "union".toList),
              ("on".toList, .str "header".toList),
              ("item_type".toList, .str "Value".toList)])]])]])]

/-- What `testprog/src/unions.json5` describes. -/
def unionsM : Model.Protocol where
  name := "unions".toList
  imports := [
    ⟨"enums".toList, "Header".toList⟩,
    ⟨"enums".toList, "Type".toList⟩,
    ⟨"values".toList, "ValueInt8".toList⟩,
    ⟨"values".toList, "ValueInt16".toList⟩,
    ⟨"values".toList, "ValueInt32".toList⟩,
    ⟨"values".toList, "ValueInt64".toList⟩,
    ⟨"values".toList, "ValueUInt8".toList⟩,
    ⟨"values".toList, "ValueUInt16".toList⟩,
    ⟨"values".toList, "ValueUInt32".toList⟩,
    ⟨"values".toList, "ValueUInt64".toList⟩,
    ⟨"values".toList, "ValueFloat".toList⟩,
    ⟨"values".toList, "ValueDouble".toList⟩,
    ⟨"values".toList, "ValueString".toList⟩]
  messages := [
    ⟨"Item".toList, [
      ⟨"header".toList, .item "Header".toList, none⟩,
      ⟨"name".toList, .string none, none⟩,
      ⟨"value".toList, .union "header".toList "Value".toList, none⟩]⟩]
  unions := [
    ⟨"Value".toList, "Header.type".toList, [
      ⟨"Null".toList, "Null".toList, none⟩,
      ⟨"String".toList, "String".toList, some "ValueString".toList⟩,
      ⟨"Int8".toList, "Int8".toList, some "ValueInt8".toList⟩,
      ⟨"Int16".toList, "Int16".toList, some "ValueInt16".toList⟩,
      ⟨"Int32".toList, "Int32".toList, some "ValueInt32".toList⟩,
      ⟨"Int64".toList, "Int64".toList, some "ValueInt64".toList⟩,
      ⟨"UInt8".toList, "UInt8".toList, some "ValueUInt8".toList⟩,
      ⟨"UInt16".toList, "UInt16".toList, some "ValueUInt16".toList⟩,
      ⟨"UInt32".toList, "UInt32".toList, some "ValueUInt32".toList⟩,
      ⟨"UInt64".toList, "UInt64".toList, some "ValueUInt64".toList⟩,
      ⟨"Float".toList, "Float".toList, some "ValueFloat".toList⟩,
      ⟨"Double".toList, "Double".toList, some "ValueDouble".toList⟩]⟩]

/-- `testprog/src/lists.json5` 1-62. -/
def listsJson : Json :=
  .obj [
    ("name".toList, .str "lists".toList),
    ("imports".toList, .arr [
      .obj [
        ("protocol".toList, .str "unions".toList),
        ("type".toList, .str "Item".toList)]]),
    ("structs".toList, .arr [
      .obj [
        ("name".toList, .str "Times".toList),
        ("fields".toList, .arr [
          .obj [
            ("name".toList, .str "start".toList),
            ("info".toList, .obj [("type".toList, .str "unsigned".toList), ("bits".toList, .num 64)])],
          .obj [
            ("name".toList, .str "end".toList),
            ("info".toList, .obj [("type".toList, .str "unsigned".toList), ("bits".toList, .num 64)])]])]]),
    ("messages".toList, .arr [
      .obj [
        ("name".toList, .str "SpanRun".toList),
        ("fields".toList, .arr [
          .obj [
            ("name".toList, .str "times".toList),
            ("info".toList, .obj [
              ("type".toList, .str "item".toList),
              ("item_type".toList, .str "Times".toList)])],
          .obj [
            ("name".toList, .str "vars".toList),
            ("info".toList, .obj [
              ("type".toList, .str "list".toList),
              ("max_len".toList, .num 255),
              ("item_type".toList, .str "Item".toList)])]])],
      .obj [
        ("name".toList, .str "Dataset".toList),
        ("fields".toList, .arr [
          .obj [
            ("name".toList, .str "runs".toList),
            ("info".toList, .obj [
              ("type".toList, .str "list".toList),
              ("max_len".toList, .num 999999),
              ("item_type".toList, .str "SpanRun".toList)])]])]])]

/-- What `testprog/src/lists.json5` describes. -/
def listsM : Model.Protocol where
  name := "lists".toList
  imports := [
    ⟨"unions".toList, "Item".toList⟩]
  structs := [
    ⟨"Times".toList, [
      ⟨"start".toList, .unsigned 64, none, none⟩,
      ⟨"end".toList, .unsigned 64, none, none⟩]⟩]
  messages := [
    ⟨"SpanRun".toList, [
      ⟨"times".toList, .item "Times".toList, none⟩,
      ⟨"vars".toList, .list 255 "Item".toList, none⟩]⟩,
    ⟨"Dataset".toList, [
      ⟨"runs".toList, .list 999999 "SpanRun".toList, none⟩]⟩]

end Proto.Fix
