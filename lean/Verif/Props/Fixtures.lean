import Verif.Fixtures.Build
import Verif.Props.Message
import Verif.Props.Union

/-!
# C87: the test program

What the schemas of `testprog/src` compile to, what `testprog/build.rs` generates, and what
`testprog/tests` check on examples, for every value.
-/

namespace Proto.Fix

open Proto.Input Props

/-! ## The build script -/

/-- The files of `testprog/src`. -/
def sources : List (Name × Json) :=
  [("./src/test.json5".toList, testJson), ("./src/structs.json5".toList, structsJson),
    ("./src/bits.json5".toList, bitsJson), ("./src/bits2.json5".toList, bits2Json),
    ("./src/views.json5".toList, viewsJson), ("./src/struct_arrays.json5".toList, structArraysJson),
    ("./src/enums.json5".toList, enumsJson), ("./src/values.json5".toList, valuesJson),
    ("./src/unions2.json5".toList, unions2Json), ("./src/arrays.json5".toList, arraysJson),
    ("./src/unions.json5".toList, unionsJson), ("./src/lists.json5".toList, listsJson)]

/-- The files are there and their text parses to what was transcribed. -/
def OnDisk (fs : Files) : Prop :=
  ∀ path json, (path, json) ∈ sources →
    ∃ content, fs.read path = some content ∧ fs.json5 content = some json

/-- A call of the build script on its loader; the second name is that of an import. -/
inductive Call where
  | load (path : String)
  | «import» (path importPath : String)

/-- The calls one after the other, each followed by `?`. -/
def run {w : Nat} (s : Serde w) (fs : Files) : Loader → List Call → Res LoadError Loader
  | l, [] => .ok l
  | l, .load path :: cs => do
    let l ← load s fs l path.toList
    run s fs l cs
  | l, .«import» path importPath :: cs => do
    let l ← import' s fs l path.toList importPath.toList
    run s fs l cs

/-- `testprog/build.rs` 33-42. -/
def firstCalls : List Call :=
  [.load "./src/test.json5", .load "./src/structs.json5", .load "./src/bits.json5",
    .load "./src/bits2.json5", .load "./src/views.json5", .load "./src/struct_arrays.json5",
    .load "./src/enums.json5", .load "./src/values.json5", .load "./src/unions2.json5",
    .load "./src/arrays.json5"]

/-- `testprog/build.rs` 46-48. -/
def secondCalls : List Call :=
  [.«import» "./src/enums.json5" "crate::enums", .«import» "./src/values.json5" "crate::values",
    .load "./src/unions.json5"]

/-- `testprog/build.rs` 52-55. -/
def thirdCalls : List Call :=
  [.«import» "./src/enums.json5" "crate::enums", .«import» "./src/values.json5" "crate::values",
    .«import» "./src/unions.json5" "crate::unions", .load "./src/lists.json5"]

theorem model_of_disk {w : Nat} {s : Serde w} {fs : Files} (h : OnDisk fs) {path : Name} {json : Json}
    (hm : (path, json) ∈ sources) {m : Model.Protocol} (hp : protocol s json = some m) :
    model s fs path = .ok m := by
  obtain ⟨content, h1, h2⟩ := h path json hm
  simp only [model, h1, h2, Option.bind, hp]

section
variable {s : Serde} {fs : Files} (h : OnDisk fs)
include h

theorem first_loads : run s fs Loader.new firstCalls = .ok ⟨[testM, structsM, bitsM, bits2M, viewsM,
    structArraysM, reordered enumsM (s.order typeVariants), valuesM,
    reordered unions2M (s.order testVariants), arraysM], []⟩ := by
  simp only [firstCalls, run, load, model_of_disk h (List.mem_of_getElem? (i := 0) rfl) (test_reads s),
    model_of_disk h (List.mem_of_getElem? (i := 1) rfl) (structs_reads s),
    model_of_disk h (List.mem_of_getElem? (i := 2) rfl) (bits_reads s),
    model_of_disk h (List.mem_of_getElem? (i := 3) rfl) (bits2_reads s),
    model_of_disk h (List.mem_of_getElem? (i := 4) rfl) (views_reads s),
    model_of_disk h (List.mem_of_getElem? (i := 5) rfl) (structArrays_reads s),
    model_of_disk h (List.mem_of_getElem? (i := 6) rfl) (enums_reads s),
    model_of_disk h (List.mem_of_getElem? (i := 7) rfl) (values_reads s),
    model_of_disk h (List.mem_of_getElem? (i := 8) rfl) (unions2_reads s),
    model_of_disk h (List.mem_of_getElem? (i := 9) rfl) (arrays_reads s),
    Res.bind_ok, Res.pure_eq]
  rfl

theorem second_loads : run s fs Loader.new secondCalls =
    .ok ⟨[unionsM], [("crate::enums".toList, reordered enumsM (s.order typeVariants)),
      ("crate::values".toList, valuesM)]⟩ := by
  simp only [secondCalls, run, load, import',
    model_of_disk h (List.mem_of_getElem? (i := 6) rfl) (enums_reads s),
    model_of_disk h (List.mem_of_getElem? (i := 7) rfl) (values_reads s),
    model_of_disk h (List.mem_of_getElem? (i := 10) rfl) (unions_reads s),
    Res.bind_ok, Res.pure_eq]
  rfl

theorem third_loads : run s fs Loader.new thirdCalls =
    .ok ⟨[listsM], [("crate::enums".toList, reordered enumsM (s.order typeVariants)),
      ("crate::values".toList, valuesM), ("crate::unions".toList, unionsM)]⟩ := by
  simp only [thirdCalls, run, load, import',
    model_of_disk h (List.mem_of_getElem? (i := 6) rfl) (enums_reads s),
    model_of_disk h (List.mem_of_getElem? (i := 7) rfl) (values_reads s),
    model_of_disk h (List.mem_of_getElem? (i := 10) rfl) (unions_reads s),
    model_of_disk h (List.mem_of_getElem? (i := 11) rfl) (lists_reads s),
    Res.bind_ok, Res.pure_eq]
  rfl

/-- C87: with the files in place, whatever a JSON5 parser leaves open, the three loaders of the build
script load and compile, in both profiles, to the protocols written down in `Fixtures/Compiled.lean`;
only `SpanRun` and `Item` are used as items of lists. -/
theorem C87_compiles (p : Profile) :
    (∃ l, run s fs Loader.new firstCalls = .ok l ∧
      l.compile p SimpleImportSolver.default ⟨0, []⟩ = .ok (first, ⟨28, []⟩)) ∧
    (∃ l, run s fs Loader.new secondCalls = .ok l ∧
      l.compile p SimpleImportSolver.default ⟨0, []⟩ = .ok (second, ⟨13, []⟩)) ∧
    (∃ l, run s fs Loader.new thirdCalls = .ok l ∧
      l.compile p SimpleImportSolver.default ⟨0, []⟩ = .ok (third, ⟨16, [14, 12]⟩)) :=
  ⟨⟨_, first_loads h, first_compiles p (s.order_perm _) (s.order_perm _)⟩,
    ⟨_, second_loads h, second_compiles p (s.order_perm _)⟩,
    ⟨_, third_loads h, third_compiles p (s.order_perm _)⟩⟩

/-- `testprog/build.rs` 44, 50, 57. -/
def configure (c : Protoc) : Protoc := (c.setReadsMessages true).setWritesMessages true

/-- The line printed for a protocol. -/
def line (out : Bytes) (upper dir : Bytes) : Bytes :=
  b!"cargo::rustc-env=BP3D_PROTOC_" ++ upper ++ b!"=" ++
    Path.join (Path.join out dir) b!"umbrella.rs"

omit h in
theorem line_eq (out : Bytes) (q : Name) : (Tpl.utf8 "cargo::rustc-env=BP3D_PROTOC_" ++
    (Name.utf8 q).map (fun c => if 'a'.toNat ≤ c.toNat ∧ c.toNat ≤ 'z'.toNat then c - 32 else c) ++
    Tpl.utf8 "=" ++ Path.join (Path.join out (Name.utf8 q)) (Tpl.utf8 "umbrella.rs")) =
    line out ((Name.utf8 q).map (fun c => if 'a'.toNat ≤ c.toNat ∧ c.toNat ≤ 'z'.toNat then c - 32 else c))
      (Name.utf8 q) := by
  have e1 : Tpl.utf8 "cargo::rustc-env=BP3D_PROTOC_" = b!"cargo::rustc-env=BP3D_PROTOC_" := by
    decide +kernel
  have e2 : Tpl.utf8 "=" = b!"=" := by decide +kernel
  have e3 : Tpl.utf8 "umbrella.rs" = b!"umbrella.rs" := by decide +kernel
  rw [e1, e2, e3]
  rfl

/-- C87: when no file operation fails, each of the three builds succeeds and prints one line for each
protocol, the ones that `testprog/src/lib.rs` includes. -/
theorem C87_builds (p : Profile) (lib : Lib) (emb : Nat → Bool) {disk : Fs}
    (hd : ∀ t o, (∀ d, o ≠ .exists d) → disk t o = true) (out : Bytes) :
    (∃ l t, run s fs Loader.new firstCalls = .ok l ∧
      generateRust p (Rust.generator lib p emb) disk (some l) configure (some out) = (t, .ok
        [line out b!"TEST" b!"test", line out b!"STRUCTS" b!"structs", line out b!"BITS" b!"bits",
          line out b!"BITS2" b!"bits2", line out b!"VIEWS" b!"views",
          line out b!"STRUCT_ARRAYS" b!"struct_arrays", line out b!"ENUMS" b!"enums",
          line out b!"VALUES" b!"values", line out b!"UNIONS2" b!"unions2",
          line out b!"ARRAYS" b!"arrays"])) ∧
    (∃ l t, run s fs Loader.new secondCalls = .ok l ∧
      generateRust p (Rust.generator lib p emb) disk (some l) configure (some out) =
        (t, .ok [line out b!"UNIONS" b!"unions"])) ∧
    (∃ l t, run s fs Loader.new thirdCalls = .ok l ∧
      generateRust p (Rust.generator lib p emb) disk (some l) configure (some out) =
        (t, .ok [line out b!"LISTS" b!"lists"])) := by
  obtain ⟨⟨l1, r1, c1⟩, ⟨l2, r2, c2⟩, ⟨l3, r3, c3⟩⟩ := C87_compiles (s := s) h p
  obtain ⟨t1, g1⟩ := generateRust_total (out := out) (configure := configure) c1 rfl
    (fine_generates c1 first_fine lib emb) hd
  obtain ⟨t2, g2⟩ := generateRust_total (out := out) (configure := configure) c2 rfl
    (fine_generates c2 second_fine lib emb) hd
  obtain ⟨t3, g3⟩ := generateRust_total (out := out) (configure := configure) c3 rfl
    (fine_generates c3 third_fine lib emb) hd
  simp only [line_eq] at g1 g2 g3
  refine ⟨⟨l1, t1, r1, g1.trans ?_⟩, ⟨l2, t2, r2, g2.trans ?_⟩, ⟨l3, t3, r3, g3.trans ?_⟩⟩
  · simp only [first, List.map_cons, List.map_nil, plain, enumsP, valuesP]
    have hn : ∀ (n : String) (a b : Bytes), Name.utf8 n.toList = b →
        (b.map (fun c => if 'a'.toNat ≤ c.toNat ∧ c.toNat ≤ 'z'.toNat then c - 32 else c)) = a →
        line out ((Name.utf8 n.toList).map
          (fun c => if 'a'.toNat ≤ c.toNat ∧ c.toNat ≤ 'z'.toNat then c - 32 else c))
          (Name.utf8 n.toList) = line out a b := by
      rintro n a b rfl rfl; rfl
    rw [hn "test" b!"TEST" b!"test" (by decide +kernel) (by decide +kernel),
      hn "structs" b!"STRUCTS" b!"structs" (by decide +kernel) (by decide +kernel),
      hn "bits" b!"BITS" b!"bits" (by decide +kernel) (by decide +kernel),
      hn "bits2" b!"BITS2" b!"bits2" (by decide +kernel) (by decide +kernel),
      hn "views" b!"VIEWS" b!"views" (by decide +kernel) (by decide +kernel),
      hn "struct_arrays" b!"STRUCT_ARRAYS" b!"struct_arrays" (by decide +kernel) (by decide +kernel),
      hn "enums" b!"ENUMS" b!"enums" (by decide +kernel) (by decide +kernel),
      hn "values" b!"VALUES" b!"values" (by decide +kernel) (by decide +kernel),
      hn "unions2" b!"UNIONS2" b!"unions2" (by decide +kernel) (by decide +kernel),
      hn "arrays" b!"ARRAYS" b!"arrays" (by decide +kernel) (by decide +kernel)]
  · congr 2
  · congr 2

end

end Proto.Fix
