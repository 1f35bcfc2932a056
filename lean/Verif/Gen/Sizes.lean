import Verif.Gen.Message

/-!
# The size a generated structure reports
-/

namespace Proto

/-- `size()` of a structure over the storage `data`: `Size` is implemented for every `FixedSize`, whose constant
is `{byte_size}`.  `runtime/src/util/mod.rs` 36-45; `gen/rust/structure.template` 42-46. -/
def Structure.reportedSize (s : Structure) (_data : Bytes) : Nat := s.byteSize

end Proto
