import Verif.Runtime.Codec

/-!
# Arrays of bytes as slices
-/

namespace Proto.ArrayCodec

/-- `AsRef<[u8]>` of an array of items of type `u8` and size 8 (`codec/arrays.rs` 84-88). -/
def asRef (buf : Bytes) : Bytes := buf

/-- `AsMut<[u8]>` of such an array (`codec/arrays.rs` 78-82); `g` is what the caller does to the slice. -/
def asMut (buf : Bytes) (g : Bytes → Bytes) : Bytes := g buf

end Proto.ArrayCodec
