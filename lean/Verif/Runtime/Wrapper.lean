import Verif.Runtime.Message

/-!
# Array wrappers

`runtime/src/message/macros.rs`.  The macro is invoked by generated code for every array field
(`compiler/src/gen/rust/message.ext.template` 1-3), so each of them gets a type of its own.  Item types and
lifetimes are not tracked: an item is its bytes and `isz` is its size.
-/

namespace Proto

/-- All items changed through `Array::iter_mut` (`message/util/array.rs` 47-58, 104-109): `g` is what the
caller does to the bytes of each item. -/
def Arr.modifyAll (isz : Nat) (a : Seq Bytes) (g : Bytes → Bytes) : R (Seq Bytes) := do
  let items ← ArrayCodec.chunks isz a.data
  pure ⟨(items.map g).flatten, a.len⟩

/-- `struct $name<'a, B>` (`message/macros.rs` 32). -/
structure ArrayWrapper (σ : Type) where
  inner : Seq σ
deriving DecidableEq, Repr

namespace ArrayWrapper

/-- `from_raw_parts` (`message/macros.rs` 35-37). -/
def fromRawParts (data : σ) (len : Nat) : ArrayWrapper σ := ⟨⟨data, len⟩⟩

/-- `new` (`message/macros.rs` 39-41). -/
def new (data : σ) : ArrayWrapper σ := fromRawParts data 0

/-- `from_array` (`message/macros.rs` 43-45). -/
def fromArray (inner : Seq σ) : ArrayWrapper σ := ⟨inner⟩

/-- `len` (`message/macros.rs` 47-49). -/
def len (w : ArrayWrapper σ) : Nat := w.inner.len

/-- `write_item` (`message/macros.rs` 53-55). -/
def writeItem (S : Sink σ) (item : Out) (w : ArrayWrapper σ) : R Unit × ArrayWrapper σ :=
  match w.inner.writeItem S item with
  | (r, a) => (r, ⟨a⟩)

/-- `write_items` (`message/macros.rs` 57-59). -/
def writeItems (S : Sink σ) (items : List Out) (w : ArrayWrapper σ) : R Unit × ArrayWrapper σ :=
  match w.inner.writeItems S items with
  | (r, a) => (r, ⟨a⟩)

/-- `to_ref` (`message/macros.rs` 63-65; `message/util/list_base.rs` 76-78). -/
def toRef (w : ArrayWrapper Bytes) : Seq Bytes := ⟨w.inner.data, w.inner.len⟩

/-- `from_parts` (`message/macros.rs` 67-69). -/
def fromParts (p : Profile) (isz : Nat) (data : Bytes) (len : Nat) : R (Option (ArrayWrapper Bytes)) := do
  let a ← Arr.fromParts p isz data len
  pure (a.map ArrayWrapper.mk)

/-- `get` (`message/macros.rs` 71-73). -/
def get (p : Profile) (isz : Nat) (w : ArrayWrapper Bytes) (index : Nat) : R Bytes :=
  Arr.get p isz w.inner index

/-- `iter`, collected (`message/macros.rs` 75-77). -/
def iter (isz : Nat) (w : ArrayWrapper Bytes) : R (List Bytes) := Arr.iter isz w.inner

/-- Modifying an item through `get_mut` (`message/macros.rs` 81-83). -/
def modify (p : Profile) (isz : Nat) (w : ArrayWrapper Bytes) (index : Nat) (g : Bytes → Bytes) :
    R (ArrayWrapper Bytes) := do
  let a ← Arr.modify p isz w.inner index g
  pure ⟨a⟩

/-- Modifying all items through `iter_mut` (`message/macros.rs` 85-87). -/
def modifyAll (isz : Nat) (w : ArrayWrapper Bytes) (g : Bytes → Bytes) : R (ArrayWrapper Bytes) := do
  let a ← Arr.modifyAll isz w.inner g
  pure ⟨a⟩

end ArrayWrapper

end Proto
