import Verif.Props.Codec
import Verif.Runtime.ArrayBytes

/-!
# C07, continued: arrays of bytes
-/

namespace Proto.Props

theorem take_one_drop {buf : Bytes} {i : Nat} (hi : i < buf.length) : (buf.drop i).take 1 = [buf[i]] := by
  rw [List.drop_eq_getElem_cons hi]; rfl

/-- C07: the items of an array of bytes are the bytes of the slice, in both byte orders. -/
theorem C07_bytes_get (p : Profile) (e : Endian) {buf : Bytes} {i : Nat} {x : UInt8}
    (hx : (ArrayCodec.asRef buf)[i]? = some x) (hmem : buf.length < 2 ^ 64) :
    ArrayCodec.getRaw p e 1 8 buf i = .ok x.toNat := by
  unfold ArrayCodec.asRef at hx
  obtain ⟨hi, rfl⟩ := List.getElem?_eq_some_iff.1 hx
  rw [ArrayCodec.getRaw_eq p e (by simp; omega) hmem]
  simp only [Nat.reduceDiv, Nat.mul_one, take_one_drop hi]
  cases e
  · rw [ByteCodec.readLE_eq (sz := 1) (by omega) (.inr rfl)]; simp [leNat]
  · rw [ByteCodec.readBE_eq (sz := 1) (by omega) (by simp)]; simp [beNat, leNat]

example : ArrayCodec.getRaw .checked .big 1 8 [7, 8, 200] 2 = .ok 200 :=
  C07_bytes_get .checked .big (buf := [7, 8, 200]) (x := 200) rfl (by decide)

/-- C07: setting an item of an array of bytes is setting the byte of the slice. -/
theorem C07_bytes_set (p : Profile) (e : Endian) {buf : Bytes} {i : Nat} (v : UInt8) (hi : i < buf.length)
    (hmem : buf.length < 2 ^ 64) :
    ArrayCodec.setRaw p e 1 8 buf i v.toNat = .ok (ArrayCodec.asMut buf (·.set i v)) := by
  rw [ArrayCodec.setRaw_eq p e v.toNat (by simp; omega) hmem]
  simp only [Nat.reduceDiv, Nat.mul_one, take_one_drop hi]
  have hs : splice buf i [v] = buf.set i v := by
    rw [splice, List.set_eq_take_append_cons_drop, if_pos hi]; simp
  cases e
  · rw [ByteCodec.writeLE_eq (sz := 1) _ (by omega) (.inr rfl)]
    simp [natLe, ArrayCodec.asMut, hs]
  · rw [ByteCodec.writeBE_eq (sz := 1) _ (by omega) (by simp)]
    simp [natBe, natLe, ArrayCodec.asMut, hs]

example : ArrayCodec.setRaw .checked .little 1 8 [7, 8, 200] 1 255 = .ok [7, 255, 200] :=
  C07_bytes_set .checked .little (buf := [7, 8, 200]) 255 (by decide) (by decide)

/-- C07: length and iteration of an array of bytes are those of the slice. -/
theorem C07_bytes_all (p : Profile) (e : Endian) {buf : Bytes} (hmem : buf.length < 2 ^ 64) :
    ArrayCodec.len 8 buf = .ok (ArrayCodec.asRef buf).length ∧
      ArrayCodec.iterRaw e 1 8 buf = .ok ((ArrayCodec.asRef buf).map UInt8.toNat) := by
  refine ⟨C07_array_len buf (by decide) (by simp [ArrayCodec.asRef]), ?_⟩
  obtain ⟨l, h1, h2, h3⟩ := C07_array_iter p e (sz := 1) (bits := 8) (n := buf.length) (.inl rfl) buf
    (by decide) (by decide) (by simp) hmem
  rw [h1]
  congr 1
  apply List.ext_getElem
  · simp [ArrayCodec.asRef, h2]
  · intro i hi hi'
    have := (h3 i hi).symm.trans (C07_bytes_get p e (x := buf[i]'(h2 ▸ hi)) (List.getElem?_eq_getElem _) hmem)
    simp only [Res.ok.injEq] at this
    simp [this, ArrayCodec.asRef]

example : ArrayCodec.iterRaw .big 1 8 [7, 8, 200] = .ok [7, 8, 200] :=
  (C07_bytes_all .checked .big (buf := [7, 8, 200]) (by decide)).2

end Proto.Props
