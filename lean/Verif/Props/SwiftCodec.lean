import Verif.Props.SwiftMessage
import Verif.Runtime.CodecLemmas

/-!
# The Swift runtime: codecs

Each operation of the Swift codecs against the Rust codec of the same name, on any part of any data.
-/

namespace Proto.Sw

open Proto Proto.Props

/-! ## C79: reading -/

theorem width_le (w : Width) : w.size ≤ 8 := by cases w <;> decide

theorem width_pos (w : Width) : 0 < w.size := by cases w <;> decide

theorem rust_read (e : Endian) {sz : Nat} {b : Bytes} (h : sz ≤ b.length) :
    readBytes e sz b = .ok (intOfWire e (b.take sz)) := by
  rw [readBytes.eq_def, if_pos h]; cases e <;> rfl

theorem rust_write (e : Endian) {sz : Nat} {b : Bytes} (v : Nat) (h : sz ≤ b.length) :
    writeBytes e sz b v = .ok (wireInt e sz v ++ b.drop sz) := by
  rw [writeBytes.eq_def, if_pos h]; cases e <;> rfl

theorem intOfWire_inj {e : Endian} {a b : Bytes} (hl : a.length = b.length)
    (h : intOfWire e a = intOfWire e b) : a = b := by
  rw [← wireInt_intOfWire e a, ← wireInt_intOfWire e b, hl, h]

theorem View.byte_debug {v : View} (h : v.WF) (F : Foundation) (i : Nat) :
    v.byte .debug F i = orTrap v.bytes[i]? := by
  cases hx : v.bytes[i]? with
  | some x => exact View.byte_ok h .debug F hx
  | none =>
    have hi : v.bytes.length ≤ i := List.getElem?_eq_none_iff.mp hx
    unfold View.byte
    rw [assert_neg (by rw [h.size]; simpa using hi)]; rfl

theorem orTrap_get {l : Bytes} {i : Nat} (h : l.length ≤ i) : (orTrap l[i]? : S UInt8) = .panic := by
  rw [List.getElem?_eq_none_iff.mpr h]; rfl

theorem read32BE_debug {v : View} (h : v.WF) (F : Foundation) (hn : v.bytes.length < 4) :
    read32BE .debug F v = .panic := by
  unfold read32BE
  simp only [View.byte_debug h]
  rw [orTrap_get (i := 3) (by omega)]
  cases v.bytes[0]? <;> cases v.bytes[1]? <;> cases v.bytes[2]? <;> rfl

theorem fromBytes_debug {v : View} (h : v.WF) (F : Foundation) (e : Endian) (w : Width)
    (hn : v.bytes.length < w.size) : fromBytes .debug F e w v = .panic := by
  have key : read64BE .debug F v = .panic ∨ w ≠ .w64 := by
    by_cases hw : w = .w64
    · subst hw
      left
      simp only [Width.size] at hn
      unfold read64BE
      by_cases h4 : v.bytes.length < 4
      · rw [read32BE_debug h F h4]; rfl
      · obtain ⟨s, hs, hw, hb, -⟩ := View.dropFrom_ok h (d := .debug) (a := 4) (fun _ => by omega)
          (by omega)
        rw [read32BE_ok h .debug F (by omega), hs]
        simp only [Res.bind_ok]
        rw [read32BE_debug hw F (by rw [hb, List.length_drop]; omega)]; rfl
    · exact .inr hw
  cases w with
  | w8 =>
    simp only [Width.size] at hn
    cases e <;> unfold fromBytes <;> simp only [View.byte_debug h] <;>
      rw [orTrap_get (i := 0) (by omega)] <;> rfl
  | w16 =>
    simp only [Width.size] at hn
    cases e <;> unfold fromBytes <;> simp only [View.byte_debug h] <;>
      rw [orTrap_get (i := 1) (by omega)] <;> cases v.bytes[0]? <;> rfl
  | w32 =>
    simp only [Width.size] at hn
    cases e
    · unfold fromBytes read32LE
      simp only [View.byte_debug h]
      rw [orTrap_get (i := 3) (by omega)]; rfl
    · exact read32BE_debug h F hn
  | w64 =>
    have key := key.resolve_right (by simp)
    cases e <;> unfold fromBytes <;> rw [key] <;> rfl

/-- C79: an integer that fills its bytes is read as by the Rust library; in a debug build also the
failure of a buffer that is too short is the same. -/
theorem C79_aligned (d : Build) (F : Foundation) (e : Endian) (w : Width) (v : View) (h : v.WF)
    (hn : w.size ≤ v.bytes.length ∨ d = .debug) :
    Same (Proto.ByteCodec.readAligned e w.size v.bytes) (ByteCodec.readAligned d F e w v) := by
  unfold Proto.ByteCodec.readAligned ByteCodec.readAligned
  by_cases hl : w.size ≤ v.bytes.length
  · rw [rust_read e hl, fromBytes_ok h d F e w hl]; exact .ok _
  · have hd := hn.resolve_left hl
    subst hd
    rw [readBytes.eq_def, if_neg hl, fromBytes_debug h F e w (by omega)]; exact .panic

example (F : Foundation) : ByteCodec.readAligned .debug F .big .w16 ⟨[9, 1, 2, 3], 1, 4⟩ = .ok 0x0102 :=
  (C79_aligned .debug F .big .w16 ⟨[9, 1, 2, 3], 1, 4⟩ ⟨by decide, by decide, by decide⟩
    (.inl (by decide))).of_ok

/-- The bytes of a buffer with the first byte behind it. -/
theorem View.next {v : View} (h : v.WF) {x : UInt8} (hx : v.all[v.fin]? = some x) :
    (v.all.drop v.start).take (v.bytes.length + 1) = v.bytes ++ [x] := by
  have hl := h.length
  have := h.order
  rw [List.take_add_one, hl]
  have : (v.all.drop v.start)[v.fin - v.start]? = some x := by
    rw [List.getElem?_drop, ← hx]; congr 1; omega
  rw [this]; rfl

/-- What `copyTo` puts into the 8 bytes. -/
theorem View.copyTo8_next {v : View} (h : v.WF) (d : Build) (F : Foundation) {x : UInt8}
    (hx : v.all[v.fin]? = some x) :
    v.copyTo8 d F v.size = .ok ((v.bytes ++ x :: List.replicate 8 0).take 8) := by
  have hf : v.fin < v.all.length := (List.getElem?_eq_some_iff.mp hx).1
  have hl := h.length
  have := h.order
  unfold View.copyTo8
  rw [assert_pos d (by simp), h.size]
  simp only [Res.bind_ok, Int.toNat_natCast]
  rw [if_neg (by omega), if_pos (by omega), View.next h hx]
  simp only [Res.pure_eq]
  congr 1
  rw [show v.bytes ++ x :: List.replicate 8 0 = (v.bytes ++ [x]) ++ List.replicate 8 0 by simp,
    List.take_append (l₁ := v.bytes ++ [x])]
  congr 1
  rw [List.take_replicate]
  congr 1
  simp only [List.length_take, List.length_append, List.length_singleton]
  omega

theorem View.copyTo8_last {v : View} (h : v.WF) (d : Build) (F : Foundation)
    (hx : v.fin = v.all.length) :
    v.copyTo8 d F v.size = orTrap (F.copyBeyond v.all v.start v.fin) := by
  have hl := h.length
  have := h.order
  unfold View.copyTo8
  rw [assert_pos d (by simp), h.size]
  simp only [Res.bind_ok, Int.toNat_natCast]
  rw [if_neg (by omega), if_neg (by omega)]
  congr 2; omega

/-- C79: what reading an integer of another size than its bytes does, when a byte `x` follows the
buffer in its data: the integer is made of the bytes of the buffer, that byte, and zeros. -/
theorem C79_unaligned_exact (d : Build) (F : Foundation) (e : Endian) (w : Width) (v : View)
    (h : v.WF) (x : UInt8) (hx : v.all[v.fin]? = some x) :
    ByteCodec.readUnaligned d F e w v =
      .ok (intOfWire e ((v.bytes ++ x :: List.replicate 8 0).take w.size)) := by
  have hw := width_le w
  unfold ByteCodec.readUnaligned
  rw [View.copyTo8_next h d F hx]
  simp only [Res.bind_ok]
  have hl : ((v.bytes ++ x :: List.replicate 8 0).take 8).length = 8 := by
    rw [List.length_take]; simp
  unfold ByteCodec.readAligned
  rw [fromBytes_ok (View.whole_wf (by rw [hl]; omega)) d F e w (by rw [View.whole_bytes, hl]; exact hw),
    View.whole_bytes, List.take_take, Nat.min_eq_left hw]

example (F : Foundation) : ByteCodec.readUnaligned .debug F .big .w32 ⟨[9, 1, 2, 3, 4], 1, 4⟩ = .ok 0x01020304 :=
  C79_unaligned_exact .debug F .big .w32 _ ⟨by decide, by decide, by decide⟩ 4 rfl

/-- C79: at the end of the data it is up to Foundation what is read, if anything. -/
theorem C79_unaligned_last (d : Build) (F : Foundation) (e : Endian) (w : Width) (v : View)
    (h : v.WF) (hx : v.fin = v.all.length) :
    ByteCodec.readUnaligned d F e w v =
      match F.copyBeyond v.all v.start v.all.length with
      | some t => .ok (intOfWire e (t.take w.size))
      | none => .panic := by
  unfold ByteCodec.readUnaligned
  rw [View.copyTo8_last h d F hx, hx]
  cases ht : F.copyBeyond v.all v.start v.all.length with
  | none => rfl
  | some t =>
    have hl := F.copyBeyond_length _ _ _ _ ht
    simp only [orTrap, Res.bind_ok, ByteCodec.readAligned]
    rw [fromBytes_ok (View.whole_wf (by omega)) d F e w
      (by rw [View.whole_bytes, hl]; exact width_le w), View.whole_bytes]

example (F : Foundation) (t : Bytes) (ht : F.copyBeyond [9, 1, 2, 3] 1 4 = some t) :
    ByteCodec.readUnaligned .debug F .big .w32 ⟨[9, 1, 2, 3], 1, 4⟩ = .ok (intOfWire .big (t.take 4)) := by
  have : ByteCodec.readUnaligned .debug F .big .w32 ⟨[9, 1, 2, 3], 1, 4⟩ = match F.copyBeyond [9, 1, 2, 3] 1 4 with
      | some t => .ok (intOfWire .big (t.take 4))
      | none => .panic :=
    C79_unaligned_last .debug F .big .w32 ⟨[9, 1, 2, 3], 1, 4⟩ ⟨by decide, by decide, by decide⟩ rfl
  rw [ht] at this
  exact this

theorem rust_unaligned (e : Endian) {sz : Nat} {b : Bytes} (hsz : sz ≤ 8) (hb : b.length ≤ 8) :
    Proto.ByteCodec.readUnaligned e sz b =
      .ok (intOfWire e ((b ++ List.replicate 8 0).take sz)) := by
  have e1 : (b ++ List.replicate (8 - b.length) 0).take sz = (b ++ List.replicate 8 0).take sz := by
    rw [List.take_append, List.take_append]
    congr 1
    rw [List.take_replicate, List.take_replicate]
    congr 1; omega
  unfold Proto.ByteCodec.readUnaligned
  rw [pad8_ok hb]
  simp only [Res.bind_ok, Proto.ByteCodec.readAligned]
  rw [rust_read e (by simp; omega), e1]

/-- C79: so an integer of another size than its bytes is read as by the Rust library exactly when
it has no more bytes than the buffer or the byte behind the buffer happens to be zero. -/
theorem C79_unaligned (d : Build) (F : Foundation) (e : Endian) (w : Width) (v : View)
    (h : v.WF) (h8 : v.bytes.length ≤ 8) (x : UInt8) (hx : v.all[v.fin]? = some x) :
    Same (Proto.ByteCodec.readUnaligned e w.size v.bytes) (ByteCodec.readUnaligned d F e w v) ↔
      w.size ≤ v.bytes.length ∨ x = 0 := by
  have hw := width_le w
  rw [C79_unaligned_exact d F e w v h x hx, rust_unaligned e hw h8]
  constructor
  · intro hs
    have hs := Res.ok.inj hs.of_ok
    by_cases hl : w.size ≤ v.bytes.length
    · exact .inl hl
    · right
      have := intOfWire_inj (by simp; omega) hs
      have : ((v.bytes ++ x :: List.replicate 8 0).take w.size)[v.bytes.length]? =
          ((v.bytes ++ List.replicate 8 0).take w.size)[v.bytes.length]? := by rw [this]
      rw [List.getElem?_take, if_pos (by omega), List.getElem?_take, if_pos (by omega),
        List.getElem?_append_right (Nat.le_refl _), List.getElem?_append_right (Nat.le_refl _)] at this
      simpa using this
  · rintro (hl | rfl)
    · rw [List.take_append_of_le_length hl, List.take_append_of_le_length hl]; exact .ok _
    · have : (v.bytes ++ 0 :: List.replicate 8 0).take w.size =
          (v.bytes ++ List.replicate 8 (0 : UInt8)).take w.size := by
        rw [List.take_append, List.take_append, ← List.replicate_succ, List.take_replicate,
          List.take_replicate]
        congr 2; omega
      rw [this]; exact .ok _

/-- Three of four bytes as a `UInt32`: the Rust value only if the fourth is zero. -/
example (F : Foundation) :
    ByteCodec.readUnaligned .debug F .little .w32 ⟨[1, 2, 3, 0], 0, 3⟩ = .ok 0x030201 ∧
    ¬ Same (Proto.ByteCodec.readUnaligned .little 4 [1, 2, 3])
      (ByteCodec.readUnaligned .debug F .little .w32 ⟨[1, 2, 3, 4], 0, 3⟩) :=
  ⟨((C79_unaligned .debug F .little .w32 ⟨[1, 2, 3, 0], 0, 3⟩ ⟨by decide, by decide, by decide⟩
      (by decide) 0 rfl).mpr (.inr rfl)).of_ok,
    fun h => absurd ((C79_unaligned .debug F .little .w32 ⟨[1, 2, 3, 4], 0, 3⟩
      ⟨by decide, by decide, by decide⟩ (by decide) 4 rfl).mp h) (by decide)⟩

/-- C79: `read` chooses between the two by the size of the buffer. -/
theorem C79_read (d : Build) (F : Foundation) (e : Endian) (w : Width) (v : View) (h : v.WF)
    (off size : Nat) :
    (ByteCodec.read d F e w v =
      if v.bytes.length = w.size then .ok (intOfWire e v.bytes)
      else ByteCodec.readUnaligned d F e w v) ∧
    (BitCodec.read d F e w off size v =
      if v.bytes.length = w.size then BitCodec.readAligned d F e w off size v
      else BitCodec.readUnaligned d F e w off size v) := by
  unfold ByteCodec.read BitCodec.read
  rw [h.size]
  by_cases hl : v.bytes.length = w.size
  · have hi : ¬(w.size : Int) ≠ (v.bytes.length : Int) := by omega
    rw [if_neg hi, if_pos hl, if_neg hi, if_pos hl]
    refine ⟨?_, rfl⟩
    unfold ByteCodec.readAligned
    rw [fromBytes_ok h d F e w (by omega), ← hl, List.take_length]
  · have hi : (w.size : Int) ≠ (v.bytes.length : Int) := by omega
    rw [if_pos hi, if_neg hl, if_pos hi, if_neg hl]
    exact ⟨rfl, rfl⟩

example (F : Foundation) : ByteCodec.read .release F .big .w16 ⟨[9, 1, 2, 3], 1, 3⟩ = .ok 0x0102 :=
  (C79_read .release F .big .w16 _ ⟨by decide, by decide, by decide⟩ 0 0).1

/-- The distance of a bit field from the lowest bit of its integer, where the codecs have one. -/
def place (e : Endian) (off size : Nat) : Nat :=
  match e with
  | .little => off
  | .big => 8 - size % 8 - off

/-- The bit fields both libraries are made for: narrower than a `UInt`, no wider than the integer
`w` they are read as, and placed inside it. -/
structure Fits (e : Endian) (w : Width) (off size : Nat) : Prop where
  narrow : size < 64
  width : size ≤ 8 * w.size
  inside : place e off size < 8 * w.size
  byte : e = .big → off + size % 8 ≤ 8

theorem swift_mask {size : Nat} (h : size < 64) : BitCodec.mask size = .ok (2 ^ size - 1) := by
  unfold BitCodec.mask
  have := Nat.two_pow_pos size
  simp only [if_pos h]
  rw [if_neg (by omega)]

theorem swift_shift {e : Endian} {w : Width} {off size : Nat} (h : Fits e w off size) :
    BitCodec.shift e off size = .ok (place e off size) := by
  cases e with
  | little => rfl
  | big =>
    have := h.byte rfl
    unfold BitCodec.shift place
    simp only
    rw [if_pos (by omega)]

theorem rust_shift (p : Profile) {e : Endian} {w : Width} {off size : Nat} (h : Fits e w off size) :
    Proto.BitCodec.shiftAmount p e off size = .ok (place e off size) := by
  cases e with
  | little => rfl
  | big =>
    have := h.byte rfl
    unfold Proto.BitCodec.shiftAmount
    simp only
    rw [Proto.BitCodec.beShift_ok p (by omega)]; rfl

theorem mask_fits {w : Width} {size : Nat} (h : size ≤ 8 * w.size) :
    2 ^ size - 1 < 256 ^ w.size := by
  have := Nat.two_pow_pos size
  have h2 : 2 ^ size ≤ 2 ^ (8 * w.size) := Nat.pow_le_pow_right (by omega) h
  rw [pow256]; omega

theorem place_fits {w : Width} {n : Nat} (h : n < 8 * w.size) : n < 256 ^ w.size := by
  have : 8 * w.size ≤ 256 ^ w.size := by cases w <;> decide
  omega

/-- The value of the bit field. -/
theorem swift_bits (d : Build) (F : Foundation) {e : Endian} {w : Width} {off size : Nat}
    (hf : Fits e w off size) {v : View} (h : v.WF) (hn : w.size ≤ v.bytes.length) :
    BitCodec.readAligned d F e w off size v =
      .ok (intOfWire e (v.bytes.take w.size) / 2 ^ place e off size % 2 ^ size) := by
  unfold BitCodec.readAligned
  rw [swift_mask hf.narrow, fromBytes_ok h d F e w hn, swift_shift hf]
  simp only [Res.bind_ok]
  rw [fromUInt_ok (place_fits hf.inside), fromUInt_ok (mask_fits hf.width)]
  simp only [Res.bind_ok, Res.pure_eq]
  rw [Nat.shiftRight_eq_div_pow, Nat.and_two_pow_sub_one_eq_mod]

theorem rust_bits (p : Profile) {e : Endian} {w : Width} {off size : Nat}
    (hf : Fits e w off size) {b : Bytes} (hn : w.size ≤ b.length) :
    Proto.BitCodec.readAligned p e w.size off size b =
      .ok (intOfWire e (b.take w.size) / 2 ^ place e off size % 2 ^ size) := by
  unfold Proto.BitCodec.readAligned
  rw [Proto.BitCodec.mask_ok p hf.narrow, rust_read e hn, rust_shift p hf]
  simp only [Res.bind_ok]
  rw [fromUsize_of_lt (place_fits hf.inside), fromUsize_of_lt (mask_fits hf.width),
    shrU_ok p hf.inside]
  simp only [Res.bind_ok, Res.pure_eq]
  rw [Nat.shiftRight_eq_div_pow, Nat.and_two_pow_sub_one_eq_mod]

/-- C79: a bit field in an integer that fills its bytes is read as by the Rust library: the bits are
moved down and cut off. -/
theorem C79_bits (p : Profile) (d : Build) (F : Foundation) (e : Endian) (w : Width)
    (off size : Nat) (hf : Fits e w off size) (v : View) (h : v.WF) (hn : w.size ≤ v.bytes.length) :
    Same (Proto.BitCodec.readAligned p e w.size off size v.bytes)
        (BitCodec.readAligned d F e w off size v) ∧
      BitCodec.readAligned d F e w off size v =
        .ok (intOfWire e (v.bytes.take w.size) / 2 ^ place e off size % 2 ^ size) := by
  rw [swift_bits d F hf h hn, rust_bits p hf hn]
  exact ⟨.ok _, rfl⟩

example (F : Foundation) :
    BitCodec.readAligned .debug F .little .w16 3 9 ⟨[0xF8, 0x0F], 0, 2⟩ = .ok 0x1FF :=
  (C79_bits .checked .debug F .little .w16 3 9 ⟨by decide, by decide, by decide, by decide⟩
    ⟨[0xF8, 0x0F], 0, 2⟩ ⟨by decide, by decide, by decide⟩ (by decide)).2.trans (by decide)

theorem fromBytes_ne_err (d : Build) (F : Foundation) (e : Endian) (w : Width) (v : View)
    (x : Error) : fromBytes d F e w v ≠ .err x := by
  have ha : ∀ b, assert d b ≠ .err x := by intro b; cases d <;> cases b <;> simp [assert]
  have hb : ∀ {α β : Type} {r : S α} {f : α → S β}, r ≠ .err x → (∀ a, f a ≠ .err x) →
      (r >>= f) ≠ .err x := by
    intro α β r f h1 h2
    cases r with
    | ok a => exact h2 a
    | err y => intro he; exact h1 (by rw [Res.bind_err] at he; cases he; rfl)
    | panic => intro he; cases he
  have hbyte : ∀ (v : View) i, v.byte d F i ≠ .err x := by
    intro v i
    refine hb (ha _) fun _ => ?_
    split
    · simp
    · cases F.byteBeyond v.all (v.start + i) <;> simp [orTrap]
  have h32 : ∀ v, read32BE d F v ≠ .err x := fun v =>
    hb (hbyte v _) fun _ => hb (hbyte v _) fun _ => hb (hbyte v _) fun _ => hb (hbyte v _) fun _ => by
      simp
  have h32l : ∀ v, read32LE d F v ≠ .err x := fun v =>
    hb (hbyte v _) fun _ => hb (hbyte v _) fun _ => hb (hbyte v _) fun _ => hb (hbyte v _) fun _ => by
      simp
  have h64 : ∀ v, read64BE d F v ≠ .err x := fun v =>
    hb (h32 v) fun _ => hb (hb (ha _) fun _ => hb (ha _) fun _ => by simp) fun _ =>
      hb (h32 _) fun _ => by simp
  cases w <;> cases e <;> unfold fromBytes
  · exact hb (hbyte v _) fun _ => by simp
  · exact hb (hbyte v _) fun _ => by simp
  · exact hb (hbyte v _) fun _ => hb (hbyte v _) fun _ => by simp
  · exact hb (hbyte v _) fun _ => hb (hbyte v _) fun _ => by simp
  · exact h32l v
  · exact h32 v
  · exact hb (h64 v) fun _ => by simp
  · exact h64 v

/-- C79: a bit field of 64 bits or more, or one too wide for an integer of 1 or 4 bytes, stops the
program whatever the bytes. -/
theorem C79_bits_wide (d : Build) (F : Foundation) (e : Endian) (w : Width) (off size : Nat)
    (hs : 64 ≤ size ∨ (8 * w.size < size ∧ w ≠ .w16)) (v : View) :
    BitCodec.readAligned d F e w off size v = .panic := by
  unfold BitCodec.readAligned
  by_cases h64 : size < 64
  · obtain ⟨h1, h2⟩ := hs.resolve_left (by omega)
    rw [swift_mask h64]
    simp only [Res.bind_ok]
    cases hv : fromBytes d F e w v with
    | err x => exact absurd hv (fromBytes_ne_err d F e w v x)
    | panic => rfl
    | ok a =>
      simp only [Res.bind_ok]
      have hm : fromUInt w (2 ^ size - 1) = .panic := by
        have : 2 ^ (8 * w.size + 1) ≤ 2 ^ size := Nat.pow_le_pow_right (by omega) h1
        cases w
        · simp only [Width.size] at this
          rw [fromUInt, if_neg (by omega)]
        · exact absurd rfl h2
        · simp only [Width.size] at this
          rw [fromUInt, if_neg (by omega)]
        · simp only [Width.size] at h1; omega
      rw [hm]
      have hsh : ∀ x, BitCodec.shift e off size ≠ .err x := by
        intro x; unfold BitCodec.shift; cases e <;> simp; split <;> simp
      cases hq : BitCodec.shift e off size with
      | err x => exact absurd hq (hsh x)
      | panic => rfl
      | ok q =>
        simp only [Res.bind_ok]
        have : ∀ x, fromUInt w q ≠ .err x := by
          intro x; cases w <;> simp [fromUInt] <;> split <;> simp
        cases hq2 : fromUInt w q with
        | err x => exact absurd hq2 (this x)
        | panic => rfl
        | ok _ => rfl
  · have : BitCodec.mask size = .panic := by simp [BitCodec.mask, h64]
    rw [this]; rfl

example (F : Foundation) (v : View) : BitCodec.readAligned .release F .little .w64 0 64 v = .panic :=
  C79_bits_wide .release F .little .w64 0 64 (.inl (by decide)) v

/-- C79: the big-endian reader counts from the other end of the last byte: a field that begins in the
bits its own size leaves unused before the next byte boundary is read, any later one traps, and so does
the writer. -/
theorem C79_bits_big_offset (d : Build) (F : Foundation) (w : Width) (off size : Nat)
    (ho : 8 < off + size % 8) :
    (∀ v, BitCodec.readAligned d F .big w off size v = .panic) ∧
    ∀ h b x, BitCodec.writeAligned d F h .big w off size b x = .panic := by
  have hsh : BitCodec.shift .big off size = .panic := by
    unfold BitCodec.shift
    simp only []
    rw [if_neg (by omega)]
  refine ⟨fun v => ?_, fun h b x => ?_⟩
  rotate_left
  · unfold BitCodec.writeAligned
    by_cases h64 : size < 64
    · rw [swift_mask h64]
      simp only [Res.bind_ok]
      cases hv : fromBytes d F .big w (b.view h) with
      | err x => exact absurd hv (fromBytes_ne_err d F .big w _ x)
      | panic => rfl
      | ok a =>
        have hu : ∀ n x, fromUInt w n ≠ .err x := by
          intro n x; cases w <;> simp [fromUInt] <;> split <;> simp
        simp only [Res.bind_ok]
        generalize 2 ^ 64 - 1 - (if off < 64 then (2 ^ size - 1) <<< off % 2 ^ 64 else 0) = k
        cases h1 : fromUInt w k with
        | err x => exact absurd h1 (hu _ x)
        | panic => rfl
        | ok _ =>
          simp only [Res.bind_ok]
          cases h2 : fromUInt w (2 ^ size - 1) with
          | err x => exact absurd h2 (hu _ x)
          | panic => rfl
          | ok _ => simp only [Res.bind_ok, hsh]; rfl
    · have : BitCodec.mask size = .panic := by simp [BitCodec.mask, h64]
      rw [this]; rfl
  unfold BitCodec.readAligned
  by_cases h64 : size < 64
  · rw [swift_mask h64]
    simp only [Res.bind_ok]
    cases hv : fromBytes d F .big w v with
    | err x => exact absurd hv (fromBytes_ne_err d F .big w v x)
    | panic => rfl
    | ok a =>
      simp only [Res.bind_ok, hsh]
      rfl
  · have : BitCodec.mask size = .panic := by simp [BitCodec.mask, h64]
    rw [this]; rfl

example (F : Foundation) (v : View) : BitCodec.readAligned .release F .big .w16 3 14 v = .panic :=
  (C79_bits_big_offset .release F .w16 3 14 (by decide)).1 v

/-- C79: a bit field in an integer of another size than its bytes, when a byte `x` follows: that byte
becomes part of the integer. -/
theorem C79_bits_exact (d : Build) (F : Foundation) (e : Endian) (w : Width) (off size : Nat)
    (hf : Fits e w off size) (v : View) (h : v.WF) (x : UInt8) (hx : v.all[v.fin]? = some x) :
    BitCodec.readUnaligned d F e w off size v =
      .ok (intOfWire e ((v.bytes ++ x :: List.replicate 8 0).take w.size) /
        2 ^ place e off size % 2 ^ size) := by
  have hw := width_le w
  unfold BitCodec.readUnaligned
  rw [View.copyTo8_next h d F hx]
  simp only [Res.bind_ok]
  have hl : ((v.bytes ++ x :: List.replicate 8 0).take 8).length = 8 := by
    rw [List.length_take]; simp
  rw [swift_bits d F hf (View.whole_wf (by rw [hl]; omega)) (by rw [View.whole_bytes, hl]; exact hw),
    View.whole_bytes, List.take_take, Nat.min_eq_left hw]

example (F : Foundation) : BitCodec.readUnaligned .debug F .little .w32 3 18 ⟨[0xF8, 0x0F, 0xFF], 0, 2⟩ =
    .ok 0x3E1FF :=
  (C79_bits_exact .debug F .little .w32 3 18 ⟨by decide, by decide, by decide, by decide⟩
    ⟨[0xF8, 0x0F, 0xFF], 0, 2⟩ ⟨by decide, by decide, by decide⟩ 0xFF rfl).trans (by decide)

theorem leNat_take_append {a b : Bytes} (n : Nat) :
    leNat ((a ++ b).take n) % 2 ^ (8 * a.length) =
      leNat (a.take n) := by
  by_cases hn : n ≤ a.length
  · rw [List.take_append_of_le_length hn, Nat.mod_eq_of_lt]
    have := leNat_lt (a.take n)
    rw [pow256] at this
    refine Nat.lt_of_lt_of_le this (Nat.pow_le_pow_right (by omega) ?_)
    rw [List.length_take]; omega
  · rw [List.take_append, leNat_append, List.take_of_length_le (by omega), pow256,
      Nat.add_mul_mod_self_left, Nat.mod_eq_of_lt]
    rw [← pow256]; exact leNat_lt a

/-- C79: a little-endian bit field that lies within its bytes is read as by the Rust library,
whatever byte follows. -/
theorem C79_bits_unaligned (p : Profile) (d : Build) (F : Foundation) (w : Width) (off size : Nat)
    (hf : Fits .little w off size) (v : View) (h : v.WF) (h8 : v.bytes.length ≤ 8)
    (hin : off + size ≤ 8 * v.bytes.length) (x : UInt8) (hx : v.all[v.fin]? = some x) :
    Same (Proto.BitCodec.readUnaligned p .little w.size off size v.bytes)
      (BitCodec.readUnaligned d F .little w off size v) := by
  have hw := width_le w
  rw [C79_bits_exact d F .little w off size hf v h x hx]
  unfold Proto.BitCodec.readUnaligned
  rw [pad8_ok h8]
  simp only [Res.bind_ok]
  rw [rust_bits p hf (by simp; omega)]
  have key : ∀ t : Bytes, leNat ((v.bytes ++ t).take w.size) / 2 ^ off % 2 ^ size =
      leNat (v.bytes.take w.size) / 2 ^ off % 2 ^ size := by
    intro t
    rw [← leNat_take_append (a := v.bytes) (b := t) w.size]
    apply Nat.eq_of_testBit_eq
    intro i
    simp only [Nat.testBit_mod_two_pow, Nat.testBit_div_two_pow]
    by_cases hi : i < size
    · simp [hi, show i + off < 8 * v.bytes.length by omega]
    · simp [hi]
  simp only [intOfWire, place]
  rw [key, key]
  exact .ok _

example (F : Foundation) :
    BitCodec.readUnaligned .debug F .little .w32 3 9 ⟨[0xF8, 0x0F, 0xFF], 0, 2⟩ = .ok 0x1FF :=
  (C79_bits_unaligned .checked .debug F .w32 3 9 ⟨by decide, by decide, by decide, by decide⟩
    ⟨[0xF8, 0x0F, 0xFF], 0, 2⟩ ⟨by decide, by decide, by decide⟩ (by decide) (by decide) 0xFF rfl).of_ok

/-! ## C80: writing -/

/-- A write through `b` turned the bytes `b` shows into `new` and left those around them; buffers
that share the data see it, and all other data is as before. -/
structure Stored (h h' : Heap) (b b' : DataBuffer) (new : Bytes) : Prop where
  data : b'.get h' = (b.get h).take b.start ++ new ++ (b.get h).drop b.fin
  shared : ∀ r, b.dataMut = some r → b'.dataMut = some r ∧ ∀ k, k ≠ r → k < h.length → h'[k]? = h[k]?
  copied : b.dataMut = none → ∀ k, k < h.length → h'[k]? = h[k]?

theorem put {h : Heap} {b : DataBuffer} (hv : Valid h b) (hc : b.cursor = b.start)
    (hw : (b.view h).WF) {x : Bytes} (hn : x.length ≤ (b.view h).bytes.length) :
    ∃ h' b', b.writeBytes h x = .ok (h', b') ∧ b'.fin = b.start + x.length ∧
      Stored h h' b b' (x ++ (b.view h).bytes.drop x.length) := by
  obtain ⟨h', b', e1, -, e2, e3, e4, e5, e6, e7, e8⟩ := C75_bytes h b hv x
  have hl := hw.length
  have ho := hw.order
  have hi := hw.inside
  have hst : (b.view h).start = b.start := rfl
  have hfi : (b.view h).fin = b.fin := rfl
  have hal : (b.view h).all = b.get h := rfl
  rw [hst, hfi] at hl ho
  rw [hfi, hal] at hi
  refine ⟨h', b', e1, by rw [e5, hc], ?_, ?_, ?_⟩
  · rw [e2, hc]
    have : (b.get h).drop (b.start + x.length) =
        (b.view h).bytes.drop x.length ++ (b.get h).drop b.fin := by
      rw [View.bytes, hal, hst, hfi, ← List.drop_drop]
      conv => lhs; rw [← List.take_append_drop (b.fin - b.start) ((b.get h).drop b.start)]
      rw [List.drop_append_of_le_length (by rw [List.length_take, List.length_drop]; omega), List.drop_drop,
        show b.start + (b.fin - b.start) = b.fin by omega]
    rw [this]; simp
  · intro r hr
    obtain ⟨a1, a2, a3⟩ := e7 r hr
    exact ⟨a1, fun k hk _ => a3 k hk⟩
  · intro hr k hk
    exact (e8 hr).2.2 k hk

/-- C80: an integer that fills its bytes is written as by the Rust library; the buffer written
through then ends behind the integer. -/
theorem C80_aligned (h : Heap) (b : DataBuffer) (hv : Valid h b) (hc : b.cursor = b.start)
    (hw : (b.view h).WF) (e : Endian) (w : Width) (x : Nat)
    (hn : w.size ≤ (b.view h).bytes.length) :
    ∃ h' b' new, ByteCodec.writeAligned h e w b x = .ok (h', b') ∧
      Proto.ByteCodec.writeAligned e w.size (b.view h).bytes x = .ok new ∧
      new = wireInt e w.size x ++ (b.view h).bytes.drop w.size ∧
      Stored h h' b b' new ∧ b'.fin = b.start + w.size := by
  obtain ⟨h', b', e1, e2, e3⟩ := put hv hc hw (x := toBytes e w x)
    (by rw [toBytes_eq, wireInt_length]; exact hn)
  rw [toBytes_eq, wireInt_length] at e2 e3
  exact ⟨h', b', _, e1, rust_write e x hn, rfl, e3, e2⟩

example : ∃ h' b', ByteCodec.writeAligned [[7, 1, 2, 3]] .big .w16 ⟨[], some 0, 1, 4, 1⟩ 0x0506 =
    .ok (h', b') ∧ b'.fin = 3 := by
  obtain ⟨h', b', _, h, _, _, _, e⟩ := C80_aligned [[7, 1, 2, 3]] ⟨[], some 0, 1, 4, 1⟩
    ⟨(by intro r h; cases h; decide), (by decide), (by decide)⟩ rfl ⟨by decide, by decide, by decide⟩
    .big .w16 0x0506 (by decide)
  exact ⟨h', b', h, e⟩

theorem ofBytes_valid (h : Heap) (t : Bytes) :
    Valid (DataBuffer.ofBytes h t).1 (DataBuffer.ofBytes h t).2 :=
  ⟨by rintro r hr; cases hr; simp [DataBuffer.ofBytes], Nat.le_refl _, Nat.zero_le _⟩

theorem get_append {h h2 : Heap} {b : DataBuffer} (hv : Valid h b)
    (hp : ∀ k, k < h.length → h2[k]? = h[k]?) : b.get h2 = b.get h := by
  unfold DataBuffer.get
  cases hr : b.dataMut with
  | none => rfl
  | some r => simp only [hp r (hv.object r hr)]

theorem ofBytes_write (h : Heap) (t y : Bytes) :
    ∃ h2 b2, (DataBuffer.ofBytes h t).2.writeBytes (DataBuffer.ofBytes h t).1 y = .ok (h2, b2) ∧
      h2.length = h.length + 1 ∧ ∀ k, k < h.length → h2[k]? = h[k]? := by
  obtain ⟨h2, b2, e1, -, -, -, -, -, -, e7, -⟩ := C75_bytes _ _ (ofBytes_valid h t) y
  obtain ⟨-, a2, a3⟩ := e7 h.length rfl
  refine ⟨h2, b2, e1, by rw [a2]; simp [DataBuffer.ofBytes], fun k hk => ?_⟩
  rw [a3 k (by omega)]
  simp only [DataBuffer.ofBytes]
  rw [List.getElem?_append_left hk]

/-- Writing 8 bytes back through a buffer whose program has created another object meanwhile. -/
theorem put_back {h h2 : Heap} {b : DataBuffer} (hv : Valid h b) (hc : b.cursor = b.start)
    (hl : h2.length = h.length + 1) (hp : ∀ k, k < h.length → h2[k]? = h[k]?) (y : Bytes) :
    ∃ h' b', b.writeBytes h2 y = .ok (h', b') ∧
      b'.get h' = (b.get h).take b.start ++ y ++ (b.get h).drop (b.start + y.length) ∧
      (∀ r, b.dataMut = some r → b'.dataMut = some r) ∧
      ∀ k, b.dataMut ≠ some k → k < h.length → h'[k]? = h[k]? := by
  have hg := get_append hv hp
  have hv2 : Valid h2 b := ⟨fun r hr => by have := hv.object r hr; omega, hv.lower,
    by rw [hg]; exact hv.upper⟩
  obtain ⟨h', b', e1, -, e2, -, -, -, -, e7, e8⟩ := C75_bytes h2 b hv2 y
  refine ⟨h', b', e1, by rw [e2, hg, hc], fun r hr => (e7 r hr).1, fun k hk hlt => ?_⟩
  rw [← hp k hlt]
  cases hr : b.dataMut with
  | none => exact (e8 hr).2.2 k (by omega)
  | some r => exact (e7 r hr).2.2 k (fun hkr => hk (by rw [hr, hkr]))

/-- C80: what writing an integer of another size than its bytes does, when a byte `y` follows the
buffer in its data: the integer is not stored at all.  Instead 8 bytes are overwritten, by the old
bytes of the buffer, the byte behind it, and zeros. -/
theorem C80_unaligned (d : Build) (F : Foundation) (h : Heap) (b : DataBuffer) (hv : Valid h b)
    (hc : b.cursor = b.start) (hw : (b.view h).WF) (e : Endian) (w : Width) (y : UInt8)
    (hy : (b.get h)[b.fin]? = some y) (x : Nat) :
    ∃ h' b', ByteCodec.writeUnaligned d F h e w b x = .ok (h', b') ∧
      b'.get h' = (b.get h).take b.start ++
        ((b.view h).bytes ++ y :: List.replicate 8 0).take 8 ++ (b.get h).drop (b.start + 8) ∧
      (∀ r, b.dataMut = some r → b'.dataMut = some r) ∧
      ∀ k, b.dataMut ≠ some k → k < h.length → h'[k]? = h[k]? := by
  unfold ByteCodec.writeUnaligned
  rw [View.copyTo8_next hw d F hy]
  simp only [Res.bind_ok, ByteCodec.writeAligned]
  generalize ht : ((b.view h).bytes ++ y :: List.replicate 8 0).take 8 = t
  have hl : t.length = 8 := by rw [← ht, List.length_take]; simp
  obtain ⟨h2, b2, e1, e2, e3⟩ := ofBytes_write h t (toBytes e w x)
  rw [e1]
  simp only [Res.bind_ok]
  obtain ⟨h', b', a1, a2, a3⟩ := put_back hv hc e2 e3 t
  exact ⟨h', b', a1, by rw [a2, hl], a3⟩

example (F : Foundation) : ∃ h' b', ByteCodec.writeUnaligned .debug F
    [[1, 2, 3, 4, 5, 6, 7, 8, 9, 10]] .little .w32 ⟨[], some 0, 0, 3, 0⟩ 5 = .ok (h', b') ∧
    b'.get h' = [1, 2, 3, 4, 0, 0, 0, 0, 9, 10] := by
  obtain ⟨h', b', h, e, _⟩ := C80_unaligned .debug F [[1, 2, 3, 4, 5, 6, 7, 8, 9, 10]]
    ⟨[], some 0, 0, 3, 0⟩ ⟨(by intro r h; cases h; decide), (by decide), (by decide)⟩ rfl
    ⟨by decide, by decide, by decide⟩ .little .w32 4 rfl 5
  exact ⟨h', b', h, e⟩

/-- C80: so the bytes of a field written this way are what they were, the bytes from the second
behind it to the eighth of the field are zero afterwards, and data ending before those is extended. -/
theorem C80_unaligned_lost (d : Build) (F : Foundation) (h : Heap) (b : DataBuffer) (hv : Valid h b)
    (hc : b.cursor = b.start) (hw : (b.view h).WF) (e : Endian) (w : Width) (y : UInt8)
    (hy : (b.get h)[b.fin]? = some y) (h8 : (b.view h).bytes.length ≤ 7) (x : Nat) (h' : Heap)
    (b' : DataBuffer) (hr : ByteCodec.writeUnaligned d F h e w b x = .ok (h', b')) :
    (∀ i, i ≤ b.fin → (b'.get h')[i]? = (b.get h)[i]?) ∧
    (∀ i, b.fin < i → i < b.start + 8 → (b'.get h')[i]? = some 0) ∧
    (∀ i, b.start + 8 ≤ i → (b'.get h')[i]? = (b.get h)[i]?) := by
  obtain ⟨h1, b1, e1, e2, -⟩ := C80_unaligned d F h b hv hc hw e w y hy x
  rw [hr] at e1
  cases e1
  have hl := hw.length
  have ho := hw.order
  have hi := hw.inside
  have hst : (b.view h).start = b.start := rfl
  have hfi : (b.view h).fin = b.fin := rfl
  have hal : (b.view h).all = b.get h := rfl
  rw [hst, hfi] at hl ho
  rw [hfi, hal] at hi
  have ht : ((b.get h).take b.start).length = b.start := by simp; omega
  have hlt : (((b.view h).bytes ++ y :: List.replicate 8 0).take 8).length = 8 := by
    rw [List.length_take]; simp
  rw [e2, List.append_assoc]
  refine ⟨fun i h1 => ?_, fun i h1 h2 => ?_, fun i h1 => ?_⟩
  · by_cases hs : i < b.start
    · rw [List.getElem?_append_left (by omega), List.getElem?_take, if_pos hs]
    · rw [List.getElem?_append_right (by omega), ht, List.getElem?_append_left (by omega),
        List.getElem?_take, if_pos (by omega)]
      by_cases hf : i < b.fin
      · rw [List.getElem?_append_left (by omega), View.bytes, hal, hst, hfi, List.getElem?_take,
          if_pos (by omega), List.getElem?_drop]
        congr 1; omega
      · have : i = b.fin := by omega
        subst this
        rw [List.getElem?_append_right (by omega), hl, Nat.sub_self, hy]; rfl
  · rw [List.getElem?_append_right (by omega), ht, List.getElem?_append_left (by omega),
      List.getElem?_take, if_pos (by omega), List.getElem?_append_right (by omega), hl,
      show i - b.start - (b.fin - b.start) = (i - b.fin - 1) + 1 by omega, List.getElem?_cons_succ,
      List.getElem?_replicate, if_pos (by omega)]
  · rw [List.getElem?_append_right (by omega), ht, List.getElem?_append_right (by omega), hlt,
      List.getElem?_drop]
    congr 1; omega

example (F : Foundation) (h' : Heap) (b' : DataBuffer)
    (hr : ByteCodec.writeUnaligned .debug F [[1, 2, 3, 4, 5, 6, 7, 8, 9, 10]] .little .w32 ⟨[], some 0, 0, 3, 0⟩ 5 =
      .ok (h', b')) : (b'.get h')[2]? = some 3 ∧ (b'.get h')[5]? = some 0 := by
  obtain ⟨h1, h2, -⟩ := C80_unaligned_lost .debug F [[1, 2, 3, 4, 5, 6, 7, 8, 9, 10]]
    ⟨[], some 0, 0, 3, 0⟩ ⟨(by intro r h; cases h; decide), (by decide), (by decide)⟩ rfl
    ⟨by decide, by decide, by decide⟩ .little .w32 4 rfl (by decide) 5 h' b' hr
  exact ⟨h1 2 (by decide), h2 5 (by decide) (by decide)⟩

/-- C80: at the end of the data it is up to Foundation what is written, if anything; the integer is
not stored there either. -/
theorem C80_unaligned_last (d : Build) (F : Foundation) (h : Heap) (b : DataBuffer) (hv : Valid h b)
    (hc : b.cursor = b.start) (hw : (b.view h).WF) (e : Endian) (w : Width)
    (hy : b.fin = (b.get h).length) (x : Nat) :
    match F.copyBeyond (b.get h) b.start b.fin with
    | none => ByteCodec.writeUnaligned d F h e w b x = .panic
    | some t => ∃ h' b', ByteCodec.writeUnaligned d F h e w b x = .ok (h', b') ∧
        b'.get h' = (b.get h).take b.start ++ t ++ (b.get h).drop (b.start + 8) := by
  have hcp := View.copyTo8_last hw d F hy
  simp only [DataBuffer.view] at hcp
  unfold ByteCodec.writeUnaligned
  simp only [DataBuffer.view]
  rw [hcp]
  cases ht : F.copyBeyond (b.get h) b.start b.fin with
  | none => rfl
  | some t =>
    have hl := F.copyBeyond_length _ _ _ _ ht
    simp only [orTrap, Res.bind_ok, ByteCodec.writeAligned]
    obtain ⟨h2, b2, e1, e2, e3⟩ := ofBytes_write h t (toBytes e w x)
    rw [e1]
    simp only [Res.bind_ok]
    obtain ⟨h', b', a1, a2, a3⟩ := put_back hv hc e2 e3 t
    exact ⟨h', b', a1, by rw [a2, hl]⟩

example (F : Foundation) (hn : F.copyBeyond [1, 2, 3] 0 3 = none) :
    ByteCodec.writeUnaligned .debug F [[1, 2, 3]] .little .w32 ⟨[], some 0, 0, 3, 0⟩ 5 = .panic := by
  have := C80_unaligned_last .debug F [[1, 2, 3]] ⟨[], some 0, 0, 3, 0⟩
    ⟨(by intro r h; cases h; decide), (by decide), (by decide)⟩ rfl ⟨by decide, by decide, by decide⟩ .little .w32
    rfl 5
  rw [show DataBuffer.get [[1, 2, 3]] ⟨[], some 0, 0, 3, 0⟩ = [1, 2, 3] from rfl, hn] at this
  exact this

theorem fromUInt_ne_err (w : Width) (n : Nat) (x : Error) : fromUInt w n ≠ .err x := by
  cases w <;> simp [fromUInt] <;> split <;> simp

/-- C80: writing a bit field into an integer of 1 or 4 bytes always stops the program. -/
theorem C80_bits_trap (d : Build) (F : Foundation) (h : Heap) (e : Endian) (w : Width)
    (hw : w = .w8 ∨ w = .w32) (off size : Nat) (hoff : off < 8 * w.size) (b : DataBuffer) (x : Nat) :
    BitCodec.writeAligned d F h e w off size b x = .panic ∧
    BitCodec.writeUnaligned d F h e w off size b x = .panic ∧
    BitCodec.write d F h e w off size b x = .panic := by
  have al : ∀ (h : Heap) (b : DataBuffer),
      BitCodec.writeAligned d F h e w off size b x = .panic := by
    intro h b
    unfold BitCodec.writeAligned
    by_cases h64 : size < 64
    · rw [swift_mask h64]
      simp only [Res.bind_ok]
      have hsh : (if off < 64 then ((2 ^ size - 1) <<< off) % 2 ^ 64 else 0) ≤
          (2 ^ size - 1) * 2 ^ off := by
        split
        · rw [Nat.shiftLeft_eq]; exact Nat.mod_le _ _
        · exact Nat.zero_le _
      generalize (if off < 64 then ((2 ^ size - 1) <<< off) % 2 ^ 64 else 0) = s at hsh
      generalize 2 ^ size - 1 = m at hsh
      have hp : 2 ^ off ≤ 2 ^ (8 * w.size - 1) := Nat.pow_le_pow_right (by omega) (by omega)
      have hms : s ≤ m * 2 ^ (8 * w.size - 1) := Nat.le_trans hsh (Nat.mul_le_mul_left m hp)
      cases hv : fromBytes d F e w (b.view h) with
      | err y => exact absurd hv (fromBytes_ne_err d F e w _ y)
      | panic => rfl
      | ok a =>
        simp only [Res.bind_ok]
        cases hr : fromUInt w (2 ^ 64 - 1 - s) with
        | err y => exact absurd hr (fromUInt_ne_err w _ y)
        | panic => rfl
        | ok q =>
          simp only [Res.bind_ok]
          have : fromUInt w m = .panic := by
            rcases hw with rfl | rfl
            · simp only [fromUInt, Width.size] at *
              split at hr
              · rw [if_neg (by omega)]
              · cases hr
            · simp only [fromUInt, Width.size] at *
              split at hr
              · rw [if_neg (by omega)]
              · cases hr
          rw [this]; rfl
    · have : BitCodec.mask size = .panic := by simp [BitCodec.mask, h64]
      rw [this]; rfl
  have un : BitCodec.writeUnaligned d F h e w off size b x = .panic := by
    unfold BitCodec.writeUnaligned
    cases hcp : (b.view h).copyTo8 d F (b.view h).size with
    | ok t => simp only [Res.bind_ok]; rw [al]; rfl
    | panic => rfl
    | err y =>
      exfalso
      revert hcp
      unfold View.copyTo8
      rw [assert_pos d (by simp)]
      simp only [Res.bind_ok]
      split
      · simp
      · split
        · simp
        · cases F.copyBeyond (b.view h).all (b.view h).start
            ((b.view h).start + (b.view h).size.toNat) <;> simp [orTrap]
  refine ⟨al h b, un, ?_⟩
  unfold BitCodec.write
  split
  · exact un
  · exact al h b

example (F : Foundation) (h : Heap) (b : DataBuffer) :
    BitCodec.writeAligned .release F h .little .w8 1 3 b 5 = .panic :=
  (C80_bits_trap .release F h .little .w8 (.inl rfl) 1 3 (by decide) b 5).1

/-- C80: into an integer of 2 or 8 bytes that fills its bytes it is written as by the Rust
library. -/
theorem C80_bits (p : Profile) (d : Build) (F : Foundation) (h : Heap) (b : DataBuffer)
    (hv : Valid h b) (hc : b.cursor = b.start) (hw : (b.view h).WF) (e : Endian) (w : Width)
    (hww : w = .w16 ∨ w = .w64) (off size : Nat) (hf : Fits e w off size) (hoff : off < 64) (x : Nat)
    (hn : w.size ≤ (b.view h).bytes.length) :
    ∃ h' b' new, BitCodec.writeAligned d F h e w off size b x = .ok (h', b') ∧
      Proto.BitCodec.writeAligned p e w.size off size (b.view h).bytes x = .ok new ∧
      Stored h h' b b' new ∧ b'.fin = b.start + w.size := by
  have hm := Nat.two_pow_pos size
  have hfu : ∀ n, n < 2 ^ 64 → fromUInt w n = .ok (fromUsize w.size n) := by
    intro n hlt
    rcases hww with rfl | rfl
    · simp [fromUInt, fromUsize, Width.size]
    · simp only [fromUInt, fromUsize, Width.size]
      rw [if_pos hlt, Nat.mod_eq_of_lt (by omega)]
  have hms : 2 ^ size ≤ 2 ^ 63 := Nat.pow_le_pow_right (by omega) (by have := hf.narrow; omega)
  have hpl := place_fits hf.inside
  have hrm : ∀ n, 2 ^ 64 - 1 - n < 2 ^ 64 := by intro n; omega
  unfold BitCodec.writeAligned Proto.BitCodec.writeAligned
  rw [swift_mask hf.narrow, Proto.BitCodec.mask_ok p hf.narrow]
  simp only [Res.bind_ok]
  rw [shlU_ok p (show off < usizeBits from hoff), if_pos hoff]
  simp only [Res.bind_ok]
  rw [fromBytes_ok hw d F e w hn, rust_read e hn]
  simp only [Res.bind_ok]
  rw [hfu _ (hrm _), hfu _ (by omega), swift_shift hf, rust_shift p hf]
  simp only [Res.bind_ok]
  rw [hfu _ (by have : 8 * w.size ≤ 64 := by (have := width_le w; omega)
                have := hf.inside; omega), fromUsize_of_lt hpl, shlU_ok p hf.inside]
  simp only [Res.bind_ok]
  obtain ⟨h', b', e1, e2, e3⟩ := put hv hc hw (x := toBytes e w
    (intOfWire e ((b.view h).bytes.take w.size) &&&
      fromUsize w.size (2 ^ 64 - 1 - (2 ^ size - 1) <<< off % 2 ^ 64) |||
      (x &&& fromUsize w.size (2 ^ size - 1)) <<< place e off size % 2 ^ (8 * w.size)))
    (by rw [toBytes_eq, wireInt_length]; exact hn)
  rw [toBytes_eq, wireInt_length] at e2 e3
  have hnot : notU usizeBits ((2 ^ size - 1) <<< off % 2 ^ usizeBits) =
      2 ^ 64 - 1 - (2 ^ size - 1) <<< off % 2 ^ 64 := by simp [notU, usizeBits]
  rw [hnot]
  exact ⟨h', b', _, e1, rust_write e _ hn, e3, e2⟩

example (F : Foundation) : ∃ h' b', BitCodec.writeAligned .release F [[0xFF, 0xFF]] .little .w16 1 3
    ⟨[], some 0, 0, 2, 0⟩ 5 = .ok (h', b') ∧ b'.fin = 2 := by
  obtain ⟨h', b', _, h, _, _, e⟩ := C80_bits .checked .release F [[0xFF, 0xFF]] ⟨[], some 0, 0, 2, 0⟩
    ⟨(by intro r h; cases h; decide), (by decide), (by decide)⟩ rfl ⟨by decide, by decide, by decide⟩
    .little .w16 (.inl rfl) 1 3 ⟨by decide, by decide, by decide, by decide⟩ (by decide) 5 (by decide)
  exact ⟨h', b', h, e⟩

/-- C80: and into an integer of another size than its bytes it is lost, like any integer. -/
theorem C80_bits_unaligned (d : Build) (F : Foundation) (h : Heap) (b : DataBuffer) (hv : Valid h b)
    (hc : b.cursor = b.start) (hw : (b.view h).WF) (e : Endian) (w : Width) (off size : Nat) (x : Nat)
    (h' : Heap) (b' : DataBuffer) (y : UInt8) (hy : (b.get h)[b.fin]? = some y)
    (hr : BitCodec.writeUnaligned d F h e w off size b x = .ok (h', b')) :
    b'.get h' = (b.get h).take b.start ++
      ((b.view h).bytes ++ y :: List.replicate 8 0).take 8 ++ (b.get h).drop (b.start + 8) := by
  unfold BitCodec.writeUnaligned at hr
  rw [View.copyTo8_next hw d F hy] at hr
  simp only [Res.bind_ok] at hr
  generalize ht : ((b.view h).bytes ++ y :: List.replicate 8 0).take 8 = t at hr
  have hl : t.length = 8 := by rw [← ht, List.length_take]; simp
  obtain ⟨⟨h2, b2⟩, hr1, hr⟩ := Res.bind_eq_ok.mp hr
  have key : h2.length = h.length + 1 ∧ ∀ k, k < h.length → h2[k]? = h[k]? := by
    unfold BitCodec.writeAligned at hr1
    obtain ⟨_, -, hr1⟩ := Res.bind_eq_ok.mp hr1
    obtain ⟨_, -, hr1⟩ := Res.bind_eq_ok.mp hr1
    obtain ⟨_, -, hr1⟩ := Res.bind_eq_ok.mp hr1
    obtain ⟨_, -, hr1⟩ := Res.bind_eq_ok.mp hr1
    obtain ⟨_, -, hr1⟩ := Res.bind_eq_ok.mp hr1
    obtain ⟨_, -, hr1⟩ := Res.bind_eq_ok.mp hr1
    obtain ⟨h3, b3, e1, e2, e3⟩ := ofBytes_write h t (toBytes e w _)
    rw [hr1] at e1
    cases e1
    exact ⟨e2, e3⟩
  obtain ⟨h3, b3, a1, a2, -⟩ := put_back hv hc key.1 key.2 t
  have := a1.symm.trans hr
  cases this
  rw [a2, hl]

example (F : Foundation) (h' : Heap) (b' : DataBuffer)
    (hr : BitCodec.writeUnaligned .debug F [[1, 2, 3, 4, 5, 6, 7, 8, 9, 10]] .little .w32 3 9
      ⟨[], some 0, 0, 2, 0⟩ 5 = .ok (h', b')) : b'.get h' = [1, 2, 3, 0, 0, 0, 0, 0, 9, 10] :=
  C80_bits_unaligned .debug F [[1, 2, 3, 4, 5, 6, 7, 8, 9, 10]] ⟨[], some 0, 0, 2, 0⟩
    ⟨(by intro r h; cases h; decide), (by decide), (by decide)⟩ rfl ⟨by decide, by decide, by decide⟩ .little .w32
    3 9 5 h' b' 3 rfl hr

/-- C80: `write` chooses between the two by the size of the buffer. -/
theorem C80_write (d : Build) (F : Foundation) (h : Heap) (b : DataBuffer) (hw : (b.view h).WF)
    (e : Endian) (w : Width) (off size x : Nat) :
    (ByteCodec.write d F h e w b x =
      if (b.view h).bytes.length = w.size then ByteCodec.writeAligned h e w b x
      else ByteCodec.writeUnaligned d F h e w b x) ∧
    (BitCodec.write d F h e w off size b x =
      if (b.view h).bytes.length = w.size then BitCodec.writeAligned d F h e w off size b x
      else BitCodec.writeUnaligned d F h e w off size b x) := by
  unfold ByteCodec.write BitCodec.write
  rw [hw.size]
  by_cases hl : (b.view h).bytes.length = w.size
  · have hi : ¬(w.size : Int) ≠ ((b.view h).bytes.length : Int) := by omega
    rw [if_neg hi, if_pos hl, if_neg hi, if_pos hl]
    exact ⟨rfl, rfl⟩
  · have hi : (w.size : Int) ≠ ((b.view h).bytes.length : Int) := by omega
    rw [if_pos hi, if_neg hl, if_pos hi, if_neg hl]
    exact ⟨rfl, rfl⟩

example (F : Foundation) (x : Nat) :
    ByteCodec.write .debug F [[7, 1, 2, 3]] .big .w16 ⟨[], some 0, 1, 3, 1⟩ x =
      ByteCodec.writeAligned [[7, 1, 2, 3]] .big .w16 ⟨[], some 0, 1, 3, 1⟩ x :=
  (C80_write .debug F [[7, 1, 2, 3]] ⟨[], some 0, 1, 3, 1⟩ ⟨by decide, by decide, by decide⟩ .big .w16 0 0 x).1

/-! ## C81: arrays -/

/-- C81: the number of items. -/
theorem C81_count (bits : Nat) (v : View) (h : v.WF) :
    (8 ≤ bits → ArrayCodec.count bits v = .ok ((v.bytes.length / (bits / 8) : Nat) : Int) ∧
      Proto.ArrayCodec.len bits v.bytes = .ok (v.bytes.length / (bits / 8))) ∧
    (bits < 8 → ArrayCodec.count bits v = .panic ∧ Proto.ArrayCodec.len bits v.bytes = .panic) := by
  unfold ArrayCodec.count Proto.ArrayCodec.len
  constructor
  · intro hb
    rw [if_neg (by omega), h.size, divU_ok (by omega)]
    exact ⟨rfl, rfl⟩
  · intro hb
    have : bits / 8 = 0 := by omega
    rw [if_pos this, this]
    exact ⟨rfl, rfl⟩

example : ArrayCodec.count 16 ⟨[1, 2, 3, 4, 5], 0, 5⟩ = .ok 2 ∧
    ArrayCodec.count 4 ⟨[1, 2, 3, 4, 5], 0, 5⟩ = .panic :=
  ⟨((C81_count 16 _ ⟨by decide, by decide, by decide⟩).1 (by decide)).1,
    ((C81_count 4 _ ⟨by decide, by decide, by decide⟩).2 (by decide)).1⟩

theorem bits_bytes (w : Width) : 8 * w.size / 8 = w.size := by omega

theorem bounds_ok {bits i : Nat} (h : (i + 1) * (bits / 8) ≤ 2 ^ 63 - 1) :
    ArrayCodec.bounds bits i = .ok (i * (bits / 8), (i + 1) * (bits / 8)) := by
  unfold ArrayCodec.bounds
  rw [Nat.add_one_mul] at *
  rw [if_pos (by unfold intMax; omega)]

/-- C81: an item of `w.size` bytes is read as by the Rust library; in a debug build an item that is
not there stops the program as well. -/
theorem C81_get (p : Profile) (d : Build) (F : Foundation) (e : Endian) (w : Width) (v : View)
    (h : v.WF) (i : Nat)
    (hi : (i + 1) * w.size ≤ v.bytes.length ∨ (d = .debug ∧ (i + 1) * w.size < 2 ^ 64)) :
    Same (Proto.ArrayCodec.getRaw p e w.size (8 * w.size) v.bytes i)
      (ArrayCodec.get d F e w (8 * w.size) v i) := by
  have hle := h.length_le
  have hw := width_le w
  have hr : Proto.ArrayCodec.range p (8 * w.size) i = .ok (i * w.size, (i + 1) * w.size) := by
    rw [Proto.ArrayCodec.range_ok p (by rw [bits_bytes]; omega), bits_bytes, Nat.add_one_mul]
  unfold Proto.ArrayCodec.getRaw ArrayCodec.get
  rw [hr]
  simp only [Res.bind_ok]
  by_cases hin : (i + 1) * w.size ≤ v.bytes.length
  · rw [bounds_ok (by rw [bits_bytes]; omega), bits_bytes]
    have hsub : (i + 1) * w.size - i * w.size = w.size := by rw [Nat.add_one_mul]; omega
    have hii : i * w.size ≤ (i + 1) * w.size := by rw [Nat.add_one_mul]; omega
    obtain ⟨s, hs, hsw, hsb, -⟩ := View.closed_ok h d hii hin
    have hsl : s.bytes.length = w.size := by
      rw [hsb, List.length_take, List.length_drop]; omega
    simp only [Res.bind_ok, hs]
    rw [(C79_read d F e w s hsw 0 0).1, if_pos hsl, slice_ok hii hin]
    simp only [Res.bind_ok]
    rw [← hsb]
    unfold Proto.ByteCodec.read
    rw [if_neg (by omega)]
    unfold Proto.ByteCodec.readAligned
    rw [rust_read e (by omega), ← hsl, List.take_length]
    exact .ok _
  · have hd := (hi.resolve_left hin).1
    subst hd
    rw [slice, if_neg (by omega)]
    unfold ArrayCodec.bounds
    rw [bits_bytes]
    split
    · simp only [Res.bind_ok]
      unfold View.closed
      rw [if_neg (by omega)]
      have hf : assert .debug (decide (((i * w.size + w.size : Nat) : Int) ≤ v.size)) = .panic := by
        rw [assert_neg]
        rw [h.size]
        rw [Nat.add_one_mul] at hin
        exact decide_eq_false (fun hh => hin (Int.ofNat_le.mp hh))
      cases ha : assert .debug (decide (((i * w.size : Nat) : Int) ≤ v.size)) with
      | ok _ => simp only [Res.bind_ok]; rw [hf]; exact .panic
      | panic => exact .panic
      | err x => simp [assert] at ha; split at ha <;> cases ha
    · exact .panic

example (F : Foundation) : ArrayCodec.get .debug F .big .w16 16 ⟨[9, 1, 2, 3, 4], 1, 5⟩ 1 = .ok 0x0304 :=
  (C81_get .checked .debug F .big .w16 ⟨[9, 1, 2, 3, 4], 1, 5⟩ ⟨by decide, by decide, by decide⟩ 1
    (.inl (by decide))).of_ok

/-- C81: items of another size than `w.size` include the byte behind them, which for all but the last
item is the first byte of the next. -/
theorem C81_get_packed (d : Build) (F : Foundation) (e : Endian) (w : Width) (bits : Nat) (v : View)
    (h : v.WF) (hb : bits / 8 ≠ w.size) (i : Nat) (hi : (i + 1) * (bits / 8) ≤ v.bytes.length)
    (x : UInt8) (hx : v.all[v.start + (i + 1) * (bits / 8)]? = some x) :
    ArrayCodec.get d F e w bits v i =
      .ok (intOfWire e (((v.bytes.drop (i * (bits / 8))).take (bits / 8) ++
        x :: List.replicate 8 0).take w.size)) := by
  have hle := h.length_le
  have hsub : (i + 1) * (bits / 8) - i * (bits / 8) = bits / 8 := by rw [Nat.add_one_mul]; omega
  have hii : i * (bits / 8) ≤ (i + 1) * (bits / 8) := by rw [Nat.add_one_mul]; omega
  obtain ⟨s, hs, hsw, hsb, hsa, -, hsf⟩ := View.closed_ok h d hii hi
  rw [hsub] at hsb
  have hsl : s.bytes.length = bits / 8 := by
    rw [hsb, List.length_take, List.length_drop]; omega
  unfold ArrayCodec.get
  rw [bounds_ok (by omega)]
  simp only [Res.bind_ok, hs]
  rw [(C79_read d F e w s hsw 0 0).1, if_neg (by omega),
    C79_unaligned_exact d F e w s hsw x (by rw [hsa, hsf]; exact hx), hsb]

example (F : Foundation) :
    ArrayCodec.get .debug F .big .w32 24 ⟨[1, 2, 3, 4, 5, 6, 7], 0, 6⟩ 0 = .ok 0x01020304 :=
  C81_get_packed .debug F .big .w32 24 ⟨[1, 2, 3, 4, 5, 6, 7], 0, 6⟩ ⟨by decide, by decide, by decide⟩ (by decide) 0
    (by decide) 4 rfl

/-- C81: an item of `w.size` bytes of an array over mutable data is written as by the Rust
library. -/
theorem C81_set (p : Profile) (d : Build) (F : Foundation) (e : Endian) (w : Width) (h : Heap)
    (b : DataBuffer) (hv : Valid h b) (hw : (b.view h).WF) (r : Nat) (hr : b.dataMut = some r)
    (i x : Nat) (hi : (i + 1) * w.size ≤ (b.view h).bytes.length) :
    ∃ h' new, ArrayCodec.set d F h e w (8 * w.size) b i x = .ok h' ∧
      Proto.ArrayCodec.setRaw p e w.size (8 * w.size) (b.view h).bytes i x = .ok new ∧
      b.get h' = (b.get h).take b.start ++ new ++ (b.get h).drop b.fin ∧
      ∀ k, k ≠ r → k < h.length → h'[k]? = h[k]? := by
  have hle := hw.length_le
  have hsub : (i + 1) * w.size - i * w.size = w.size := by rw [Nat.add_one_mul]; omega
  have hii : i * w.size ≤ (i + 1) * w.size := by rw [Nat.add_one_mul]; omega
  have hst : (b.view h).start = b.start := rfl
  have hfi : (b.view h).fin = b.fin := rfl
  have hal : (b.view h).all = b.get h := rfl
  have hl := hw.length
  have ho := hw.order
  have hin := hw.inside
  rw [hst, hfi] at hl ho
  rw [hfi, hal] at hin
  obtain ⟨v, hs, hsw, hsb, hsa, hss, hsf⟩ := View.closed_ok hw d hii hi
  rw [hsub] at hsb
  have hsl : v.bytes.length = w.size := by
    rw [hsb, List.length_take, List.length_drop]; omega
  have hsv : (b.sub v).view h = v := by
    have : (b.sub v).get h = v.all := by
      rw [hsa, hal]; simp [DataBuffer.get, DataBuffer.sub, hr]
    unfold DataBuffer.view
    rw [this]; rfl
  have hval : Valid h (b.sub v) := by
    refine ⟨fun k hk => hv.object k hk, Nat.le_refl _, ?_⟩
    have h1 := hsw.order
    have h2 := hsw.inside
    have : (b.sub v).get h = v.all := congrArg View.all hsv
    rw [this]
    exact Nat.le_trans h1 h2
  unfold ArrayCodec.set
  rw [bounds_ok (by rw [bits_bytes]; omega), bits_bytes]
  simp only [Res.bind_ok, DataBuffer.closed, hs, Res.pure_eq]
  obtain ⟨h', s', new, e1, e2, e3, e4, -⟩ := C80_aligned h (b.sub v) hval rfl
    (by rw [hsv]; exact hsw) e w x (by rw [hsv]; omega)
  rw [(C80_write d F h (b.sub v) (by rw [hsv]; exact hsw) e w 0 0 x).1, hsv, if_pos hsl, e1]
  simp only [Res.bind_ok]
  rw [hsv, List.drop_eq_nil_of_le (by omega), List.append_nil] at e3
  have hrust : Proto.ByteCodec.write e w.size v.bytes x = .ok (wireInt e w.size x) := by
    unfold Proto.ByteCodec.write
    rw [if_neg (by omega)]
    unfold Proto.ByteCodec.writeAligned
    rw [rust_write e x (by omega), List.drop_eq_nil_of_le (by omega), List.append_nil]
  obtain ⟨hm, hoth⟩ := e4.shared r hr
  refine ⟨h', splice (b.view h).bytes (i * w.size) (wireInt e w.size x), rfl, ?_, ?_, hoth⟩
  · rw [Proto.ArrayCodec.setRaw_eq p e x (by rw [bits_bytes]; omega) (by omega), bits_bytes, ← hsb,
      hrust]
    rfl
  · have hg : b.get h' = s'.get h' := by simp [DataBuffer.get, hr, hm]
    have hga : (b.sub v).get h = b.get h := by rw [← hal, ← hsa]; exact congrArg View.all hsv
    have hs1 : (b.sub v).start = b.start + i * w.size := hss
    have hs2 : (b.sub v).fin = b.start + (i + 1) * w.size := hsf
    rw [hg, e4.data, hga, hs1, hs2, e3, splice, wireInt_length]
    have t1 : (b.get h).take (b.start + i * w.size) =
        (b.get h).take b.start ++ (b.view h).bytes.take (i * w.size) := by
      rw [View.bytes, hal, hst, hfi, List.take_take, Nat.min_eq_left (by omega), List.take_add]
    have t2 : (b.get h).drop (b.start + (i + 1) * w.size) =
        (b.view h).bytes.drop (i * w.size + w.size) ++ (b.get h).drop b.fin := by
      rw [View.bytes, hal, hst, hfi, ← List.drop_drop, ← Nat.add_one_mul]
      conv => lhs; rw [← List.take_append_drop (b.fin - b.start) ((b.get h).drop b.start)]
      rw [List.drop_append_of_le_length (by rw [List.length_take, List.length_drop]; omega),
        List.drop_drop, show b.start + (b.fin - b.start) = b.fin by omega]
    rw [t1, t2]; simp

example (F : Foundation) : ∃ h', ArrayCodec.set .debug F [[9, 1, 2, 3, 4]] .big .w16 16
    ⟨[], some 0, 1, 5, 1⟩ 1 0x0506 = .ok h' ∧
    Proto.ArrayCodec.setRaw .checked .big 2 16 [1, 2, 3, 4] 1 0x0506 = .ok [1, 2, 5, 6] := by
  obtain ⟨h', new, h, e, _⟩ := C81_set .checked .debug F .big .w16 [[9, 1, 2, 3, 4]]
    ⟨[], some 0, 1, 5, 1⟩ ⟨(by intro r h; cases h; decide), (by decide), (by decide)⟩
    ⟨by decide, by decide, by decide⟩ 0 rfl 1 0x0506 (by decide)
  exact ⟨h', h, by decide⟩

/-- C81: on an array over immutable data setting an item has no effect. -/
theorem C81_set_immutable (d : Build) (F : Foundation) (e : Endian) (w : Width) (bits : Nat)
    (h h' : Heap) (b : DataBuffer) (hr : b.dataMut = none) (i x : Nat)
    (_hs : ArrayCodec.set d F h e w bits b i x = .ok h') : b.view h' = b.view h := by
  simp [DataBuffer.view, DataBuffer.get, hr]

example (F : Foundation) (h' : Heap)
    (hs : ArrayCodec.set .debug F [] .big .w16 16 ⟨[1, 2, 3, 4], none, 0, 4, 0⟩ 1 0x0506 = .ok h') :
    DataBuffer.view h' ⟨[1, 2, 3, 4], none, 0, 4, 0⟩ = DataBuffer.view [] ⟨[1, 2, 3, 4], none, 0, 4, 0⟩ :=
  C81_set_immutable .debug F .big .w16 16 [] h' _ rfl 1 0x0506 hs

/-- C81: an index whose item would end beyond the largest `Int` traps in both builds, for any width of
the items. -/
theorem C81_overflow (d : Build) (F : Foundation) (e : Endian) (w : Width) (bits i : Nat)
    (hi : 2 ^ 63 ≤ (i + 1) * (bits / 8)) :
    (∀ v, ArrayCodec.get d F e w bits v i = .panic) ∧
    ∀ h b x, ArrayCodec.set d F h e w bits b i x = .panic := by
  have hb : ArrayCodec.bounds bits i = .panic := by
    unfold ArrayCodec.bounds
    rw [Nat.add_one_mul] at hi
    rw [if_neg (by simp only [intMax]; omega)]
  refine ⟨fun v => ?_, fun h b x => ?_⟩
  · unfold ArrayCodec.get; rw [hb]; rfl
  · unfold ArrayCodec.set; rw [hb]; rfl

example (F : Foundation) (v : View) : ArrayCodec.get .release F .little .w16 16 v (2 ^ 62) = .panic :=
  (C81_overflow .release F .little .w16 16 (2 ^ 62) (by decide)).1 v

/-! ## Concrete cases -/

namespace Ex

/-- Three bytes read as a `UInt32`: the fourth byte of the data is taken for the high byte. -/
example : ByteCodec.readUnaligned .debug F .little .w32 ⟨[1, 2, 3, 4], 0, 3⟩ = .ok 0x04030201 ∧
    Proto.ByteCodec.readUnaligned .little 4 [1, 2, 3] = .ok 0x030201 := by
  constructor <;> rfl

/-- A bit field in two bytes of a `UInt32` is not affected. -/
example : BitCodec.readUnaligned .debug F .little .w32 3 9 ⟨[0xF8, 0x0F, 0xFF], 0, 2⟩ =
    .ok 0x1FF := by rfl

example : Fits .little .w32 3 9 ∧ Fits .big .w16 1 6 :=
  ⟨⟨by decide, by decide, by decide, by decide⟩, ⟨by decide, by decide, by decide, by decide⟩⟩

/-- Storing 5 in the first three of ten bytes leaves them as they were and clears four others. -/
example : ByteCodec.writeUnaligned .debug F [[1, 2, 3, 4, 5, 6, 7, 8, 9, 10]] .little .w32
    ⟨[], some 0, 0, 3, 0⟩ 5 =
    .ok ([[1, 2, 3, 4, 0, 0, 0, 0, 9, 10], [5, 0, 0, 0, 0, 0, 0, 0]], ⟨[], some 0, 0, 8, 8⟩) := by
  rfl

example : BitCodec.writeAligned .release F [[0, 0]] .little .w8 1 3 ⟨[], some 0, 0, 1, 0⟩ 5 =
    .panic ∧
    BitCodec.writeAligned .release F [[0xFF, 0xFF]] .little .w16 1 3 ⟨[], some 0, 0, 2, 0⟩ 5 =
    .ok ([[0xFB, 0xFF]], ⟨[], some 0, 0, 2, 2⟩) := by
  constructor <;> rfl

example : ArrayCodec.set .debug F [[9, 1, 2, 3, 4]] .big .w16 16 ⟨[], some 0, 1, 5, 1⟩ 1 0x0506 =
    .ok [[9, 1, 2, 5, 6]] := by rfl

end Ex

end Proto.Sw
