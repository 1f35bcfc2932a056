import Verif.Swift.Message
import Verif.Runtime.MessageLemmas

/-!
# Reading through a well-formed Swift buffer
-/

namespace Proto.Sw

open Proto

namespace View

/-- The buffer lies within its data, whose size is an `Int`. -/
structure WF (v : View) : Prop where
  order : v.start ≤ v.fin
  inside : v.fin ≤ v.all.length
  small : v.all.length ≤ 2 ^ 63 - 1

/-- The bytes of the buffer. -/
def bytes (v : View) : Bytes := (v.all.drop v.start).take (v.fin - v.start)

theorem WF.length {v : View} (h : v.WF) : v.bytes.length = v.fin - v.start := by
  have := h.order; have := h.inside
  simp [bytes]; omega

theorem WF.size {v : View} (h : v.WF) : v.size = (v.bytes.length : Int) := by
  have := h.order
  rw [h.length, View.size]; omega

theorem WF.length_le {v : View} (h : v.WF) : v.bytes.length ≤ 2 ^ 63 - 1 := by
  have := h.small; have := h.inside
  rw [h.length]; omega

theorem whole_wf {b : Bytes} (h : b.length ≤ 2 ^ 63 - 1) : (whole b).WF :=
  ⟨Nat.zero_le _, Nat.le_refl _, h⟩

@[simp] theorem whole_bytes (b : Bytes) : (whole b).bytes = b := by simp [whole, bytes]

end View

theorem assert_pos (d : Build) {b : Bool} (h : b = true) : assert d b = .ok () := by
  cases d <;> simp [assert, h]

theorem assert_neg {b : Bool} (h : b = false) : assert .debug b = .panic := by
  simp [assert, h]

namespace View

theorem byte_ok {v : View} (h : v.WF) (d : Build) (F : Foundation) {i : Nat} {x : UInt8}
    (hx : v.bytes[i]? = some x) : v.byte d F i = .ok x := by
  have hi : i < v.bytes.length := (List.getElem?_eq_some_iff.mp hx).1
  have : v.all[v.start + i]? = some x := by
    rw [← hx, bytes, List.getElem?_take, if_pos (by rw [h.length] at hi; exact hi),
      List.getElem?_drop]
  unfold byte
  rw [assert_pos d (by rw [h.size]; simpa using hi)]
  simp [this]

theorem closed_ok {v : View} (h : v.WF) (d : Build) {a b : Nat} (h1 : a ≤ b)
    (h2 : b ≤ v.bytes.length) :
    ∃ s, v.closed d a b = .ok s ∧ s.WF ∧ s.bytes = (v.bytes.drop a).take (b - a) ∧ s.all = v.all ∧
      s.start = v.start + a ∧ s.fin = v.start + b := by
  have hl := h.length
  have := h.order; have := h.inside; have := h.small
  refine ⟨⟨v.all, v.start + a, v.start + b⟩, ?_, ⟨?_, ?_, ?_⟩, ?_, rfl, rfl, rfl⟩
  · unfold closed
    rw [if_neg (by omega), assert_pos d (by rw [h.size]; simp; omega),
      assert_pos d (by rw [h.size]; simpa using h2)]
    rfl
  · simp only; omega
  · simp only; omega
  · simp only; omega
  · simp only [bytes, List.drop_take, List.take_take, List.drop_drop]
    congr 1; omega

theorem dropFrom_ok {v : View} (h : v.WF) {d : Build} {a : Nat} (h1 : d = .debug → 0 < a)
    (h2 : a ≤ v.bytes.length) :
    ∃ s, v.dropFrom d a = .ok s ∧ s.WF ∧ s.bytes = v.bytes.drop a ∧ s.all = v.all ∧
      s.start = v.start + a ∧ s.fin = v.fin := by
  have hl := h.length
  have := h.order; have := h.inside; have := h.small
  refine ⟨⟨v.all, v.start + a, v.fin⟩, ?_, ⟨?_, ?_, ?_⟩, ?_, rfl, rfl, rfl⟩
  · unfold dropFrom
    rw [assert_pos d (by rw [h.size]; simpa using h2)]
    cases d with
    | debug => rw [assert_pos _ (by simpa using h1 rfl)]; rfl
    | release => rfl
  · simp only; omega
  · simp only; omega
  · simp only; omega
  · simp only [bytes, List.drop_take, List.drop_drop]
    congr 1; omega

end View

/-! ## Scalars -/

theorem or_eq_add {a b i : Nat} (ha : a % 2 ^ i = 0) (hb : b < 2 ^ i) : a ||| b = a + b := by
  have e : a = (a / 2 ^ i) <<< i := by
    rw [Nat.shiftLeft_eq]
    have := Nat.div_add_mod a (2 ^ i)
    rw [ha, Nat.mul_comm] at this
    omega
  rw [e, Nat.shiftLeft_add_eq_or_of_lt hb]

theorem or4 (a b c d : UInt8) :
    (a.toNat <<< 24 ||| b.toNat <<< 16 ||| c.toNat <<< 8 ||| d.toNat) =
      a.toNat * 2 ^ 24 + b.toNat * 2 ^ 16 + c.toNat * 2 ^ 8 + d.toNat := by
  have := a.toNat_lt; have := b.toNat_lt; have := c.toNat_lt; have := d.toNat_lt
  simp only [Nat.shiftLeft_eq]
  rw [or_eq_add (a := a.toNat * 2 ^ 24) (i := 24) (by omega) (by omega),
    or_eq_add (a := a.toNat * 2 ^ 24 + b.toNat * 2 ^ 16) (i := 16) (by omega) (by omega),
    or_eq_add (i := 8) (by omega) (by omega)]

theorem or2 (a b : UInt8) : (a.toNat <<< 8 ||| b.toNat) = a.toNat * 2 ^ 8 + b.toNat := by
  have := a.toNat_lt; have := b.toNat_lt
  simp only [Nat.shiftLeft_eq]
  rw [or_eq_add (i := 8) (by omega) (by omega)]

/-- The first `n` bytes of a list that has them. -/
theorem exists_cons {l : Bytes} {n : Nat} (h : n + 1 ≤ l.length) :
    ∃ b t, l = b :: t ∧ n ≤ t.length := by
  cases l with
  | nil => simp at h
  | cons b t => exact ⟨b, t, rfl, by simpa using h⟩

theorem read32BE_ok {v : View} (h : v.WF) (d : Build) (F : Foundation) (hn : 4 ≤ v.bytes.length) :
    read32BE d F v = .ok (beNat (v.bytes.take 4)) := by
  obtain ⟨b0, t0, e0, hn0⟩ := exists_cons hn
  obtain ⟨b1, t1, rfl, hn1⟩ := exists_cons hn0
  obtain ⟨b2, t2, rfl, hn2⟩ := exists_cons hn1
  obtain ⟨b3, t3, rfl, hn3⟩ := exists_cons hn2
  unfold read32BE
  rw [View.byte_ok h d F (i := 0) (x := b0) (by simp [e0]),
    View.byte_ok h d F (i := 1) (x := b1) (by simp [e0]),
    View.byte_ok h d F (i := 2) (x := b2) (by simp [e0]),
    View.byte_ok h d F (i := 3) (x := b3) (by simp [e0])]
  simp only [Res.bind_ok, Res.pure_eq, or4, e0]
  simp only [List.take_succ_cons, List.take_zero, beNat, List.reverse_cons, List.reverse_nil,
    List.nil_append, List.cons_append, leNat]
  congr 1; omega

theorem read32LE_ok {v : View} (h : v.WF) (d : Build) (F : Foundation) (hn : 4 ≤ v.bytes.length) :
    read32LE d F v = .ok (leNat (v.bytes.take 4)) := by
  obtain ⟨b0, t0, e0, hn0⟩ := exists_cons hn
  obtain ⟨b1, t1, rfl, hn1⟩ := exists_cons hn0
  obtain ⟨b2, t2, rfl, hn2⟩ := exists_cons hn1
  obtain ⟨b3, t3, rfl, hn3⟩ := exists_cons hn2
  unfold read32LE
  rw [View.byte_ok h d F (i := 0) (x := b0) (by simp [e0]),
    View.byte_ok h d F (i := 1) (x := b1) (by simp [e0]),
    View.byte_ok h d F (i := 2) (x := b2) (by simp [e0]),
    View.byte_ok h d F (i := 3) (x := b3) (by simp [e0])]
  simp only [Res.bind_ok, Res.pure_eq, or4, e0]
  simp only [List.take_succ_cons, List.take_zero, leNat]
  congr 1; omega

theorem beNat_append (a b : Bytes) : beNat (a ++ b) = beNat a * 256 ^ b.length + beNat b := by
  simp [beNat, leNat_append, Nat.mul_comm, Nat.add_comm]

theorem read64BE_ok {v : View} (h : v.WF) (d : Build) (F : Foundation) (hn : 8 ≤ v.bytes.length) :
    read64BE d F v = .ok (beNat (v.bytes.take 8)) := by
  obtain ⟨s, hs, hw, hb, -⟩ := View.dropFrom_ok h (d := d) (a := 4) (fun _ => by omega) (by omega)
  unfold read64BE
  rw [read32BE_ok h d F (by omega), hs]
  simp only [Res.bind_ok]
  rw [read32BE_ok hw d F (by rw [hb, List.length_drop]; omega)]
  simp only [Res.bind_ok, Res.pure_eq, hb]
  have e : v.bytes.take 8 = v.bytes.take 4 ++ (v.bytes.drop 4).take 4 := by
    rw [← List.take_append_drop 4 (v.bytes.take 8), List.take_take, List.drop_take]; rfl
  have h1 := beNat_lt ((v.bytes.drop 4).take 4)
  have l1 : ((v.bytes.drop 4).take 4).length = 4 := by simp; omega
  rw [l1] at h1
  rw [e, beNat_append, l1, Nat.shiftLeft_eq,
    or_eq_add (i := 32) (Nat.mul_mod_left _ _) (by omega)]

theorem byteSwapped_beNat {b : Bytes} : byteSwapped b.length (beNat b) = leNat b := by
  have h := natBe_beNat b
  unfold natBe at h
  rw [byteSwapped, h]

/-- Reading an integer from a buffer that holds it. -/
theorem fromBytes_ok {v : View} (h : v.WF) (d : Build) (F : Foundation) (e : Endian) (w : Width)
    (hn : w.size ≤ v.bytes.length) :
    fromBytes d F e w v = .ok (intOfWire e (v.bytes.take w.size)) := by
  cases w with
  | w8 =>
    obtain ⟨b0, t0, e0, hn⟩ := exists_cons hn
    cases e <;> unfold fromBytes <;>
      rw [View.byte_ok h d F (i := 0) (x := b0) (by simp [e0])] <;>
      simp [e0, Width.size, leNat, beNat, intOfWire]
  | w16 =>
    obtain ⟨b0, t0, e0, hn⟩ := exists_cons hn
    obtain ⟨b1, t1, rfl, hn⟩ := exists_cons hn
    cases e <;> unfold fromBytes <;>
      rw [View.byte_ok h d F (i := 0) (x := b0) (by simp [e0]),
        View.byte_ok h d F (i := 1) (x := b1) (by simp [e0])] <;>
      simp only [Res.bind_ok, Res.pure_eq, or2, e0, Width.size, List.take_succ_cons, List.take_zero,
        leNat, beNat, intOfWire, List.reverse_cons, List.reverse_nil, List.nil_append, List.cons_append] <;>
      congr 1 <;> omega
  | w32 =>
    cases e
    · exact read32LE_ok h d F hn
    · exact read32BE_ok h d F hn
  | w64 =>
    cases e
    · unfold fromBytes
      rw [read64BE_ok h d F hn]
      have l : (v.bytes.take 8).length = 8 := by
        simp only [List.length_take, Width.size] at hn ⊢; omega
      have := byteSwapped_beNat (b := v.bytes.take 8)
      rw [l] at this
      simp only [Res.bind_ok, Res.pure_eq, this, Width.size, intOfWire]
    · exact read64BE_ok h d F hn

/-- Writing an integer. -/
theorem toBytes_eq (e : Endian) (w : Width) (x : Nat) :
    toBytes e w x = wireInt e w.size x := by
  have key : ∀ n v, natLe n (byteSwapped n v) = natBe n v := by
    intro n v
    have := natLe_leNat (natLe n v).reverse
    rw [List.length_reverse, natLe_length] at this
    rw [byteSwapped, this, natBe]
  have sh : ∀ v, natLe 2 v = [UInt8.ofNat v, UInt8.ofNat (v >>> 8)] := by
    intro v; simp [natLe, Nat.shiftRight_eq_div_pow]
  have sh4 : ∀ v, natLe 4 v = [UInt8.ofNat v, UInt8.ofNat (v >>> 8), UInt8.ofNat (v >>> 16),
      UInt8.ofNat (v >>> 24)] := by
    intro v; simp [natLe, Nat.shiftRight_eq_div_pow, Nat.div_div_eq_div_mul]
  have sh8 : ∀ v, natLe 8 v = [UInt8.ofNat v, UInt8.ofNat (v >>> 8), UInt8.ofNat (v >>> 16),
      UInt8.ofNat (v >>> 24), UInt8.ofNat (v >>> 32), UInt8.ofNat (v >>> 40),
      UInt8.ofNat (v >>> 48), UInt8.ofNat (v >>> 56)] := by
    intro v; simp [natLe, Nat.shiftRight_eq_div_pow, Nat.div_div_eq_div_mul]
  cases w <;> cases e <;>
    simp only [toBytes, Width.size, wireInt, ← key, sh, sh4, sh8]
  · simp [natLe]
  · rw [key]; simp [natBe, natLe]

theorem fromUInt_ok {w : Width} {n : Nat} (h : n < 256 ^ w.size) : fromUInt w n = .ok n := by
  cases w <;> simp only [fromUInt, Width.size] at h ⊢
  · rw [if_pos (by omega)]
  · rw [Nat.mod_eq_of_lt (by omega)]
  · rw [if_pos (by omega)]
  · rw [if_pos (by omega)]

/-! ## Writing -/

namespace DataBuffer

theorem stored_eq {old : Bytes} {c : Nat} {x : Bytes} (h : c ≤ old.length) :
    stored old c x = .ok (old.take c ++ x ++ old.drop (c + x.length)) := by
  unfold stored
  split
  · rfl
  · next hn =>
    simp only [Res.pure_eq]
    have e1 : ((old.length : Int) - c).toNat = old.length - c := by omega
    have e3 : old.drop (c + x.length) = [] := List.drop_eq_nil_of_le (by omega)
    have e2 : (if (old.length : Int) - c > 0 then
        splice old c (x.take ((old.length : Int) - c).toNat) else old) =
        old.take c ++ x.take (old.length - c) := by
      split
      · rw [e1, splice, List.length_take, Nat.min_eq_left (by omega),
          List.drop_eq_nil_of_le (by omega), List.append_nil]
      · have : c = old.length := by omega
        subst this; simp
    rw [e2, e1, e3, List.append_nil]
    split
    · rw [if_neg (by omega), List.append_assoc, List.take_append_drop]
    · congr 2
      exact List.take_of_length_le (by omega)

end DataBuffer

end Proto.Sw
