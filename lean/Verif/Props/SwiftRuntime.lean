import Verif.Spec.SwiftRuntime
import Verif.Props.Seq

/-!
# The Swift runtime

What the Swift library reads and writes, compared with the Rust library on every input, in debug and
release builds and whatever Foundation does where its documentation leaves it open.
-/

namespace Proto.Sw

open Proto

/-! ## C74: integers -/

/-- C74: reading an integer gives the same value, size or error as the Rust library, from any part of
any buffer. -/
theorem C74_read (d : Build) (F : Foundation) (e : Endian) (w : Width) :
    Agree (Scalar.fromSlice e w.size) (Value.read d F e w) := by
  intro v h
  rw [Scalar.fromSlice_eq]
  unfold Value.read
  rw [h.size]
  by_cases hn : v.bytes.length < w.size
  · rw [if_neg (by omega), if_pos (by omega)]; exact .truncated
  · rw [if_pos (by omega), if_neg (by omega), fromBytes_ok h d F e w (by omega)]
    exact .ok _

example (F : Foundation) : Value.read .debug F .big .w16 ⟨[9, 1, 2, 3], 1, 4⟩ = .ok ⟨2, 0x0102⟩ :=
  (C74_read .debug F .big .w16 ⟨[9, 1, 2, 3], 1, 4⟩ ⟨by decide, by decide, by decide⟩).of_ok

/-- C74: the value is the number whose base-256 digits are the first bytes; it is read whenever they
are there. -/
theorem C74_digits (d : Build) (F : Foundation) (e : Endian) (w : Width) (v : View) (h : v.WF) :
    Value.read d F e w v =
      if w.size ≤ v.bytes.length then .ok ⟨w.size, intOfWire e (v.bytes.take w.size)⟩
      else .err .truncated := by
  have hs := C74_read d F e w v h
  rw [Scalar.fromSlice_eq] at hs
  split
  · next hn => rw [if_pos hn] at hs; exact hs.of_ok
  · next hn => rw [if_neg hn] at hs; exact hs.of_truncated

example (F : Foundation) : Value.read .release F .little .w32 ⟨[9, 1, 2, 3], 1, 4⟩ = .err .truncated :=
  C74_digits .release F .little .w32 ⟨[9, 1, 2, 3], 1, 4⟩ ⟨by decide, by decide, by decide⟩

/-- C74: an integer is written as the same bytes as by the Rust library. -/
theorem C74_write (e : Endian) (w : Width) (x : Nat) :
    ∃ ops, Value.write e w x = .ok ops ∧ written ops = wireInt e w.size x ∧
      written ops = (Scalar.writeTo e w.size x).bytes := by
  refine ⟨_, rfl, ?_, ?_⟩
  · simp [written, Op.data, toBytes_eq]
  · simp [written, Op.data, toBytes_eq, Scalar.writeTo_bytes]

example : ∃ ops, Value.write .little .w32 0x01020304 = .ok ops ∧ written ops = [4, 3, 2, 1] := by
  obtain ⟨ops, h, h', _⟩ := C74_write .little .w32 0x01020304
  exact ⟨ops, h, h'.trans (by decide)⟩

/-! ## C75: buffers -/

/-- C75: `write(bytes:)` overwrites or extends the data from the cursor on and leaves the rest, for
every cursor and length; a buffer over immutable data continues on a copy of it. -/
theorem C75_bytes (h : Heap) (b : DataBuffer) (hv : Valid h b) (x : Bytes) :
    ∃ h' b', b.writeBytes h x = .ok (h', b') ∧ Valid h' b' ∧
      b'.get h' = (b.get h).take b.cursor ++ x ++ (b.get h).drop (b.cursor + x.length) ∧
      b'.start = b.start ∧ b'.cursor = b.cursor + x.length ∧ b'.fin = b.cursor + x.length ∧
      b'.data = b.data ∧
      (∀ r, b.dataMut = some r → b'.dataMut = some r ∧ h'.length = h.length ∧
        ∀ k, k ≠ r → h'[k]? = h[k]?) ∧
      (b.dataMut = none → b'.dataMut = some h.length ∧ h'.length = h.length + 1 ∧
        ∀ k, k < h.length → h'[k]? = h[k]?) := by
  obtain ⟨data, m, start, fin, cursor⟩ := b
  have hu := hv.upper
  have hl := hv.lower
  cases m with
  | none =>
    simp only [DataBuffer.get] at hu hl
    have hs := DataBuffer.stored_eq (x := x) hu
    refine ⟨(h ++ [data]).set h.length (data.take cursor ++ x ++ data.drop (cursor + x.length)),
      ⟨data, some h.length, start, cursor + x.length, cursor + x.length⟩, ?_, ⟨?_, ?_, ?_⟩, ?_, rfl,
      rfl, rfl, rfl, ?_, ?_⟩
    · simp [DataBuffer.writeBytes, DataBuffer.getMut, hs]
    · rintro r hr; cases hr; simp
    · simp only; omega
    · simp [DataBuffer.get]; omega
    · simp [DataBuffer.get]
    · intro r hr; cases hr
    · intro _
      refine ⟨rfl, by simp, fun k hk => ?_⟩
      rw [List.getElem?_set_ne (by omega), List.getElem?_append_left hk]
  | some r =>
    have hr := hv.object r rfl
    simp only [DataBuffer.get] at hu hl
    have hs := DataBuffer.stored_eq (x := x) hu
    refine ⟨h.set r ((h[r]?.getD []).take cursor ++ x ++ (h[r]?.getD []).drop (cursor + x.length)),
      ⟨data, some r, start, cursor + x.length, cursor + x.length⟩, ?_, ⟨?_, ?_, ?_⟩, ?_, rfl,
      rfl, rfl, rfl, ?_, ?_⟩
    · simp only [DataBuffer.writeBytes, DataBuffer.getMut, hs]; rfl
    · rintro r hr'; cases hr'; simpa using hr
    · simp only; omega
    · simp only [DataBuffer.get, List.getElem?_set_self hr, Option.getD_some, List.length_append,
        List.length_take, List.length_drop]
      omega
    · simp only [DataBuffer.get, List.getElem?_set_self hr, Option.getD_some]
    · rintro r' hr'; cases hr'
      exact ⟨rfl, by simp, fun k hk => List.getElem?_set_ne (Ne.symm hk)⟩
    · intro hh; cases hh

/-- Two bytes over the second of three: one replaced, one appended. -/
example : ∃ h' b', (⟨[], some 0, 0, 3, 2⟩ : DataBuffer).writeBytes [[1, 2, 3]] [8, 9] = .ok (h', b') ∧
    b'.get h' = [1, 2, 8, 9] ∧ b'.fin = 4 := by
  obtain ⟨h', b', h, _, e, _, _, f, _⟩ := C75_bytes [[1, 2, 3]] ⟨[], some 0, 0, 3, 2⟩
    ⟨(by intro r h; cases h; decide), (by decide), (by decide)⟩ [8, 9]
  exact ⟨h', b', h, e, f⟩

/-- C75: `write(byte:)` does the same with one byte, except on the last byte of the data: that byte
is left as it is and the new one is put behind it. -/
theorem C75_byte (h : Heap) (b : DataBuffer) (hv : Valid h b) (x : UInt8) :
    ∃ h' b', b.writeByte h x = .ok (h', b') ∧ Valid h' b' ∧
      b'.get h' = (if b.cursor + 1 = (b.get h).length then b.get h ++ [x]
        else (b.get h).take b.cursor ++ [x] ++ (b.get h).drop (b.cursor + 1)) ∧
      b'.start = b.start ∧ b'.cursor = b.cursor + 1 ∧ b'.fin = b.cursor + 1 ∧ b'.data = b.data ∧
      (∀ r, b.dataMut = some r → b'.dataMut = some r ∧ h'.length = h.length ∧
        ∀ k, k ≠ r → h'[k]? = h[k]?) ∧
      (b.dataMut = none → b'.dataMut = some h.length ∧ h'.length = h.length + 1 ∧
        ∀ k, k < h.length → h'[k]? = h[k]?) := by
  obtain ⟨data, m, start, fin, cursor⟩ := b
  have hu := hv.upper
  have hl := hv.lower
  have key : ∀ old : Bytes, cursor ≤ old.length →
      (if cursor + 1 < old.length then splice old cursor [x] else old ++ [x]) =
      (if cursor + 1 = old.length then old ++ [x]
        else old.take cursor ++ [x] ++ old.drop (cursor + 1)) := by
    intro old ho
    split
    · rw [if_neg (by omega)]; rfl
    · split
      · rfl
      · have : cursor = old.length := by omega
        subst this; simp
  have len : ∀ old : Bytes, cursor ≤ old.length →
      cursor + 1 ≤ (if cursor + 1 = old.length then old ++ [x]
        else old.take cursor ++ [x] ++ old.drop (cursor + 1)).length := by
    intro old ho
    split <;> simp <;> omega
  cases m with
  | none =>
    simp only [DataBuffer.get] at hu hl
    refine ⟨(h ++ [data]).set h.length (if cursor + 1 = data.length then data ++ [x]
        else data.take cursor ++ [x] ++ data.drop (cursor + 1)),
      ⟨data, some h.length, start, cursor + 1, cursor + 1⟩, ?_, ⟨?_, ?_, ?_⟩, ?_, rfl,
      rfl, rfl, rfl, ?_, ?_⟩
    · simp only [DataBuffer.writeByte, DataBuffer.getMut, List.getElem?_concat_length,
        Option.getD_some, key data hu]; rfl
    · rintro r hr; cases hr; simp
    · simp only; omega
    · simp only [DataBuffer.get]
      rw [List.getElem?_set_self (by simp)]
      exact len data hu
    · simp only [DataBuffer.get]
      rw [List.getElem?_set_self (by simp)]; rfl
    · intro r hr; cases hr
    · intro _
      refine ⟨rfl, by simp, fun k hk => ?_⟩
      rw [List.getElem?_set_ne (by omega), List.getElem?_append_left hk]
  | some r =>
    have hr := hv.object r rfl
    simp only [DataBuffer.get] at hu hl
    refine ⟨h.set r (if cursor + 1 = (h[r]?.getD []).length then h[r]?.getD [] ++ [x]
        else (h[r]?.getD []).take cursor ++ [x] ++ (h[r]?.getD []).drop (cursor + 1)),
      ⟨data, some r, start, cursor + 1, cursor + 1⟩, ?_, ⟨?_, ?_, ?_⟩, ?_, rfl,
      rfl, rfl, rfl, ?_, ?_⟩
    · exact congrArg (fun n => (Res.ok (h.set r n,
        ⟨data, some r, start, cursor + 1, cursor + 1⟩) : S (Heap × DataBuffer))) (key _ hu)
    · rintro r hr'; cases hr'; simpa using hr
    · simp only; omega
    · simp only [DataBuffer.get, List.getElem?_set_self hr, Option.getD_some]
      exact len _ hu
    · simp only [DataBuffer.get, List.getElem?_set_self hr, Option.getD_some]; rfl
    · rintro r' hr'; cases hr'
      exact ⟨rfl, by simp, fun k hk => List.getElem?_set_ne (Ne.symm hk)⟩
    · intro hh; cases hh

/-- A byte over the last one is appended instead. -/
example : ∃ h' b', (⟨[], some 0, 0, 3, 2⟩ : DataBuffer).writeByte [[1, 2, 3]] 8 = .ok (h', b') ∧
    b'.get h' = [1, 2, 3, 8] ∧ b'.fin = 3 := by
  obtain ⟨h', b', h, _, e, _, _, f, _⟩ := C75_byte [[1, 2, 3]] ⟨[], some 0, 0, 3, 2⟩
    ⟨(by intro r h; cases h; decide), (by decide), (by decide)⟩ 8
  exact ⟨h', b', h, e, f⟩

theorem run_ok (h : Heap) (b : DataBuffer) (hv : Valid h b) (o : Op) :
    ∃ h' b', o.run h b = .ok (h', b') ∧ Valid h' b' ∧ b'.start = b.start ∧
      b'.cursor = b.cursor + o.data.length ∧ b'.fin = b.cursor + o.data.length ∧
      (b.cursor = (b.get h).length → b'.get h' = b.get h ++ o.data) ∧
      (b.cursor + o.data.length < (b.get h).length →
        b'.get h' = (b.get h).take b.cursor ++ o.data ++
          (b.get h).drop (b.cursor + o.data.length)) := by
  cases o with
  | bytes x =>
    obtain ⟨h', b', h1, h2, h3, h4, h5, h6, -⟩ := C75_bytes h b hv x
    refine ⟨h', b', h1, h2, h4, h5, h6, fun hc => ?_, fun _ => h3⟩
    rw [h3, hc]; simp [Op.data]
  | byte x =>
    obtain ⟨h', b', h1, h2, h3, h4, h5, h6, -⟩ := C75_byte h b hv x
    refine ⟨h', b', h1, h2, h4, h5, h6, fun hc => ?_, fun hc => ?_⟩
    · rw [h3, if_neg (by omega), hc]; simp [Op.data]
    · simp only [Op.data, List.length_singleton] at hc
      rw [h3, if_neg (by omega)]; rfl

/-- C75: whatever is written into a buffer at the end of its data is appended, in order; nothing
traps.  The buffer then shows what it showed up to its cursor, followed by what was written. -/
theorem C75_append (h : Heap) (b : DataBuffer) (hv : Valid h b) (hc : b.cursor = (b.get h).length)
    (ops : List Op) :
    ∃ h' b', runOps h b ops = .ok (h', b') ∧ Valid h' b' ∧ b'.get h' = b.get h ++ written ops ∧
      b'.start = b.start ∧ b'.cursor = (b'.get h').length ∧
      (b.fin = b.cursor → b'.fin = b'.cursor) := by
  induction ops generalizing h b with
  | nil => exact ⟨h, b, rfl, hv, by simp [written], rfl, hc, fun h => h⟩
  | cons o os ih =>
    obtain ⟨h1, b1, e1, v1, s1, c1, f1, a1, -⟩ := run_ok h b hv o
    obtain ⟨h', b', e2, v2, g2, s2, c2, f2⟩ := ih h1 b1 v1 (by
      rw [c1, a1 hc, hc, List.length_append])
    refine ⟨h', b', ?_, v2, ?_, by rw [s2, s1], c2, fun _ => f2 (by rw [f1, c1])⟩
    · simp only [runOps, e1, Res.bind_ok]; exact e2
    · rw [g2, a1 hc]; simp [written]

example : ∃ h' b', runOps [[7]] ⟨[], some 0, 0, 1, 1⟩ [.bytes [1, 2], .byte 0] = .ok (h', b') ∧
    b'.get h' = [7, 1, 2, 0] := by
  obtain ⟨h', b', h, _, e, _⟩ := C75_append [[7]] ⟨[], some 0, 0, 1, 1⟩
    ⟨(by intro r h; cases h; decide), (by decide), (by decide)⟩ rfl [.bytes [1, 2], .byte 0]
  exact ⟨h', b', h, e⟩

/-- C75: a new buffer shows exactly what has been written to it. -/
theorem C75_fresh (h : Heap) (ops : List Op) :
    ∃ h' b', runOps (DataBuffer.new h).1 (DataBuffer.new h).2 ops = .ok (h', b') ∧
      b'.view h' = View.whole (written ops) := by
  have hg : (DataBuffer.new h).2.get (DataBuffer.new h).1 = [] := by
    simp [DataBuffer.new, DataBuffer.get]
  obtain ⟨h', b', e, v, g, s, c, f⟩ := C75_append (DataBuffer.new h).1 (DataBuffer.new h).2
    ⟨by rintro r hr; cases hr; simp [DataBuffer.new], Nat.le_refl _, Nat.zero_le _⟩
    (by rw [hg]; rfl) ops
  refine ⟨h', b', e, ?_⟩
  rw [hg, List.nil_append] at g
  have f' := f rfl
  rw [DataBuffer.view, View.whole, s, f', c, g]; rfl

example : ∃ h' b', runOps (DataBuffer.new [[5]]).1 (DataBuffer.new [[5]]).2 [.bytes [1], .byte 2] =
    .ok (h', b') ∧ b'.view h' = ⟨[1, 2], 0, 2⟩ := C75_fresh [[5]] [.bytes [1], .byte 2]

/-- C75: a buffer that is cleared and written again shows what was written since, as long as this is
shorter than its data. -/
theorem C75_reuse (h : Heap) (b : DataBuffer) (hv : Valid h b) (ops : List Op)
    (hs : b.start + (written ops).length < (b.get h).length) :
    ∃ h' b', runOps h b.clear ops = .ok (h', b') ∧ (b'.view h').bytes = written ops ∧
      b'.start = b.start := by
  have hg : b.clear.get h = b.get h := rfl
  suffices H : ∀ (ops : List Op) (h : Heap) (b : DataBuffer), Valid h b → b.fin = b.cursor →
      b.cursor + (written ops).length < (b.get h).length →
      ∃ h' b', runOps h b ops = .ok (h', b') ∧
        (b'.view h').bytes = (b.view h).bytes ++ written ops ∧ b'.start = b.start by
    obtain ⟨h', b', e, g, s⟩ := H ops h b.clear
      ⟨hv.object, Nat.le_refl _, Nat.le_trans hv.lower hv.upper⟩ rfl hs
    refine ⟨h', b', e, ?_, s⟩
    rw [g]; simp [DataBuffer.view, View.bytes, DataBuffer.clear]
  intro ops
  induction ops with
  | nil => intro h b hv hf hs; exact ⟨h, b, rfl, by simp [written], rfl⟩
  | cons o os ih =>
    intro h b hv hf hs
    have hw : (written (o :: os)).length = o.data.length + (written os).length := by
      simp [written]
    rw [hw] at hs
    obtain ⟨h1, b1, e1, v1, s1, c1, f1, -, a1⟩ := run_ok h b hv o
    have g1 := a1 (by omega)
    have hlen : (b1.get h1).length = (b.get h).length := by
      rw [g1]; simp; omega
    obtain ⟨h', b', e2, g2, s2⟩ := ih h1 b1 v1 (by rw [f1, c1]) (by omega)
    refine ⟨h', b', ?_, ?_, by rw [s2, s1]⟩
    · simp only [runOps, e1, Res.bind_ok]; exact e2
    · rw [g2]
      have : (b1.view h1).bytes = (b.view h).bytes ++ o.data := by
        have hl := hv.lower
        simp only [DataBuffer.view, View.bytes, g1, s1, f1, hf]
        rw [List.append_assoc, List.drop_append_of_le_length (by simp; omega), ← List.append_assoc,
          List.take_append_of_le_length (by simp; omega), List.take_of_length_le (by simp; omega),
          List.drop_take]
      rw [this]; simp [written]

example : ∃ h' b', runOps [[1, 2, 3, 4]] (⟨[], some 0, 0, 4, 4⟩ : DataBuffer).clear
    [.bytes [7, 8], .byte 0] = .ok (h', b') ∧ (b'.view h').bytes = [7, 8, 0] := by
  obtain ⟨h', b', h, e, _⟩ := C75_reuse [[1, 2, 3, 4]] ⟨[], some 0, 0, 4, 4⟩
    ⟨(by intro r h; cases h; decide), (by decide), (by decide)⟩ [.bytes [7, 8], .byte 0] (by decide)
  exact ⟨h', b', h, e⟩

/-- C75: the case in which it does not.  A string written with its terminator over data it fills
exactly leaves the last byte of the old data in place of the terminator. -/
theorem C75_reuse_last (h : Heap) (b : DataBuffer) (hv : Valid h b) (s : Bytes) (x y : UInt8)
    (old : Bytes) (hs : b.get h = old ++ [y]) (hl : b.start + s.length = old.length) :
    ∃ h' b', runOps h b.clear [.bytes s, .byte x] = .ok (h', b') ∧
      (b'.view h').bytes = s ++ [y] ∧ b'.get h' = old.take b.start ++ s ++ [y, x] := by
  have hg : b.clear.get h = b.get h := rfl
  have hvc : Valid h b.clear := ⟨hv.object, Nat.le_refl _, Nat.le_trans hv.lower hv.upper⟩
  obtain ⟨h1, b1, e1, v1, g1, s1, c1, f1, -⟩ := C75_bytes h b.clear hvc s
  obtain ⟨h2, b2, e2, v2, g2, s2, c2, f2, -⟩ := C75_byte h1 b1 v1 x
  have hcl : b.clear.cursor = b.start := rfl
  have hst : b.clear.start = b.start := rfl
  rw [hcl] at g1 c1 f1
  rw [hg, hs] at g1
  have g1' : b1.get h1 = old.take b.start ++ s ++ [y] := by
    rw [g1, hl, List.take_append_of_le_length (by omega), List.drop_left]
  have hlen : (old.take b.start ++ s).length = old.length := by
    simp; omega
  rw [g1', if_pos (by rw [c1, List.length_append, hlen, hl]; rfl)] at g2
  refine ⟨h2, b2, ?_, ?_, by rw [g2]; simp⟩
  · simp only [runOps, Op.run, e1, Res.bind_ok, e2]
  · simp only [DataBuffer.view, View.bytes, g2, s2, s1, hst, f2, c1]
    rw [List.append_assoc, List.append_assoc,
      List.drop_append_of_le_length (by simp only [List.length_take]; omega),
      List.drop_eq_nil_of_le (by simp only [List.length_take]; omega), List.nil_append]
    rw [show b.start + s.length + 1 - b.start = s.length + 1 by omega,
      List.take_length_add_append]
    rfl

example : ∃ h' b', runOps [[1, 2, 3]] (⟨[], some 0, 0, 3, 3⟩ : DataBuffer).clear
    [.bytes [7, 8], .byte 0] = .ok (h', b') ∧ (b'.view h').bytes = [7, 8, 3] := by
  obtain ⟨h', b', h, e, _⟩ := C75_reuse_last [[1, 2, 3]] ⟨[], some 0, 0, 3, 3⟩
    ⟨(by intro r h; cases h; decide), (by decide), (by decide)⟩ [7, 8] 0 3 [1, 2] rfl rfl
  exact ⟨h', b', h, e⟩

/-- C75: the claim that a cleared buffer always shows what was written to it is false: after "ab" has
been replaced by "c" and a terminator, the buffer shows "cb". -/
theorem C75_reuse_false : ∃ (h : Heap) (b : DataBuffer) (ops : List Op), Valid h b ∧
    ∃ h' b', runOps h b.clear ops = .ok (h', b') ∧ (b'.view h').bytes ≠ written ops :=
  ⟨[[0x61, 0x62]], ⟨[], some 0, 0, 2, 2⟩, [.bytes [0x63], .byte 0],
    ⟨by rintro r hr; cases hr; decide, by decide, by decide⟩,
    [[0x63, 0x62, 0]], ⟨[], some 0, 0, 2, 2⟩, by decide, by decide⟩

/-- C75: a slice of a buffer over mutable data writes into that data: the buffer shows the bytes from
the slice's start on, also those beyond the end of the slice. -/
theorem C75_shared (d : Build) (h : Heap) (b s : DataBuffer) (hv : Valid h b) (r : Nat)
    (hr : b.dataMut = some r) (lo hi : Nat) (hhi : b.start + lo ≤ (b.get h).length)
    (hs : b.closed d h lo hi = .ok s) (x : Bytes) :
    ∃ h' s', s.writeBytes h x = .ok (h', s') ∧
      b.get h' = (b.get h).take (b.start + lo) ++ x ++ (b.get h).drop (b.start + lo + x.length) := by
  obtain ⟨v, hv1, hv2⟩ := Res.bind_eq_ok.mp hs
  have e : v.start = b.start + lo := by
    unfold View.closed at hv1
    split at hv1
    · cases hv1
    · obtain ⟨_, -, hv1⟩ := Res.bind_eq_ok.mp hv1
      obtain ⟨_, -, hv1⟩ := Res.bind_eq_ok.mp hv1
      cases hv1; rfl
  have es : s = b.sub v := (Res.ok.inj hv2).symm
  have hg : s.get h = b.get h := by rw [es]; rfl
  have hc : s.cursor = b.start + lo := by rw [es]; exact e
  have hm : s.dataMut = some r := by rw [es]; exact hr
  obtain ⟨h', s', e1, v1, g1, -, -, -, -, k1, -⟩ := C75_bytes h s
    ⟨fun r' hr' => hv.object r' (by rw [hm] at hr'; rw [hr, hr']),
      by rw [es]; exact Nat.le_refl _, by rw [hc, hg]; exact hhi⟩ x
  refine ⟨h', s', e1, ?_⟩
  obtain ⟨k2, -⟩ := k1 r hm
  have : b.get h' = s'.get h' := by simp [DataBuffer.get, hr, k2]
  rw [this, g1, hg, hc]

example : ∃ h' s', (⟨[], some 0, 1, 2, 1⟩ : DataBuffer).writeBytes [[1, 2, 3]] [9] = .ok (h', s') ∧
    (⟨[], some 0, 0, 3, 0⟩ : DataBuffer).get h' = [1, 9, 3] :=
  C75_shared .debug [[1, 2, 3]] ⟨[], some 0, 0, 3, 0⟩ ⟨[], some 0, 1, 2, 1⟩
    ⟨(by intro r h; cases h; decide), (by decide), (by decide)⟩ 0 rfl 1 2 (by decide) rfl [9]

/-- C75: a slice of a buffer over immutable data writes into a copy: the buffer shows what it showed
before. -/
theorem C75_copied (d : Build) (h h' : Heap) (b s s' : DataBuffer) (hr : b.dataMut = none)
    (lo hi : Nat) (hs : b.closed d h lo hi = .ok s) (o : Op) (_hw : o.run h s = .ok (h', s')) :
    b.view h' = b.view h ∧ s.dataMut = none := by
  obtain ⟨v, -, hv2⟩ := Res.bind_eq_ok.mp hs
  refine ⟨by simp [DataBuffer.view, DataBuffer.get, hr], ?_⟩
  rw [← Res.ok.inj hv2]; exact hr

example (h' : Heap) (s' : DataBuffer)
    (hw : (Op.byte 9).run [] ⟨[1, 2, 3], none, 1, 2, 1⟩ = .ok (h', s')) :
    (DataBuffer.immutable [1, 2, 3]).get h' = [1, 2, 3] :=
  congrArg View.all (C75_copied .debug [] h' (.immutable [1, 2, 3]) ⟨[1, 2, 3], none, 1, 2, 1⟩ s' rfl
    1 2 rfl (.byte 9) hw).1

/-- C75: when the place to write at is beyond the data, as it is in the slices release builds hand out
for ranges outside the data, writing bytes traps even if there are none, and a single byte goes to the
end of the data and not to that place. -/
theorem C75_beyond (h : Heap) (b : DataBuffer) (r : Nat) (hr : b.dataMut = some r) (hl : r < h.length)
    (hc : (b.get h).length < b.cursor) (x : Bytes) (y : UInt8) :
    b.writeBytes h x = .panic ∧
    ∃ h' b', b.writeByte h y = .ok (h', b') ∧ b'.get h' = b.get h ++ [y] ∧
      b'.cursor = b.cursor + 1 ∧ b'.fin = b.cursor + 1 := by
  obtain ⟨data, m, start, fin, cursor⟩ := b
  cases hr
  simp only [DataBuffer.get] at hc
  simp only [DataBuffer.writeBytes, DataBuffer.writeByte, DataBuffer.getMut, DataBuffer.get]
  constructor
  · have e : DataBuffer.stored (h[r]?.getD []) cursor x = .panic := by
      unfold DataBuffer.stored
      rw [if_neg (by omega)]
      simp only []
      rw [if_pos (by omega), if_pos (by omega)]
    rw [e]; rfl
  · refine ⟨_, _, rfl, ?_, rfl, rfl⟩
    have e : (if cursor + 1 < (h[r]?.getD []).length then splice (h[r]?.getD []) cursor [y]
        else h[r]?.getD [] ++ [y]) = h[r]?.getD [] ++ [y] := if_neg (by omega)
    have e' : ∀ z, (h.set r z)[r]?.getD [] = z := by intro z; simp [hl]
    exact (e' _).trans e

example : (∃ s, (⟨[], some 0, 0, 2, 2⟩ : DataBuffer).dropFrom .release [[1, 2]] 5 = .ok s ∧
    s.dataMut = some 0 ∧ (s.get [[1, 2]]).length < s.cursor) := ⟨_, rfl, rfl, by decide⟩

/-- C75: the bytes of a buffer are handed out unless there are none, which traps. -/
theorem C75_data (F : Foundation) (v : View) (h : v.WF) :
    v.toData F = if v.bytes = [] then .panic else .ok v.bytes := by
  have hl := h.length
  have := h.order; have := h.inside
  unfold View.toData
  by_cases hb : v.bytes = []
  · rw [if_pos hb, if_pos (by rw [hb] at hl; simp at hl; omega)]
  · have : v.bytes.length ≠ 0 := fun hh => hb (List.length_eq_zero_iff.mp hh)
    rw [if_neg hb, if_neg (by omega), if_pos h.inside]; rfl

example (F : Foundation) : View.toData F ⟨[1, 2, 3], 1, 3⟩ = .ok [2, 3] ∧
    View.toData F ⟨[1, 2, 3], 1, 1⟩ = .panic :=
  ⟨C75_data F _ ⟨by decide, by decide, by decide⟩, C75_data F _ ⟨by decide, by decide, by decide⟩⟩

end Proto.Sw
