import Verif.Runtime.SeqLemmas
import Verif.Props.Codec

/-!
# C18–C21, C29, C30: primitive wire codecs and output streams
-/

namespace Proto.Props

open Proto

/-! ## C18 -/

theorem natLe_getElem? (n v i : Nat) (h : i < n) :
    (natLe n v)[i]? = some (UInt8.ofNat (v / 256 ^ i)) := by
  induction n generalizing v i with
  | zero => omega
  | succ n ih =>
    cases i with
    | zero => simp [natLe]
    | succ i =>
      simp only [natLe, List.getElem?_cons_succ]
      rw [ih _ _ (by omega), Nat.div_div_eq_div_mul, Nat.pow_succ, Nat.mul_comm]

/-- C18: encoding emits exactly `sz` bytes and succeeds; byte `i` is the base-256 digit number `i`
(little-endian) or `sz - 1 - i` (big-endian). -/
theorem C18_encode (e : Endian) (sz v : Nat) :
    (Scalar.writeTo e sz v).res = .ok () ∧ (Scalar.writeTo e sz v).bytes.length = sz ∧
      ∀ i, i < sz → (Scalar.writeTo e sz v).bytes[i]? =
        some (UInt8.ofNat (v / 256 ^ (match e with | .little => i | .big => sz - 1 - i))) := by
  refine ⟨rfl, by simp [Scalar.writeTo_bytes], fun i hi => ?_⟩
  rw [Scalar.writeTo_bytes]
  cases e with
  | little => exact natLe_getElem? sz v i hi
  | big =>
    simp only [wireInt, natBe]
    rw [List.getElem?_reverse (by simpa using hi), natLe_length]
    exact natLe_getElem? sz v _ (by omega)

example : (Scalar.writeTo .big 2 0x0102).bytes[0]? = some 1 :=
  (C18_encode .big 2 0x0102).2.2 0 (by decide)

/-- C18: decoding the encoding followed by anything returns the value and its width. -/
theorem C18_roundtrip (e : Endian) {sz v : Nat} (h : v < 256 ^ sz) (t : Bytes) :
    Scalar.fromSlice e sz ((Scalar.writeTo e sz v).bytes ++ t) = .ok ⟨sz, v⟩ := by
  rw [Scalar.writeTo_bytes]; exact Scalar.fromSlice_wire e h t

example : Scalar.fromSlice .little 2 ((Scalar.writeTo .little 2 513).bytes ++ [7, 7]) = .ok ⟨2, 513⟩ :=
  C18_roundtrip .little (by decide) [7, 7]

/-- C18: an input of at least the width decodes to the only value whose encoding it starts with. -/
theorem C18_decode (e : Endian) {sz : Nat} (b : Bytes) (h : sz ≤ b.length) :
    ∃ v, v < 256 ^ sz ∧ Scalar.fromSlice e sz b = .ok ⟨sz, v⟩ ∧
      (Scalar.writeTo e sz v).bytes = b.take sz := by
  have hl : (b.take sz).length = sz := by simp; omega
  refine ⟨intOfWire e (b.take sz), ?_, by rw [Scalar.fromSlice_eq, if_pos h], ?_⟩
  · have := intOfWire_lt e (b.take sz); rwa [hl] at this
  · rw [Scalar.writeTo_bytes]
    have := wireInt_intOfWire e (b.take sz); rwa [hl] at this

example : ∃ v, v < 256 ^ 2 ∧ Scalar.fromSlice .big 2 [1, 2, 3] = .ok ⟨2, v⟩ ∧
    (Scalar.writeTo .big 2 v).bytes = [1, 2] := C18_decode .big [1, 2, 3] (by decide)

/-- C18: a shorter input, and only that, is a truncation error. -/
theorem C18_short (e : Endian) (sz : Nat) (b : Bytes) :
    Scalar.fromSlice e sz b = .err .truncated ↔ b.length < sz := by
  rw [Scalar.fromSlice_eq]
  split
  · next h => simp; omega
  · next h => simp; omega

example : Scalar.fromSlice .big 4 ((Scalar.writeTo .big 4 0x01020304).bytes ++ [9]) =
    .ok ⟨4, 0x01020304⟩ := C18_roundtrip .big (by decide) [9]
example : (Scalar.writeTo .big 4 0x01020304).bytes = [1, 2, 3, 4] := by decide
example : (Scalar.writeTo .little 4 0x01020304).bytes = [4, 3, 2, 1] := by decide

/-! ## C19 -/

theorem isUtf8_ascii (s : Bytes) (h : ∀ b ∈ s, b.toNat < 128) : IsUtf8 s := by
  induction s with
  | nil => exact ⟨[], rfl⟩
  | cons b s ih =>
    obtain ⟨cs, hcs⟩ := ih (fun x hx => h x (by simp [hx]))
    have hb := h b (by simp)
    refine ⟨Char.ofNat b.toNat :: cs, ?_⟩
    rw [List.flatMap_cons, ← hcs]
    have key : ∀ n, n < 128 → String.utf8EncodeChar (Char.ofNat n) = [UInt8.ofNat n] := by
      decide +kernel
    rw [key _ hb]; simp

/-- C19: a valid string without NUL round-trips, whatever follows. -/
theorem C19_roundtrip (s t : Bytes) (hs : IsUtf8 s) (h0 : 0 ∉ s) :
    NullTerminated.fromSlice ((NullTerminated.writeTo s).bytes ++ t) = .ok ⟨s.length + 1, s⟩ ∧
      (NullTerminated.writeTo s).res = .ok () ∧ (NullTerminated.writeTo s).bytes.length = s.length + 1 := by
  rw [NullTerminated.writeTo_bytes]
  refine ⟨NullTerminated.fromSlice_eq_ok.mpr ⟨t, by simp, h0, (validUtf8_iff s).mpr hs, rfl⟩, rfl, by simp⟩

example : NullTerminated.fromSlice ((NullTerminated.writeTo [0x68, 0x69]).bytes ++ [9]) =
    .ok ⟨3, [0x68, 0x69]⟩ :=
  (C19_roundtrip [0x68, 0x69] [9] (isUtf8_ascii _ (by decide)) (by decide)).1

/-- C19: an input is accepted exactly when it has a NUL and the bytes before the first NUL are
UTF-8; the result is those bytes. -/
theorem C19_decode_ok (b : Bytes) (n : Nat) (v : Bytes) :
    NullTerminated.fromSlice b = .ok ⟨n, v⟩ ↔
      ∃ t, b = v ++ 0 :: t ∧ 0 ∉ v ∧ IsUtf8 v ∧ n = v.length + 1 := by
  simp only [NullTerminated.fromSlice_eq_ok, validUtf8_iff]

example : NullTerminated.fromSlice [0x68, 0, 0x69] = .ok ⟨2, [0x68]⟩ :=
  (C19_decode_ok _ _ _).2 ⟨[0x69], rfl, by decide, isUtf8_ascii _ (by decide), rfl⟩

/-- C19: a truncation error is reported exactly when there is no NUL. -/
theorem C19_truncated (b : Bytes) : NullTerminated.fromSlice b = .err .truncated ↔ 0 ∉ b := by
  rw [← findNul_eq_none]
  cases hf : findNul b with
  | none => simp [NullTerminated.fromSlice, hf]
  | some k =>
    obtain ⟨s, t, rfl, h0, rfl⟩ := findNul_eq_some.mp hf
    rw [NullTerminated.fromSlice_split h0]
    split <;> simp

example : NullTerminated.fromSlice [0x68, 0x69] = .err .truncated := (C19_truncated _).2 (by decide)

/-- C19: an encoding error is reported exactly when the bytes before the first NUL are not UTF-8. -/
theorem C19_invalid (b : Bytes) :
    NullTerminated.fromSlice b = .err .invalidUtf8 ↔ ∃ s t, b = s ++ 0 :: t ∧ 0 ∉ s ∧ ¬ IsUtf8 s := by
  cases hf : findNul b with
  | none =>
    have h0 := findNul_eq_none.mp hf
    simp only [NullTerminated.fromSlice, hf, Res.err.injEq, reduceCtorEq, false_iff]
    rintro ⟨s, t, rfl, _⟩
    simp at h0
  | some k =>
    obtain ⟨s, t, rfl, h0, rfl⟩ := findNul_eq_some.mp hf
    rw [NullTerminated.fromSlice_split h0]
    constructor
    · intro h
      split at h
      · cases h
      · next hv => exact ⟨s, t, rfl, h0, fun hu => hv ((validUtf8_iff s).mpr hu)⟩
    · rintro ⟨s', t', he, h0', hv⟩
      obtain ⟨rfl, rfl⟩ := append_cons_inj he h0 h0'
      rw [if_neg (fun hh => hv ((validUtf8_iff s).mp hh))]

example : NullTerminated.fromSlice [0xff, 0] = .err .invalidUtf8 :=
  (C19_invalid _).2 ⟨[0xff], [], rfl, by decide, by rw [← validUtf8_iff]; decide +kernel⟩

/-- C19: no other outcome exists (in particular no panic). -/
theorem C19_no_panic (b : Bytes) : NullTerminated.fromSlice b ≠ .panic := NullTerminated.total b

/-- C19: a string containing NUL never comes back. -/
theorem C19_nul (s t : Bytes) (h0 : 0 ∈ s) (n : Nat) :
    NullTerminated.fromSlice ((NullTerminated.writeTo s).bytes ++ t) ≠ .ok ⟨n, s⟩ := by
  intro h
  obtain ⟨_, _, h', _⟩ := NullTerminated.fromSlice_eq_ok.mp h
  exact h' h0

example : IsUtf8 [0x68, 0x69] ∧ (0 : UInt8) ∉ [0x68, 0x69] :=
  ⟨isUtf8_ascii _ (by decide), by decide⟩
example : IsUtf8 [0xc3, 0xa9] := ⟨['é'], by decide⟩
example : ¬ IsUtf8 [0xff] := by
  rw [← validUtf8_iff]
  decide +kernel

/-! ## C20 -/

/-- C20: the encoder never fails and emits the length modulo `256 ^ sz` followed by the string. -/
theorem C20_encode (e : Endian) (sz : Nat) (s : Bytes) :
    (Varchar.writeTo e sz s).res = .ok () ∧
      (Varchar.writeTo e sz s).bytes = wireInt e sz (s.length % 256 ^ sz) ++ s := by
  refine ⟨rfl, ?_⟩
  rw [Varchar.writeTo_bytes]
  congr 1
  cases e <;> simp [wireInt, natLe_mod, natBe]

example : (Varchar.writeTo .big 2 [0x68, 0x69]).bytes = [0, 2, 0x68, 0x69] :=
  (C20_encode .big 2 [0x68, 0x69]).2

/-- C20: the string round-trips if and only if its length fits the prefix, whatever follows. -/
theorem C20_roundtrip_iff (p : Profile) (e : Endian) {sz : Nat} (hsz : IntSize sz) (s t : Bytes)
    (hs : IsUtf8 s) (hmem : sz + s.length < 2 ^ 64) :
    Varchar.fromSlice p e sz ((Varchar.writeTo e sz s).bytes ++ t) =
        .ok ⟨(Varchar.writeTo e sz s).bytes.length, s⟩ ↔ s.length < 256 ^ sz := by
  have h8 : sz ≤ 8 := by unfold IntSize at hsz; omega
  rw [Varchar.fromSlice_eq_ok h8, Varchar.writeTo_bytes]
  constructor
  · exact fun h => h.2.2.1
  · exact fun h => ⟨(validUtf8_iff s).mpr hs, by simp, h, hmem, t, rfl⟩

example (p : Profile) : Varchar.fromSlice p .little 1 ((Varchar.writeTo .little 1 [0x68]).bytes ++ [9]) =
    .ok ⟨2, [0x68]⟩ :=
  (C20_roundtrip_iff p .little (by decide) [0x68] [9] (isUtf8_ascii _ (by decide)) (by decide)).2
    (by decide)

/-- C20: an input is accepted exactly when it starts with a length prefix and that many bytes of
UTF-8. -/
theorem C20_decode (p : Profile) (e : Endian) {sz : Nat} (hsz : IntSize sz) (b : Bytes) (n : Nat)
    (v : Bytes) :
    Varchar.fromSlice p e sz b = .ok ⟨n, v⟩ ↔
      IsUtf8 v ∧ n = sz + v.length ∧ v.length < 256 ^ sz ∧ sz + v.length < 2 ^ 64 ∧
        ∃ t, b = wireInt e sz v.length ++ v ++ t := by
  rw [Varchar.fromSlice_eq_ok (by unfold IntSize at hsz; omega), validUtf8_iff]

example (p : Profile) : Varchar.fromSlice p .little 1 [1, 0x68, 9] = .ok ⟨2, [0x68]⟩ :=
  (C20_decode p .little (by decide) _ _ _).2
    ⟨isUtf8_ascii _ (by decide), rfl, by decide, by decide, [9], rfl⟩

/-- C20: a string whose prefix announces more bytes than are available panics. -/
theorem C20_short_panics (p : Profile) (e : Endian) {sz n : Nat} (hsz : IntSize sz) (s : Bytes)
    (hn : n < 256 ^ sz) (h : s.length < n) :
    Varchar.fromSlice p e sz (wireInt e sz n ++ s) = .panic := by
  apply Varchar.fromSlice_short
  · simp
  · rw [List.take_append_of_le_length (by simp), List.take_of_length_le (by simp),
      intOfWire_wireInt, Nat.mod_eq_of_lt hn]
    simp; omega
  · unfold IntSize at hsz; omega

example (p : Profile) : Varchar.fromSlice p .little 1 [3, 0x68, 0x69] = .panic :=
  C20_short_panics p .little (n := 3) (by decide) [0x68, 0x69] (by decide) (by decide)

/-- C20: a missing prefix is a truncation error. -/
theorem C20_truncated (p : Profile) (e : Endian) {sz : Nat} (b : Bytes) (h : b.length < sz) :
    Varchar.fromSlice p e sz b = .err .truncated := by
  unfold Varchar.fromSlice
  rw [Scalar.fromSlice_eq, if_neg (by omega)]; rfl

example (p : Profile) : Varchar.fromSlice p .little 2 [3] = .err .truncated :=
  C20_truncated p .little [3] (by decide)

/-- C20: a complete string that is not UTF-8 is an encoding error. -/
theorem C20_invalid (p : Profile) (e : Endian) {sz : Nat} (s t : Bytes)
    (hn : s.length < 256 ^ sz) (hmem : sz + s.length < 2 ^ 64) (hs : ¬ IsUtf8 s) :
    Varchar.fromSlice p e sz (wireInt e sz s.length ++ s ++ t) = .err .invalidUtf8 := by
  unfold Varchar.fromSlice
  rw [List.append_assoc, Scalar.fromSlice_wire e hn]
  simp only [Res.bind_ok]
  rw [addU_ok p (show _ < 2 ^ usizeBits from hmem)]
  simp only [Res.bind_ok]
  rw [slice_ok (by omega) (by simp)]
  simp only [Res.bind_ok]
  have : List.take (sz + s.length - sz) (List.drop sz (wireInt e sz s.length ++ (s ++ t))) = s := by
    rw [List.drop_append_of_le_length (by simp), List.drop_of_length_le (by simp)]
    simp
  rw [this, if_neg (fun h => hs ((validUtf8_iff s).mp h))]

/-- A 256-byte string does not survive a one-byte prefix. -/
example : ¬ Varchar.fromSlice .checked .little 1
    ((Varchar.writeTo .little 1 (List.replicate 256 0x61)).bytes ++ []) =
      .ok ⟨(Varchar.writeTo .little 1 (List.replicate 256 0x61)).bytes.length,
        List.replicate 256 0x61⟩ := by
  rw [C20_roundtrip_iff .checked .little (by decide) _ _
    (isUtf8_ascii _ (by intro b hb; rw [(List.mem_replicate.mp hb).2]; decide))
    (by rw [List.length_replicate]; decide), List.length_replicate]
  decide

/-! ## C21 -/

/-- C21: an absent value is the byte 0; a present one is the byte 1 followed by its encoding, with
the inner encoder's result. -/
theorem C21_encode (w : α → Out) (v : α) :
    (Optional.writeTo w none).bytes = [0] ∧ (Optional.writeTo w none).res = .ok () ∧
      (Optional.writeTo w (some v)).bytes = 1 :: (w v).bytes ∧
      (Optional.writeTo w (some v)).res = (w v).res := by
  refine ⟨rfl, rfl, ?_, rfl⟩
  unfold Optional.writeTo
  rw [Out.andThen_bytes rfl, Out.write_bytes]; rfl

example : (Optional.writeTo (Scalar.writeTo .little 2) (some 513)).bytes = [1, 1, 2] :=
  (C21_encode (Scalar.writeTo .little 2) 513).2.2.1

/-- C21: decoding an encoding returns the same presence and value, one byte larger than the inner
size, for every tail the inner codec tolerates. -/
theorem C21_roundtrip (f : Parser α) (w : α → Out) (o : Option α) (t : Bytes)
    (h : ∀ v, o = some v → f ((w v).bytes ++ t) = .ok ⟨(w v).bytes.length, v⟩) :
    Optional.fromSlice f ((Optional.writeTo w o).bytes ++ t) =
      .ok ⟨(Optional.writeTo w o).bytes.length, o⟩ := by
  cases o with
  | none => exact Optional.fromSlice_none t
  | some v =>
    obtain ⟨_, _, hb, _⟩ := C21_encode w v
    rw [hb, List.cons_append, Optional.fromSlice_some (by decide) (h v rfl)]
    simp

example : Optional.fromSlice (Scalar.fromSlice .little 2)
    ((Optional.writeTo (Scalar.writeTo .little 2) (some 513)).bytes ++ [9]) = .ok ⟨3, some 513⟩ :=
  C21_roundtrip _ _ (some 513) [9] (fun v hv => by
    cases hv
    exact C18_roundtrip .little (by decide) [9])

/-- C21: exact behaviour on every input: empty input is a truncation error, flag 0 is absent, any
other flag delegates to the inner decoder, adding one to its size and passing on its failure. -/
theorem C21_decode (f : Parser α) (x : UInt8) (t : Bytes) :
    Optional.fromSlice f [] = .err .truncated ∧
    Optional.fromSlice f (0 :: t) = .ok ⟨1, none⟩ ∧
    (x ≠ 0 → ∀ m w, f t = .ok ⟨m, w⟩ → Optional.fromSlice f (x :: t) = .ok ⟨m + 1, some w⟩) ∧
    (x ≠ 0 → ∀ e, f t = .err e → Optional.fromSlice f (x :: t) = .err e) ∧
    (x ≠ 0 → f t = .panic → Optional.fromSlice f (x :: t) = .panic) := by
  refine ⟨rfl, Optional.fromSlice_none t, fun hx m w h => Optional.fromSlice_some hx h, ?_, ?_⟩
  · intro hx e h; rw [Optional.fromSlice_cons_ne hx, h]; rfl
  · intro hx h; rw [Optional.fromSlice_cons_ne hx, h]; rfl

example : Optional.fromSlice (Scalar.fromSlice .little 2) [7, 1, 2, 9] = .ok ⟨3, some 0x0201⟩ := by
  decide

/-! ## C29 -/

/-- What a run of an encoder on a growable buffer returns, with the number of bytes appended. -/
def appended (o : Out) (buf : Bytes) : R Nat :=
  match o.run Sink.vec buf with
  | (.ok (), b) => .ok (b.length - buf.length)
  | (.err e, _) => .err e
  | (.panic, _) => .panic

/-- C29: the size query has the same outcome as encoding into a growable buffer, and on success is
the number of bytes appended. -/
theorem C29_size_of (p : Profile) (o : Out) (buf : Bytes) (hmem : o.bytes.length < 2 ^ 64) :
    sizeOf p o = appended o buf := by
  unfold sizeOf appended
  rw [Out.run_counter p o 0 (by omega), Out.run_vec]
  cases o.res with
  | ok u => simp
  | err e => rfl
  | panic => rfl

example (p : Profile) : sizeOf p (Varchar.writeTo .little 2 [1, 2, 3]) =
    appended (Varchar.writeTo .little 2 [1, 2, 3]) [8, 9] :=
  C29_size_of p _ _ (by decide)

/-- C29: encoding into a growable buffer keeps its previous content. -/
theorem C29_appends (o : Out) (buf : Bytes) :
    ∃ t, (o.run Sink.vec buf).2 = buf ++ t ∧ ∀ buf', (o.run Sink.vec buf').2 = buf' ++ t :=
  ⟨o.bytes, by rw [Out.run_vec], fun b => by rw [Out.run_vec]⟩

/-- C29: beyond the address space: in a checked build the size query panics, in a release build the
size is reduced modulo the word. -/
theorem C29_overflow (o : Out) (h : 2 ^ 64 ≤ o.bytes.length) :
    sizeOf .checked o = .panic ∧
      (o.res = .ok () → sizeOf .wrapping o = .ok (o.bytes.length % 2 ^ 64)) := by
  obtain ⟨cs, r⟩ := o
  simp only [Out.bytes] at h ⊢
  have key : ∀ (cs : List Bytes) (n : Nat), n < 2 ^ 64 → 2 ^ 64 ≤ n + cs.flatten.length →
      ((Sink.counter .checked).runChunks r cs n).1 = .panic := by
    intro cs
    induction cs with
    | nil => intro n h1 h2; simp at h2; omega
    | cons c cs ih =>
      intro n h1 h2
      rw [List.flatten_cons, List.length_append] at h2
      unfold Sink.runChunks Sink.counter addU usizeBits
      by_cases h3 : n + c.length < 2 ^ 64
      · simp only [h3, if_true]
        exact ih _ h3 (by omega)
      · simp only [h3, if_false]
  have key2 : ∀ (cs : List Bytes) (n : Nat), n < 2 ^ 64 →
      (Sink.counter .wrapping).runChunks (.ok ()) cs n =
        (.ok (), (n + cs.flatten.length) % 2 ^ 64) := by
    intro cs
    induction cs with
    | nil => intro n h1; simp only [Sink.runChunks, List.flatten_nil, List.length_nil, Nat.add_zero,
        Nat.mod_eq_of_lt h1]
    | cons c cs ih =>
      intro n h1
      unfold Sink.runChunks
      have e : (Sink.counter .wrapping).writeAll c n = (.ok (), (n + c.length) % 2 ^ 64) := by
        unfold Sink.counter addU usizeBits
        by_cases h3 : n + c.length < 2 ^ 64
        · simp only [h3, if_true, Nat.mod_eq_of_lt h3]
        · simp only [h3, if_false]
      rw [e]
      dsimp only
      rw [ih _ (Nat.mod_lt _ (by decide)), List.flatten_cons, List.length_append]
      congr 1
      omega
  constructor
  · unfold sizeOf Out.run
    have := key cs 0 (by decide) (by omega)
    dsimp only at this ⊢
    cases hx : (Sink.counter .checked).runChunks r cs 0 with
    | mk a b => rw [hx] at this; simp only at this; subst this; rfl
  · rintro rfl
    unfold sizeOf Out.run
    dsimp only
    rw [key2 cs 0 (by decide)]
    simp

example (n : Nat) (h : 2 ^ 64 ≤ n) : ∃ o : Out, 2 ^ 64 ≤ o.bytes.length :=
  ⟨⟨[List.replicate n 0], .ok ()⟩, by simpa [Out.bytes] using h⟩

/-! ## C30 -/

/-- C30: a stream that stops accepting after `k` bytes, fewer than the full length: an I/O error, and
the stream holds exactly the first `k` bytes of what a growable buffer would hold. -/
theorem C30_failing (o : Out) (k : Nat) (h : k < (o.run Sink.vec []).2.length) :
    (o.run Sink.limited ⟨[], k⟩).1 = .err .io ∧
      (o.run Sink.limited ⟨[], k⟩).2.received = (o.run Sink.vec []).2.take k := by
  rw [Out.run_vec] at h ⊢
  rw [Out.run_limited_lt o _ (by simpa using h)]
  simp

example : ((Varchar.writeTo .little 2 [1, 2, 3]).run Sink.limited ⟨[], 4⟩).2.received = [3, 0, 1, 2] :=
  (C30_failing (Varchar.writeTo .little 2 [1, 2, 3]) 4 (by decide)).2

/-- C30: with room for everything the outcome and the bytes are those of a growable buffer. -/
theorem C30_enough (o : Out) (k : Nat) (h : (o.run Sink.vec []).2.length ≤ k) :
    (o.run Sink.limited ⟨[], k⟩).1 = (o.run Sink.vec []).1 ∧
      (o.run Sink.limited ⟨[], k⟩).2.received = (o.run Sink.vec []).2 := by
  rw [Out.run_vec] at h ⊢
  rw [Out.run_limited_ge o _ (by simpa using h)]
  simp

example : ((Varchar.writeTo .little 2 [1, 2, 3]).run Sink.limited ⟨[], 5⟩).1 = .ok () :=
  (C30_enough (Varchar.writeTo .little 2 [1, 2, 3]) 5 (by decide)).1

/-- A stream in the sense of `std::io::Write::write_all`: each call delivers a prefix of its argument
to the receiver, all of it when it succeeds, and reports failures as I/O errors. -/
def Stream (S : Sink σ) (received : σ → Bytes) : Prop :=
  ∀ bs s, ∃ n, received (S.writeAll bs s).2 = received s ++ bs.take n ∧
    (((S.writeAll bs s).1 = .ok () ∧ bs.length ≤ n) ∨ (S.writeAll bs s).1 = .err .io)

/-- C30, for every stream: the receiver gets a prefix of the full encoding; either everything arrived
and the result is the encoder's own, or the stream's failure is reported. -/
theorem C30_any_stream (S : Sink σ) (received : σ → Bytes) (hS : Stream S received) (o : Out) (s : σ) :
    ∃ n, received (o.run S s).2 = received s ++ (o.run Sink.vec []).2.take n ∧
      (((o.run S s).1 = (o.run Sink.vec []).1 ∧ (o.run Sink.vec []).2.length ≤ n) ∨
        (o.run S s).1 = .err .io) := by
  rw [Out.run_vec]
  obtain ⟨cs, r⟩ := o
  simp only [Out.run, Out.bytes, List.nil_append]
  induction cs generalizing s with
  | nil => exact ⟨0, by simp [Sink.runChunks], Or.inl ⟨rfl, by simp⟩⟩
  | cons c cs ih =>
    obtain ⟨n, h1, h2⟩ := hS c s
    simp only [Sink.runChunks]
    cases hw : S.writeAll c s with
    | mk res s' =>
      rw [hw] at h1 h2
      simp only at h1 h2
      rcases h2 with ⟨rfl, hn⟩ | rfl
      · obtain ⟨m, g1, g2⟩ := ih s'
        refine ⟨c.length + m, ?_, ?_⟩
        · simp only
          rw [g1, h1, List.take_of_length_le hn, List.flatten_cons, List.take_length_add_append,
            List.append_assoc]
        · rcases g2 with ⟨g2, g3⟩ | g2
          · left; refine ⟨g2, ?_⟩
            simp only [List.flatten_cons, List.length_append]; omega
          · right; exact g2
      · refine ⟨min n c.length, ?_, Or.inr rfl⟩
        simp only
        rw [h1, List.flatten_cons, List.take_append_of_le_length (by omega)]
        congr 1
        rw [List.take_eq_take_min]

/-- The failing stream of the model is such a stream. -/
theorem limited_stream : Stream Sink.limited Limited.received := by
  intro bs s
  by_cases h : bs.length ≤ s.left
  · exact ⟨bs.length, by simp [Sink.limited, h], Or.inl ⟨by simp [Sink.limited, h], Nat.le_refl _⟩⟩
  · exact ⟨s.left, by simp [Sink.limited, h], Or.inr (by simp [Sink.limited, h])⟩

example : ((Varchar.writeTo .little 2 [1, 2, 3]).run Sink.limited ⟨[], 3⟩) =
    (.err .io, ⟨[3, 0, 1], 0⟩) := by decide

end Proto.Props
