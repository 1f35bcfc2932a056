import Verif.Props.Wire

/-!
# C31–C34: lists and arrays
-/

namespace Proto.Props

open Proto

/-- `f` decodes what `w` encodes for the item `v`, whatever follows. -/
def SelfDelimiting (f : Parser α) (w : α → Out) (v : α) : Prop :=
  (w v).res = .ok () ∧ ∀ t, f ((w v).bytes ++ t) = .ok ⟨(w v).bytes.length, v⟩

/-! ## C31 -/

/-- C31: writing items one after the other appends their encodings and counts them. -/
theorem C31_builder (w : α → Out) (l : Seq Bytes) (items : List α)
    (h : ∀ v ∈ items, (w v).res = .ok ()) :
    l.writeItems Sink.vec (items.map w) =
      (.ok (), ⟨l.data ++ items.flatMap (fun v => (w v).bytes), l.len + items.length⟩) := by
  induction items generalizing l with
  | nil => simp [Seq.writeItems]
  | cons v vs ih =>
    have hv := h v (by simp)
    have hw : l.writeItem Sink.vec (w v) = (.ok (), ⟨l.data ++ (w v).bytes, l.len + 1⟩) := by
      simp [Seq.writeItem, Out.run_vec, hv]
    simp only [List.map_cons, Seq.writeItems, hw]
    rw [ih _ (fun x hx => h x (by simp [hx]))]
    simp; omega

example : (Seq.mk [7] 1 : Seq Bytes).writeItems Sink.vec ([1, 513].map (Scalar.writeTo .little 2)) =
    (.ok (), ⟨[7, 1, 0, 1, 2], 3⟩) :=
  C31_builder (Scalar.writeTo .little 2) ⟨[7], 1⟩ [1, 513] (fun _ _ => rfl)

theorem blocks_flatMap {f : Parser α} {w : α → Out} (items : List α)
    (h : ∀ v ∈ items, SelfDelimiting f w v) :
    f.Blocks items (items.flatMap (fun v => (w v).bytes)) := by
  induction items with
  | nil => exact .nil
  | cons v vs ih => exact .cons (h v (by simp)).2 (ih (fun x hx => h x (by simp [hx])))

theorem steps_none (f : Parser α) (d : Bytes) (k : Nat) :
    Lst.steps f k ⟨d, 0⟩ = List.replicate k none := by
  induction k with
  | zero => rfl
  | succ k ih => simp [Lst.steps, Lst.next, List.replicate_succ, ih]

theorem steps_blocks {f : Parser α} {vs : List α} {d : Bytes} (h : f.Blocks vs d) (t : Bytes) (k : Nat) :
    Lst.steps f (vs.length + k) ⟨d ++ t, vs.length⟩ =
      vs.map (fun v => some (.ok v)) ++ List.replicate k none := by
  induction h with
  | nil => simpa using steps_none f t k
  | @cons v vs b d hb _ ih =>
    rw [show (v :: vs).length + k = (vs.length + k) + 1 by simp; omega]
    simp only [Lst.steps]
    rw [Lst.next_blocks hb t]
    simp [ih]

/-- C31: start from an empty list, write self-delimiting items, encode, append anything, decode and
iterate: exactly the items come back, then the end, for ever; the length is their number and the
size that of the encoding. -/
theorem C31_roundtrip (e : Endian) (sz : Nat) (f : Parser α) (w : α → Out) (items : List α) (t : Bytes)
    (hc : f.Cut) (h : ∀ v ∈ items, SelfDelimiting f w v) (hn : items.length < 256 ^ sz) :
    ∃ l m, (Seq.new []).writeItems Sink.vec (items.map w) = (.ok (), l) ∧ l.len = items.length ∧
      (l.writeTo e sz).res = .ok () ∧
      Lst.fromSlice e sz f ((l.writeTo e sz).bytes ++ t) = .ok ⟨(l.writeTo e sz).bytes.length, m⟩ ∧
      m.len = items.length ∧
      ∀ k, Lst.steps f (items.length + k) m =
        items.map (fun v => some (.ok v)) ++ List.replicate k none := by
  have hb := blocks_flatMap items h
  have hbuild := C31_builder w (Seq.new []) items (fun v hv => (h v hv).1)
  simp only [Seq.new, List.nil_append, Nat.zero_add] at hbuild
  refine ⟨⟨items.flatMap (fun v => (w v).bytes), items.length⟩, ⟨_, items.length⟩, hbuild, rfl, rfl,
    (Lst.fromSlice_eq_ok hc).mpr
      ⟨(items.flatMap (fun v => (w v).bytes)).length, ?_, ?_, ?_, ?_, rfl⟩, rfl, ?_⟩
  · simp [Seq.writeTo_bytes]
  · have hw : (wireInt e sz items.length).length = sz := by simp
    rw [Seq.writeTo_bytes, List.append_assoc, List.take_append_of_le_length (Nat.le_of_eq hw.symm),
      List.take_of_length_le (Nat.le_of_eq hw), intOfWire_wireInt, Nat.mod_eq_of_lt hn]
  · rw [Seq.writeTo_bytes, List.append_assoc, List.drop_append_of_le_length (by simp),
      List.drop_of_length_le (by simp), List.nil_append]
    exact Lst.scanR_blocks hb t
  · rw [Seq.writeTo_bytes]; simp only [List.length_append, wireInt_length]; omega
  · intro k
    have : ((wireInt e sz items.length ++ items.flatMap (fun v => (w v).bytes) ++ t).drop sz).take
        (items.flatMap (fun v => (w v).bytes)).length = items.flatMap (fun v => (w v).bytes) ++ [] := by
      rw [List.append_assoc, List.drop_append_of_le_length (by simp),
        List.drop_of_length_le (by simp)]
      simp only [List.nil_append, List.append_nil]
      exact List.take_left
    rw [Seq.writeTo_bytes, this]
    exact steps_blocks hb [] k

/-- The hypotheses hold for length-prefixed items. -/
example : (Parser.Cut (Scalar.fromSlice .little 2)) ∧
    ∀ v ∈ [1, 2, 513], SelfDelimiting (Scalar.fromSlice .little 2) (Scalar.writeTo .little 2) v :=
  ⟨Scalar.cut _ _, fun v hv => ⟨rfl, fun t => by
    have hv' : v < 256 ^ 2 := by
      simp at hv; rcases hv with rfl | rfl | rfl <;> decide
    rw [Scalar.writeTo_bytes, Scalar.fromSlice_wire _ hv']; simp⟩⟩

/-! ## C32 -/

/-- C32: what one item write does, in every case: the item's bytes are appended, the count grows by
one exactly on success, the result is the item's. -/
theorem C32_write_item (l : Seq Bytes) (item : Out) :
    l.writeItem Sink.vec item =
      (item.res, ⟨l.data ++ item.bytes, if item.res = .ok () then l.len + 1 else l.len⟩) := by
  unfold Seq.writeItem
  rw [Out.run_vec]
  cases item.res <;> rfl

example : (Seq.mk [7] 1 : Seq Bytes).writeItem Sink.vec ⟨[[1], [2]], .err .truncated⟩ =
    (.err .truncated, ⟨[7, 1, 2], 1⟩) :=
  C32_write_item ⟨[7], 1⟩ ⟨[[1], [2]], .err .truncated⟩

/-- C32: a failed item write leaves the list unchanged if and only if the item had emitted
nothing.  The full statement (unchanged in every case) is false, see `C32_false`. -/
theorem C32_failed_write (l : Seq Bytes) (item : Out) (h : item.res ≠ .ok ()) :
    (l.writeItem Sink.vec item).2 = l ↔ item.bytes = [] := by
  rw [C32_write_item, if_neg h]
  obtain ⟨d, n⟩ := l
  simp

example : ((Seq.mk [7] 1 : Seq Bytes).writeItem Sink.vec ⟨[[1]], .err .truncated⟩).2 ≠ ⟨[7], 1⟩ :=
  fun h => absurd ((C32_failed_write ⟨[7], 1⟩ ⟨[[1]], .err .truncated⟩ (by decide)).1 h) (by decide)

/-- C32: the full statement fails: a two-field item whose second field fails leaves its first field
behind, and the next item decodes to something else. -/
theorem C32_false : ∃ (bad good : Out) (l l' : Seq Bytes) (e : Error),
    (Seq.new []).writeItem Sink.vec bad = (.err e, l) ∧
    l.writeItem Sink.vec good = (.ok (), l') ∧
    good = Scalar.writeTo .little 1 7 ∧
    Lst.steps (Scalar.fromSlice .little 1) 1 l' = [some (.ok 9)] :=
  ⟨(Scalar.writeTo .little 1 9).andThen (.stop (.err .truncated)), _, _, _, _, rfl, rfl, rfl, by decide⟩

/-- C32: a sequence of writes stops at the first failure; everything written before stays counted. -/
theorem C32_write_items_stop (l : Seq Bytes) (good : List Out) (bad : Out) (rest : List Out)
    (hg : ∀ o ∈ good, o.res = .ok ()) (hb : bad.res ≠ .ok ()) :
    l.writeItems Sink.vec (good ++ bad :: rest) =
      (bad.res, ⟨l.data ++ good.flatMap Out.bytes ++ bad.bytes, l.len + good.length⟩) := by
  induction good generalizing l with
  | nil =>
    simp only [List.nil_append, Seq.writeItems, C32_write_item, if_neg hb]
    cases hr : bad.res with
    | ok u => exact absurd hr hb
    | err e => simp
    | panic => simp
  | cons o os ih =>
    have ho := hg o (by simp)
    simp only [List.cons_append, Seq.writeItems, C32_write_item, ho, if_true]
    rw [ih _ (fun x hx => hg x (by simp [hx]))]
    simp; omega

example : (Seq.mk [] 0 : Seq Bytes).writeItems Sink.vec
    [Scalar.writeTo .little 1 5, ⟨[[9]], .err .truncated⟩, Scalar.writeTo .little 1 6] =
    (.err .truncated, ⟨[5, 9], 1⟩) :=
  C32_write_items_stop ⟨[], 0⟩ [Scalar.writeTo .little 1 5] ⟨[[9]], .err .truncated⟩
    [Scalar.writeTo .little 1 6] (by decide) (by decide)

/-! ## C33 -/

/-- Decoding items one after the other from `b` gives `vs` and leaves `rest`. -/
inductive Chain (f : Parser α) : Bytes → List α → Bytes → Prop where
  | nil (b : Bytes) : Chain f b [] b
  | cons {b rest : Bytes} {m : Nat} {v : α} {vs : List α} :
      f b = .ok ⟨m, v⟩ → Chain f (b.drop m) vs rest → Chain f b (v :: vs) rest

/-- C33, every list, well-formed or not: iteration yields the items that decode in sequence; it then
ends (all items read) or yields the failure of the first bad item for ever. -/
theorem C33_any (f : Parser α) (hc : f.Cut) (it : Seq Bytes) :
    ∃ vs rest stop, Chain f it.data vs rest ∧ vs.length ≤ it.len ∧
      (vs.length = it.len → stop = none) ∧
      (vs.length < it.len → (∃ e, f rest = .err e ∧ stop = some (.err e)) ∨
        (f rest = .panic ∧ stop = some .panic)) ∧
      ∀ n, Lst.steps f n it =
        (vs.map (fun v => some (.ok v))).take n ++ List.replicate (n - vs.length) stop := by
  obtain ⟨d, len⟩ := it
  induction len generalizing d with
  | zero =>
    exact ⟨[], d, none, .nil d, Nat.le_refl _, fun _ => rfl, fun h => absurd h (by simp), fun n => by
      simpa using steps_none f d n⟩
  | succ len ih =>
    have stuck : ∀ s, Lst.next f ⟨d, len + 1⟩ = (s, ⟨d, len + 1⟩) →
        ∀ n, Lst.steps f n ⟨d, len + 1⟩ = List.replicate n s := by
      intro s hs n
      induction n with
      | zero => rfl
      | succ n ihn => rw [Lst.steps, hs]; simp only [ihn]; rfl
    cases hf : f d with
    | err e =>
      refine ⟨[], d, some (.err e), .nil d, by simp, fun h => absurd h (by simp),
        fun _ => .inl ⟨e, hf, rfl⟩, fun n => ?_⟩
      simpa using stuck _ (by simp [Lst.next, hf]) n
    | panic =>
      refine ⟨[], d, some .panic, .nil d, by simp, fun h => absurd h (by simp),
        fun _ => .inr ⟨hf, rfl⟩, fun n => ?_⟩
      simpa using stuck _ (by simp [Lst.next, hf]) n
    | ok msg =>
      obtain ⟨m, v⟩ := msg
      have hm := (hc _ _ _ hf).1
      obtain ⟨vs, rest, stop, h1, h2, h3, h4, h5⟩ := ih (d.drop m)
      refine ⟨v :: vs, rest, stop, .cons hf h1, by simpa using h2, fun h => h3 (by simpa using h),
        fun h => h4 (by simpa using h), fun n => ?_⟩
      cases n with
      | zero => simp [Lst.steps]
      | succ n =>
        have : Lst.next f ⟨d, len + 1⟩ = (some (.ok v), ⟨d.drop m, len⟩) := by
          simp [Lst.next, hf, dropFrom_ok hm]
        rw [Lst.steps, this]
        simp [h5 n]

theorem chain_of_scanR {f : Parser α} {n : Nat} {b : Bytes} {k : Nat} (h : Lst.scanR f n b = .ok k) :
    ∃ vs, vs.length = n ∧ Chain f b vs (b.drop k) := by
  induction n generalizing b k with
  | zero => cases h; exact ⟨[], rfl, by simpa using Chain.nil b⟩
  | succ n ih =>
    obtain ⟨m, v, j, hf, hs, rfl⟩ := Lst.scanR_succ_eq_ok.mp h
    obtain ⟨vs, hl, hch⟩ := ih hs
    exact ⟨v :: vs, by simp [hl], .cons hf (by rwa [List.drop_drop] at hch)⟩

theorem chain_steps {f : Parser α} (hc : f.Cut) {b rest : Bytes} {vs : List α} (h : Chain f b vs rest)
    (k : Nat) : Lst.steps f (vs.length + k) ⟨b, vs.length⟩ =
      vs.map (fun v => some (.ok v)) ++ List.replicate k none := by
  induction h with
  | nil b => simpa using steps_none f b k
  | @cons b rest m v vs hf _ ih =>
    have : Lst.next f ⟨b, vs.length + 1⟩ = (some (.ok v), ⟨b.drop m, vs.length⟩) := by
      simp [Lst.next, hf, dropFrom_ok (hc _ _ _ hf).1]
    rw [show (v :: vs).length + k = (vs.length + k) + 1 by simp; omega, Lst.steps, List.length_cons,
      this]
    simp [ih]

/-- C33: a list decoded with its items checked iterates over exactly `len` items, all successful, and
then ends for ever.  The items are those found one after the other behind the count in the input. -/
theorem C33_decoded (e : Endian) (sz : Nat) (f : Parser α) (hc : f.Cut) (b : Bytes) (n : Nat)
    (l : Seq Bytes) (h : Lst.fromSlice e sz f b = .ok ⟨n, l⟩) :
    l.len = intOfWire e (b.take sz) ∧
    ∃ vs, vs.length = l.len ∧ Chain f (b.drop sz) vs (b.drop n) ∧
      ∀ k, Lst.steps f (l.len + k) l =
        vs.map (fun v => some (.ok v)) ++ List.replicate k none := by
  obtain ⟨k, hsz, hlen, hs, rfl, hd⟩ := (Lst.fromSlice_eq_ok hc).mp h
  obtain ⟨vs, hl, hch⟩ := chain_of_scanR hs
  refine ⟨hlen, vs, hl, by rwa [List.drop_drop, Nat.add_comm] at hch, fun j => ?_⟩
  obtain ⟨vs', hl', hch'⟩ := chain_of_scanR (Lst.scanR_take hc hs (Nat.le_refl k))
  have hst := chain_steps hc hch' j
  have heq : vs' = vs := by
    clear hst
    have hle := Lst.scanR_le hc hs
    clear hlen hd h hsz
    generalize b.drop sz = d at *
    generalize hk' : (d.take k).drop k = r' at *
    generalize d.drop k = r at *
    have key : ∀ (vs : List α) (d r : Bytes), Chain f d vs r → ∀ (k : Nat) (r' : Bytes) (vs' : List α),
        Lst.scanR f vs.length d = .ok k → Chain f (d.take k) vs' r' → vs'.length = vs.length →
        vs' = vs := by
      intro vs d r hch
      induction hch with
      | nil b => intro k r' vs' _ _ hl; exact List.length_eq_zero_iff.mp hl
      | @cons b rest m v vs hf hch ih =>
        intro k r' vs' hs hch' hl'
        cases hch' with
        | nil => simp at hl'
        | @cons _ _ m' v' vs' hf' hch' =>
          obtain ⟨m1, v1, j, hf1, hj, rfl⟩ := Lst.scanR_succ_eq_ok.mp hs
          rw [hf] at hf1; cases hf1
          have := (hc _ _ _ hf).2 (m + j) (by omega)
          rw [this] at hf'; cases hf'
          rw [List.drop_take, Nat.add_sub_cancel_left] at hch'
          rw [ih j _ _ hj hch' (by simpa using hl')]
    exact key vs d r hch k r' vs' (by rw [hl]; exact hs) hch' (by rw [hl, hl'])
  rw [heq, hl] at hst
  rw [← hst, ← hd]

/-- A list with a malformed second item repeats the error for ever. -/
example (n : Nat) : Lst.steps NullTerminated.fromSlice (n + 1) ⟨[0x61, 0, 0x62], 2⟩ =
    some (.ok [0x61]) :: List.replicate n (some (.err .truncated)) := by
  have h1 : NullTerminated.fromSlice [0x61, 0, 0x62] = .ok ⟨2, [0x61]⟩ :=
    (C19_decode_ok _ _ _).mpr ⟨[0x62], rfl, by decide, isUtf8_ascii _ (by decide), rfl⟩
  have h2 : NullTerminated.fromSlice [0x62] = .err .truncated := (C19_truncated _).mpr (by decide)
  rw [Lst.steps]
  rw [show Lst.next NullTerminated.fromSlice ⟨[0x61, 0, 0x62], 2⟩ = (some (.ok [0x61]), ⟨[0x62], 1⟩) by
    simp only [Lst.next, h1]; rfl]
  congr 1
  induction n with
  | zero => rfl
  | succ n ih => simpa [Lst.steps, Lst.next, h2, List.replicate_succ] using ih

/-! ## C34 -/

/-- C34: decoding an array on any input whose announced total fits the machine word. -/
theorem C34_decode (p : Profile) (e : Endian) (sz isz : Nat) (b : Bytes)
    (hfit : sz + intOfWire e (b.take sz) * isz < 2 ^ 64) :
    Arr.fromSlice p e sz isz b =
      if b.length < sz then .err .truncated
      else if b.length < sz + intOfWire e (b.take sz) * isz then .err .truncated
      else .ok ⟨sz + intOfWire e (b.take sz) * isz,
        ⟨(b.drop sz).take (intOfWire e (b.take sz) * isz), intOfWire e (b.take sz)⟩⟩ := by
  unfold Arr.fromSlice
  rw [Scalar.fromSlice_eq]
  by_cases h : sz ≤ b.length
  · rw [if_pos h, if_neg (by omega)]
    simp only [Res.bind_ok]
    rw [mulU_ok p (show _ < 2 ^ usizeBits by unfold usizeBits; omega)]
    simp only [Res.bind_ok]
    rw [addU_ok p (show _ < 2 ^ usizeBits from hfit)]
    simp only [Res.bind_ok]
    split
    · rfl
    · rw [slice_ok (by omega) (by omega), Nat.add_sub_cancel_left]; rfl
  · rw [if_neg h, if_pos (by omega)]; rfl

example (p : Profile) : Arr.fromSlice p .little 1 2 [2, 1, 2, 3, 4, 9] = .ok ⟨5, ⟨[1, 2, 3, 4], 2⟩⟩ :=
  C34_decode p .little 1 2 [2, 1, 2, 3, 4, 9] (by decide)

/-- C34: when the announced total does not fit the machine word, decoding panics with overflow
checks. -/
theorem C34_overflow_checked (e : Endian) (sz isz : Nat) (b : Bytes) (h : sz ≤ b.length)
    (hbig : 2 ^ 64 ≤ sz + intOfWire e (b.take sz) * isz) :
    Arr.fromSlice .checked e sz isz b = .panic := by
  unfold Arr.fromSlice
  rw [Scalar.fromSlice_eq, if_pos h]
  simp only [Res.bind_ok]
  by_cases hm : intOfWire e (b.take sz) * isz < 2 ^ 64
  · rw [mulU_ok .checked (show _ < 2 ^ usizeBits from hm)]
    simp only [Res.bind_ok]
    have : (addU .checked usizeBits sz (intOfWire e (b.take sz) * isz) : R Nat) = .panic := by
      unfold addU; rw [if_neg (by unfold usizeBits; omega)]
    rw [this]; rfl
  · have : (mulU .checked usizeBits (intOfWire e (b.take sz)) isz : R Nat) = .panic := by
      unfold mulU; rw [if_neg (by unfold usizeBits; omega)]
    rw [this]; rfl

/-- C34: without overflow checks such an input can be accepted as an array that announces more items
than it has bytes. -/
example : Arr.fromSlice .wrapping .little 8 8 [0, 0, 0, 0, 0, 0, 0, 0x20] =
    .ok ⟨8, ⟨[], 2 ^ 61⟩⟩ := by decide

/-- C34: item `i` is block `i`. -/
theorem C34_get (p : Profile) (isz : Nat) (a : Seq Bytes) (i : Nat)
    (ha : a.data.length = a.len * isz) (hmem : a.data.length < 2 ^ 64) (hi : i < a.len) :
    Arr.get p isz a i = .ok ((a.data.drop (i * isz)).take isz) := by
  have h1 : (i + 1) * isz ≤ a.len * isz := Nat.mul_le_mul_right _ hi
  rw [Nat.add_mul, Nat.one_mul] at h1
  unfold Arr.get Arr.range
  rw [mulU_ok p (show _ < 2 ^ usizeBits by unfold usizeBits; omega)]
  simp only [Res.bind_ok]
  rw [addU_ok p (show _ < 2 ^ usizeBits by unfold usizeBits; omega)]
  simp only [Res.bind_ok, Res.pure_eq]
  rw [slice_ok (by omega) (by omega), Nat.add_sub_cancel_left]

example (p : Profile) : Arr.get p 2 ⟨[1, 2, 3, 4], 2⟩ 1 = .ok [3, 4] :=
  C34_get p 2 ⟨[1, 2, 3, 4], 2⟩ 1 (by decide) (by decide) (by decide)

/-- C34: an index past the end panics. -/
theorem C34_get_out (p : Profile) (isz : Nat) (a : Seq Bytes) (i : Nat) (hz : 0 < isz)
    (ha : a.data.length = a.len * isz) (hi : a.len ≤ i) (hfit : (i + 1) * isz < 2 ^ 64) :
    Arr.get p isz a i = .panic := by
  have h1 : a.len * isz ≤ i * isz := Nat.mul_le_mul_right _ hi
  rw [Nat.add_mul, Nat.one_mul] at hfit
  unfold Arr.get Arr.range
  rw [mulU_ok p (show _ < 2 ^ usizeBits by unfold usizeBits; omega)]
  simp only [Res.bind_ok]
  rw [addU_ok p (show _ < 2 ^ usizeBits by unfold usizeBits; omega)]
  simp only [Res.bind_ok, Res.pure_eq]
  unfold slice
  rw [if_neg (by omega)]

example (p : Profile) : Arr.get p 2 ⟨[1, 2, 3, 4], 2⟩ 2 = .panic :=
  C34_get_out p 2 ⟨[1, 2, 3, 4], 2⟩ 2 (by decide) (by decide) (by decide) (by decide)

/-- C34: iteration yields exactly `len` items, equal to the indexed ones. -/
theorem C34_iter (p : Profile) (isz : Nat) (a : Seq Bytes) (hz : 0 < isz)
    (ha : a.data.length = a.len * isz) (hmem : a.data.length < 2 ^ 64) :
    ∃ items, Arr.iter isz a = .ok items ∧ items.length = a.len ∧
      ∀ i, (h : i < items.length) → Arr.get p isz a i = .ok items[i] := by
  have hle : a.len ≤ a.data.length := by
    rw [ha]; exact Nat.le_mul_of_pos_right _ hz
  refine ⟨(List.range a.len).map (fun i => (a.data.drop (i * isz)).take isz), ?_, by simp, ?_⟩
  · unfold Arr.iter ArrayCodec.chunks
    rw [if_neg (by omega), ArrayCodec.chunksAux_eq hz a.len _ _ ha hle]
  · intro i hi
    have hi' : i < a.len := by simpa using hi
    rw [C34_get p isz a i ha hmem hi']
    simp

example (p : Profile) : ∃ items, Arr.iter 2 ⟨[1, 2, 3, 4], 2⟩ = .ok items ∧ items.length = 2 ∧
    ∀ i, (h : i < items.length) → Arr.get p 2 ⟨[1, 2, 3, 4], 2⟩ i = .ok items[i] :=
  C34_iter p 2 ⟨[1, 2, 3, 4], 2⟩ (by decide) (by decide) (by decide)

/-- C34: building from parts succeeds exactly when the data has the announced length. -/
theorem C34_from_parts (p : Profile) (isz : Nat) (data : Bytes) (len : Nat)
    (hfit : len * isz < 2 ^ 64) :
    Arr.fromParts p isz data len =
      .ok (if data.length = len * isz then some ⟨data, len⟩ else none) := by
  unfold Arr.fromParts
  rw [mulU_ok p (show _ < 2 ^ usizeBits from hfit)]; rfl

example (p : Profile) : Arr.fromParts p 2 [1, 2, 3] 2 = .ok none :=
  C34_from_parts p 2 [1, 2, 3] 2 (by decide)

/-- C34: changing item `i` in place changes that item as the caller did, and no other. -/
theorem C34_modify (p : Profile) (isz : Nat) (a : Seq Bytes) (i : Nat) (g : Bytes → Bytes)
    (ha : a.data.length = a.len * isz) (hmem : a.data.length < 2 ^ 64) (hi : i < a.len)
    (hg : ∀ s, (g s).length = s.length) :
    ∃ a' old, Arr.get p isz a i = .ok old ∧ Arr.modify p isz a i g = .ok a' ∧ a'.len = a.len ∧
      a'.data.length = a.data.length ∧ Arr.get p isz a' i = .ok (g old) ∧
      ∀ j, j < a.len → j ≠ i → Arr.get p isz a' j = Arr.get p isz a j := by
  have h1 : (i + 1) * isz ≤ a.len * isz := Nat.mul_le_mul_right _ hi
  rw [Nat.add_mul, Nat.one_mul] at h1
  have hol : ((a.data.drop (i * isz)).take isz).length = isz := by simp; omega
  have hgl : (g ((a.data.drop (i * isz)).take isz)).length = isz := by rw [hg, hol]
  have hsl := splice_length (l := a.data) (a := i * isz)
    (s := g ((a.data.drop (i * isz)).take isz)) (by omega)
  refine ⟨⟨splice a.data (i * isz) (g ((a.data.drop (i * isz)).take isz)), a.len⟩, _,
    C34_get p isz a i ha hmem hi, ?_, rfl, hsl, ?_, ?_⟩
  · unfold Arr.modify Arr.range
    rw [mulU_ok p (show _ < 2 ^ usizeBits by unfold usizeBits; omega)]
    simp only [Res.bind_ok]
    rw [addU_ok p (show _ < 2 ^ usizeBits by unfold usizeBits; omega)]
    simp only [Res.bind_ok, Res.pure_eq]
    rw [slice_ok (by omega) (by omega), Nat.add_sub_cancel_left]
    rfl
  · rw [C34_get p isz ⟨splice a.data (i * isz) (g ((a.data.drop (i * isz)).take isz)), a.len⟩ i
      (by rw [hsl]; exact ha) (by rw [hsl]; exact hmem) hi]
    have := ArrayCodec.splice_window_same (l := a.data) (s := g ((a.data.drop (i * isz)).take isz))
      (a := i * isz) (by omega)
    rw [hgl] at this
    simp only [this]
  · intro j hj hne
    rw [C34_get p isz ⟨splice a.data (i * isz) (g ((a.data.drop (i * isz)).take isz)), a.len⟩ j
      (by rw [hsl]; exact ha) (by rw [hsl]; exact hmem) hj,
      C34_get p isz a j ha hmem hj]
    rw [ArrayCodec.splice_window_other (by omega)]
    rcases Nat.lt_or_gt_of_ne hne with h | h
    · left
      have := Nat.mul_le_mul_right isz (show j + 1 ≤ i from h)
      rw [Nat.add_mul, Nat.one_mul] at this; omega
    · right
      have := Nat.mul_le_mul_right isz (show i + 1 ≤ j from h)
      rw [Nat.add_mul, Nat.one_mul] at this; omega

example (p : Profile) : ∃ a' old, Arr.get p 2 ⟨[1, 2, 3, 4], 2⟩ 1 = .ok old ∧
    Arr.modify p 2 ⟨[1, 2, 3, 4], 2⟩ 1 List.reverse = .ok a' ∧ Arr.get p 2 a' 1 = .ok old.reverse :=
  let ⟨a, o, h1, h2, _, _, h3, _⟩ := C34_modify p 2 ⟨[1, 2, 3, 4], 2⟩ 1 List.reverse (by decide)
    (by decide) (by decide) (by simp)
  ⟨a, o, h1, h2, h3⟩

/-- C34: a decoded array is well-formed, so the accessors above apply to it; encoding it again gives
the bytes it was decoded from. -/
theorem C34_decoded (p : Profile) (e : Endian) (sz isz : Nat) (b : Bytes) (n : Nat) (a : Seq Bytes)
    (hfit : sz + intOfWire e (b.take sz) * isz < 2 ^ 64) (h : Arr.fromSlice p e sz isz b = .ok ⟨n, a⟩) :
    a.data.length = a.len * isz ∧ n = sz + a.len * isz ∧ (a.writeTo e sz).bytes = b.take n := by
  rw [C34_decode p e sz isz b hfit] at h
  split at h
  · cases h
  · split at h
    · cases h
    · cases h
      refine ⟨by simp; omega, rfl, ?_⟩
      rw [Seq.writeTo_bytes, List.take_add]
      congr 1
      have hl : (b.take sz).length = sz := by simp; omega
      have := wireInt_intOfWire e (b.take sz); rwa [hl] at this

example : Arr.fromSlice .checked .little 1 2 [2, 1, 2, 3, 4, 9] = .ok ⟨5, ⟨[1, 2, 3, 4], 2⟩⟩ := by
  decide
example : Arr.get .checked 2 ⟨[1, 2, 3, 4], 2⟩ 1 = .ok [3, 4] := by decide

end Proto.Props
