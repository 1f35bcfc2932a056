import Verif.Runtime.MessageLemmas

/-! # Laws of sinks, lists and arrays -/

namespace Proto

/-! ## Sinks -/

theorem Out.run_vec (o : Out) (s : Bytes) : o.run Sink.vec s = (o.res, s ++ o.bytes) := by
  obtain ⟨cs, r⟩ := o
  simp only [Out.run, Out.bytes]
  induction cs generalizing s with
  | nil => simp [Sink.runChunks]
  | cons c cs ih => simp [Sink.runChunks, Sink.vec] at ih ⊢; simpa using ih (s ++ c)

theorem Out.run_counter (p : Profile) (o : Out) (n : Nat) (h : n + o.bytes.length < 2 ^ 64) :
    o.run (Sink.counter p) n = (o.res, n + o.bytes.length) := by
  obtain ⟨cs, r⟩ := o
  simp only [Out.run, Out.bytes] at h ⊢
  induction cs generalizing n with
  | nil => simp [Sink.runChunks]
  | cons c cs ih =>
    simp only [List.flatten_cons, List.length_append] at h
    have e : (addU p usizeBits n c.length : R Nat) = .ok (n + c.length) :=
      addU_ok p (show n + c.length < 2 ^ usizeBits by unfold usizeBits; omega)
    have e2 : (Sink.counter p).writeAll c n = (.ok (), n + c.length) := by
      simp only [Sink.counter, e]
    simp only [Sink.runChunks, e2]
    rw [ih (n + c.length) (by omega)]
    simp [Nat.add_assoc]

theorem Out.run_limited_ge (o : Out) (s : Limited) (h : o.bytes.length ≤ s.left) :
    o.run Sink.limited s = (o.res, ⟨s.received ++ o.bytes, s.left - o.bytes.length⟩) := by
  obtain ⟨cs, r⟩ := o
  simp only [Out.run, Out.bytes] at h ⊢
  induction cs generalizing s with
  | nil => simp [Sink.runChunks]
  | cons c cs ih =>
    simp only [List.flatten_cons, List.length_append] at h
    have e2 : Sink.limited.writeAll c s = (.ok (), ⟨s.received ++ c, s.left - c.length⟩) := by
      simp only [Sink.limited]; rw [if_pos (by omega)]
    simp only [Sink.runChunks, e2]
    rw [ih _ (by simp only; omega)]
    simp [Nat.sub_sub]

theorem Out.run_limited_lt (o : Out) (s : Limited) (h : s.left < o.bytes.length) :
    o.run Sink.limited s = (.err .io, ⟨s.received ++ o.bytes.take s.left, 0⟩) := by
  obtain ⟨cs, r⟩ := o
  simp only [Out.run, Out.bytes] at h ⊢
  induction cs generalizing s with
  | nil => simp at h
  | cons c cs ih =>
    simp only [List.flatten_cons, List.length_append] at h
    by_cases hc : c.length ≤ s.left
    · have e2 : Sink.limited.writeAll c s = (.ok (), ⟨s.received ++ c, s.left - c.length⟩) := by
        simp only [Sink.limited]; rw [if_pos hc]
      simp only [Sink.runChunks, e2]
      rw [ih _ (by simp only; omega)]
      simp only [List.flatten_cons, List.append_assoc, Prod.mk.injEq, Limited.mk.injEq, and_true,
        true_and]
      rw [List.take_append, List.take_of_length_le hc]
    · have e2 : Sink.limited.writeAll c s = (.err .io, ⟨s.received ++ c.take s.left, 0⟩) := by
        simp only [Sink.limited]; rw [if_neg hc]
      simp only [Sink.runChunks, e2]
      rw [List.flatten_cons, List.take_append_of_le_length (by omega)]

/-! ## Scanning -/

namespace Lst

/-- The loop of `List::from_slice` seen from the current position (proof device). -/
def scanR (f : Parser α) : Nat → Bytes → R Nat
  | 0, _ => .ok 0
  | n + 1, b =>
    match f b with
    | .ok m =>
      match scanR f n (b.drop m.size) with
      | .ok k => .ok (m.size + k)
      | .err e => .err e
      | .panic => .panic
    | .err e => .err e
    | .panic => .panic

variable {f : Parser α}

theorem scan_eq_scanR (hc : f.Cut) (data : Bytes) (n total : Nat) (h : total ≤ data.length) :
    scan f data n total = (scanR f n (data.drop total)).bind (fun k => .ok (total + k)) := by
  induction n generalizing total with
  | zero => rfl
  | succ n ih =>
    simp only [scan, dropFrom_ok h, Res.bind_ok, scanR]
    cases hf : f (data.drop total) with
    | err e => rfl
    | panic => rfl
    | ok m =>
      have hle := (hc _ _ _ hf).1
      simp only [Res.bind_ok]
      rw [ih _ (by simp at hle; omega), List.drop_drop]
      cases scanR f n (data.drop (total + m.size)) with
      | err e => rfl
      | panic => rfl
      | ok k => simp [Res.bind, Nat.add_assoc]

theorem scanR_succ_eq_ok {n : Nat} {b : Bytes} {k : Nat} :
    scanR f (n + 1) b = .ok k ↔
      ∃ m v j, f b = .ok ⟨m, v⟩ ∧ scanR f n (b.drop m) = .ok j ∧ k = m + j := by
  simp only [scanR]
  cases hf : f b with
  | err e => simp
  | panic => simp
  | ok m =>
    obtain ⟨m, v⟩ := m
    simp only
    cases hs : scanR f n (b.drop m) with
    | err e =>
      simp only [reduceCtorEq, false_iff]
      rintro ⟨m', v', j, h, hj, _⟩; cases h; rw [hs] at hj; cases hj
    | panic =>
      simp only [reduceCtorEq, false_iff]
      rintro ⟨m', v', j, h, hj, _⟩; cases h; rw [hs] at hj; cases hj
    | ok j =>
      constructor
      · intro h; cases h; exact ⟨m, v, j, rfl, hs, rfl⟩
      · rintro ⟨m', v', j', h, hj, rfl⟩; cases h; rw [hs] at hj; cases hj; rfl

theorem scanR_le (hc : f.Cut) {n : Nat} {b : Bytes} {k : Nat} (h : scanR f n b = .ok k) :
    k ≤ b.length := by
  induction n generalizing b k with
  | zero => cases h; omega
  | succ n ih =>
    obtain ⟨m, v, j, hf, hj, rfl⟩ := scanR_succ_eq_ok.mp h
    have h1 := (hc _ _ _ hf).1
    have h2 := ih hj
    simp at h2; omega

theorem scanR_take (hc : f.Cut) {n : Nat} {b : Bytes} {k : Nat} (h : scanR f n b = .ok k) {j : Nat}
    (hj : k ≤ j) : scanR f n (b.take j) = .ok k := by
  induction n generalizing b k j with
  | zero => exact h
  | succ n ih =>
    obtain ⟨m, v, i, hf, hi, rfl⟩ := scanR_succ_eq_ok.mp h
    refine scanR_succ_eq_ok.mpr ⟨m, v, i, (hc _ _ _ hf).2 j (by omega), ?_, rfl⟩
    rw [List.drop_take]
    exact ih hi (by omega)

theorem scanR_append (hd : f.Delimits) (hc : f.Cut) {n : Nat} {b : Bytes} {k : Nat}
    (h : scanR f n b = .ok k) (t : Bytes) : scanR f n (b ++ t) = .ok k := by
  induction n generalizing b k with
  | zero => exact h
  | succ n ih =>
    obtain ⟨m, v, i, hf, hi, rfl⟩ := scanR_succ_eq_ok.mp h
    refine scanR_succ_eq_ok.mpr ⟨m, v, i, hd _ _ _ hf t, ?_, rfl⟩
    rw [List.drop_append_of_le_length (hc _ _ _ hf).1]
    exact ih hi

theorem scanR_insensitive (hi : f.Insensitive) {n : Nat} {b : Bytes} {k : Nat}
    (h : scanR f n b = .ok k) (hk : k < b.length) (t : Bytes) :
    scanR f n (b.take k ++ t) = .ok k := by
  induction n generalizing b k with
  | zero => exact h
  | succ n ih =>
    obtain ⟨m, v, i, hf, hs, rfl⟩ := scanR_succ_eq_ok.mp h
    have e : b.take (m + i) = b.take m ++ (b.drop m).take i := by rw [List.take_add]
    rw [e, List.append_assoc]
    refine scanR_succ_eq_ok.mpr ⟨m, v, i, hi _ _ _ hf (by omega) _, ?_, rfl⟩
    have hl : (b.take m).length = m := by simp; omega
    rw [List.drop_append_of_le_length (by omega), List.drop_of_length_le (by omega), List.nil_append]
    exact ih hs (by simp; omega)

theorem scanR_truncates {pan : Prop} (ht : f.Truncates pan) (hc : f.Cut) {n : Nat} {b : Bytes}
    {k : Nat} (h : scanR f n b = .ok k) {j : Nat} (hj : j < k) :
    scanR f n (b.take j) = .err .truncated ∨ (pan ∧ scanR f n (b.take j) = .panic) := by
  induction n generalizing b k j with
  | zero => cases h; omega
  | succ n ih =>
    obtain ⟨m, v, i, hf, hs, rfl⟩ := scanR_succ_eq_ok.mp h
    by_cases hm : m ≤ j
    · have e := (hc _ _ _ hf).2 j hm
      simp only [scanR, e]
      rw [List.drop_take]
      rcases ih hs (j := j - m) (by omega) with h' | ⟨hp, h'⟩
      · left; rw [h']
      · right; rw [h']; exact ⟨hp, rfl⟩
    · rcases ht _ _ _ hf j (by omega) with h' | ⟨hp, h'⟩
      · left; simp only [scanR, h']
      · right; simp only [scanR, h']; exact ⟨hp, trivial⟩

theorem scanR_total (ht : f.Total) {n : Nat} {b : Bytes} : scanR f n b ≠ .panic := by
  induction n generalizing b with
  | zero => simp [scanR]
  | succ n ih =>
    simp only [scanR]
    cases hf : f b with
    | err e => simp
    | panic => exact absurd hf (ht b)
    | ok m =>
      simp only
      have := ih (b := b.drop m.size)
      cases hs : scanR f n (b.drop m.size) with
      | err e => simp
      | panic => exact absurd hs this
      | ok k => simp

/-- `List::from_slice` in terms of the relative scan. -/
theorem fromSlice_eq (hc : f.Cut) (e : Endian) (sz : Nat) (b : Bytes) :
    fromSlice e sz f b =
      if sz ≤ b.length then
        (scanR f (intOfWire e (b.take sz)) (b.drop sz)).bind fun k =>
          .ok ⟨k + sz, ⟨(b.drop sz).take k, intOfWire e (b.take sz)⟩⟩
      else .err .truncated := by
  unfold fromSlice
  rw [Scalar.fromSlice_eq]
  split
  · next h =>
    simp only [Res.bind_ok, dropFrom_ok h]
    rw [scan_eq_scanR hc _ _ _ (Nat.zero_le _), List.drop_zero]
    cases hs : scanR f (intOfWire e (b.take sz)) (b.drop sz) with
    | err e => rfl
    | panic => rfl
    | ok k =>
      have hk := scanR_le hc hs
      simp only [Res.bind, Res.bind_ok, Nat.zero_add]
      rw [slice_ok (by omega) (by simp at hk; omega)]
      simp
  · rfl

theorem fromSlice_eq_ok (hc : f.Cut) {e : Endian} {sz : Nat} {b : Bytes} {n : Nat}
    {l : Seq Bytes} :
    fromSlice e sz f b = .ok ⟨n, l⟩ ↔
      ∃ k, sz ≤ b.length ∧ l.len = intOfWire e (b.take sz) ∧ scanR f l.len (b.drop sz) = .ok k ∧
        n = k + sz ∧ l.data = (b.drop sz).take k := by
  rw [fromSlice_eq hc]
  obtain ⟨d, len⟩ := l
  constructor
  · intro h
    split at h
    · next hsz =>
      obtain ⟨k, hk, h⟩ := Res.bind_eq_ok.mp h
      simp only [Res.ok.injEq, Msg.mk.injEq, Seq.mk.injEq] at h
      obtain ⟨rfl, rfl, rfl⟩ := h
      exact ⟨k, hsz, rfl, hk, rfl, rfl⟩
    · cases h
  · rintro ⟨k, hsz, hlen, hk, rfl, hd⟩
    simp only at hlen hk hd
    subst hlen hd
    rw [if_pos hsz, hk]; rfl

theorem cut (hc : f.Cut) (e : Endian) (sz : Nat) : (fromSlice e sz f).Cut := by
  intro b n l h
  obtain ⟨k, hsz, hlen, hk, rfl, hd⟩ := (fromSlice_eq_ok hc).mp h
  have hle := scanR_le hc hk
  simp at hle
  refine ⟨by omega, fun j hj => (fromSlice_eq_ok hc).mpr ⟨k, by simp; omega, ?_, ?_, rfl, ?_⟩⟩
  · rw [List.take_take, Nat.min_eq_left (by omega)]; exact hlen
  · rw [List.drop_take]; exact scanR_take hc hk (by omega)
  · rw [List.drop_take, List.take_take, Nat.min_eq_left (by omega)]; exact hd

theorem delimits (hc : f.Cut) (hd : f.Delimits) (e : Endian) (sz : Nat) :
    (fromSlice e sz f).Delimits := by
  intro b n l h t
  obtain ⟨k, hsz, hlen, hk, rfl, hdat⟩ := (fromSlice_eq_ok hc).mp h
  have hle := scanR_le hc hk
  refine (fromSlice_eq_ok hc).mpr ⟨k, by simp; omega, ?_, ?_, rfl, ?_⟩
  · rw [List.take_append_of_le_length hsz]; exact hlen
  · rw [List.drop_append_of_le_length hsz]; exact scanR_append hd hc hk t
  · rw [List.drop_append_of_le_length hsz, List.take_append_of_le_length hle]; exact hdat

theorem insensitive (hc : f.Cut) (hi : f.Insensitive) (e : Endian) (sz : Nat) :
    (fromSlice e sz f).Insensitive := by
  intro b n l h hn t
  obtain ⟨k, hsz, hlen, hk, rfl, hdat⟩ := (fromSlice_eq_ok hc).mp h
  have e1 : b.take (k + sz) = b.take sz ++ (b.drop sz).take k := by
    rw [Nat.add_comm, List.take_add]
  have hl : (b.take sz).length = sz := by simp; omega
  rw [e1, List.append_assoc]
  refine (fromSlice_eq_ok hc).mpr ⟨k, by simp; omega, ?_, ?_, rfl, ?_⟩
  · rw [List.take_append_of_le_length (by omega), List.take_take, Nat.min_self]; exact hlen
  · rw [List.drop_append_of_le_length (by omega), List.drop_of_length_le (by omega), List.nil_append]
    exact scanR_insensitive hi hk (by simp; omega) t
  · rw [List.drop_append_of_le_length (by omega), List.drop_of_length_le (by omega), List.nil_append,
      List.take_append_of_le_length (by simp; omega), List.take_take, Nat.min_self]
    exact hdat

theorem truncates {pan : Prop} (hc : f.Cut) (ht : f.Truncates pan) (e : Endian) (sz : Nat) :
    (fromSlice e sz f).Truncates pan := by
  intro b n l h j hj
  obtain ⟨k, hsz, hlen, hk, rfl, hdat⟩ := (fromSlice_eq_ok hc).mp h
  rw [fromSlice_eq hc]
  by_cases hj' : sz ≤ j
  · rw [if_pos (by simp; omega), List.take_take, Nat.min_eq_left hj', ← hlen, List.drop_take]
    rcases scanR_truncates ht hc hk (j := j - sz) (by omega) with h' | ⟨hp, h'⟩
    · left; rw [h']; rfl
    · right; rw [h']; exact ⟨hp, rfl⟩
  · left
    rw [if_neg (by simp; omega)]

theorem total (hc : f.Cut) (ht : f.Total) (e : Endian) (sz : Nat) : (fromSlice e sz f).Total := by
  intro b
  rw [fromSlice_eq hc]
  split
  · exact Res.bind_ne_panic (scanR_total ht) (fun _ _ => by simp)
  · simp

/-! ## Unsized lists -/

theorem unsized_eq (e : Endian) (sz : Nat) (b : Bytes) :
    unsizedFromSlice e sz b =
      if sz ≤ b.length then .ok ⟨b.length, ⟨b.drop sz, intOfWire e (b.take sz)⟩⟩
      else .err .truncated := by
  unfold unsizedFromSlice
  rw [Scalar.fromSlice_eq]
  split
  · next h => simp [dropFrom_ok h]
  · rfl

theorem unsized_eq_ok {e : Endian} {sz : Nat} {b : Bytes} {n : Nat} {l : Seq Bytes} :
    unsizedFromSlice e sz b = .ok ⟨n, l⟩ ↔
      sz ≤ b.length ∧ n = b.length ∧ l = ⟨b.drop sz, intOfWire e (b.take sz)⟩ := by
  rw [unsized_eq]
  split
  · next h => simp [h, eq_comm]
  · next h => simp [h]

theorem unsized_cut (e : Endian) (sz : Nat) : (unsizedFromSlice e sz).Cut := by
  intro b n l h
  obtain ⟨h1, rfl, h2⟩ := unsized_eq_ok.mp h
  refine ⟨Nat.le_refl _, fun k hk => ?_⟩
  rw [List.take_of_length_le hk]; exact h

theorem unsized_insensitive (e : Endian) (sz : Nat) : (unsizedFromSlice e sz).Insensitive := by
  intro b n l h hn
  obtain ⟨h1, rfl, h2⟩ := unsized_eq_ok.mp h
  omega

theorem unsized_total (e : Endian) (sz : Nat) : (unsizedFromSlice e sz).Total := by
  intro b
  rw [unsized_eq]; split <;> simp

/-! ## Blocks -/

theorem scanR_blocks {vs : List α} {d : Bytes} (h : f.Blocks vs d) (t : Bytes) :
    scanR f vs.length (d ++ t) = .ok d.length := by
  induction h with
  | nil => rfl
  | @cons v vs b d hb _ ih =>
    refine scanR_succ_eq_ok.mpr ⟨b.length, v, d.length, ?_, ?_, by simp⟩
    · rw [List.append_assoc]; exact hb _
    · rw [List.append_assoc, List.drop_left]; exact ih

/-- A scanned prefix is a concatenation of blocks. -/
theorem blocks_of_scanR (hd : f.Delimits) (hc : f.Cut) {n : Nat} {b : Bytes} {k : Nat}
    (h : scanR f n b = .ok k) : ∃ vs, vs.length = n ∧ f.Blocks vs (b.take k) := by
  induction n generalizing b k with
  | zero => cases h; exact ⟨[], rfl, by simpa using Parser.Blocks.nil⟩
  | succ n ih =>
    obtain ⟨m, v, i, hf, hs, rfl⟩ := scanR_succ_eq_ok.mp h
    obtain ⟨vs, hl, hb⟩ := ih hs
    refine ⟨v :: vs, by simp [hl], ?_⟩
    rw [List.take_add]
    have hm := (hc _ _ _ hf)
    have hlen : (b.take m).length = m := by simp; omega
    refine Parser.Blocks.cons (fun t => ?_) hb
    rw [hlen]
    exact hd _ _ _ (hm.2 m (Nat.le_refl _)) t

theorem next_blocks {v : α} {vs : List α} {b d : Bytes}
    (hb : ∀ t, f (b ++ t) = .ok ⟨b.length, v⟩) (t : Bytes) :
    next f ⟨b ++ d ++ t, (v :: vs).length⟩ = (some (.ok v), ⟨d ++ t, vs.length⟩) := by
  unfold next
  simp only [List.length_cons, Nat.add_one_ne_zero, if_false]
  rw [List.append_assoc, hb]
  simp [dropFrom_ok]

end Lst

/-! ## Arrays -/

namespace Arr

theorem fromSlice_eq_ok {p : Profile} {e : Endian} {sz isz : Nat} {b : Bytes} {n : Nat}
    {l : Seq Bytes} :
    fromSlice p e sz isz b = .ok ⟨n, l⟩ ↔
      ∃ body, sz ≤ b.length ∧ l.len = intOfWire e (b.take sz) ∧
        (mulU p usizeBits l.len isz : R Nat) = .ok body ∧
        (addU p usizeBits sz body : R Nat) = .ok n ∧ n ≤ b.length ∧ sz ≤ n ∧
        l.data = (b.drop sz).take (n - sz) := by
  obtain ⟨d, len⟩ := l
  unfold fromSlice
  rw [Scalar.fromSlice_eq]
  constructor
  · intro h
    split at h
    · next hsz =>
      simp only [Res.bind_ok] at h
      obtain ⟨body, hb, h⟩ := Res.bind_eq_ok.mp h
      obtain ⟨total, ht, h⟩ := Res.bind_eq_ok.mp h
      split at h
      · cases h
      · next hlt =>
        obtain ⟨s, hs, h⟩ := Res.bind_eq_ok.mp h
        simp only [Res.pure_eq, Res.ok.injEq, Msg.mk.injEq, Seq.mk.injEq] at h
        obtain ⟨rfl, rfl, rfl⟩ := h
        obtain ⟨h1, h2, h3⟩ := slice_eq_ok.mp hs
        exact ⟨body, hsz, rfl, hb, ht, h2, h1, h3⟩
    · cases h
  · rintro ⟨body, hsz, hlen, hb, ht, h1, h2, hd⟩
    simp only at hlen hb hd
    subst hlen
    rw [if_pos hsz]
    simp only [Res.bind_ok, hb, ht]
    rw [if_neg (by omega), slice_ok h2 h1]
    simp [hd]

theorem cut (p : Profile) (e : Endian) (sz isz : Nat) : (fromSlice p e sz isz).Cut := by
  intro b n l h
  obtain ⟨body, hsz, hlen, hb, ht, h1, h2, hd⟩ := fromSlice_eq_ok.mp h
  refine ⟨h1, fun k hk => fromSlice_eq_ok.mpr ⟨body, by simp; omega, ?_, hb, ht, by simp; omega, h2, ?_⟩⟩
  · rw [List.take_take, Nat.min_eq_left (by omega)]; exact hlen
  · rw [List.drop_take, List.take_take, Nat.min_eq_left (by omega)]; exact hd

theorem delimits (p : Profile) (e : Endian) (sz isz : Nat) : (fromSlice p e sz isz).Delimits := by
  intro b n l h t
  obtain ⟨body, hsz, hlen, hb, ht, h1, h2, hd⟩ := fromSlice_eq_ok.mp h
  refine fromSlice_eq_ok.mpr ⟨body, by simp; omega, ?_, hb, ht, by simp; omega, h2, ?_⟩
  · rw [List.take_append_of_le_length hsz]; exact hlen
  · rw [List.drop_append_of_le_length hsz, List.take_append_of_le_length (by simp; omega)]; exact hd

theorem truncates (p : Profile) (e : Endian) (sz isz : Nat) (pan : Prop) :
    (fromSlice p e sz isz).Truncates pan := by
  intro b n l h k hk
  obtain ⟨body, hsz, hlen, hb, ht, h1, h2, hd⟩ := fromSlice_eq_ok.mp h
  left
  unfold fromSlice
  rw [Scalar.fromSlice_eq]
  by_cases hk' : sz ≤ k
  · rw [if_pos (by simp; omega), List.take_take, Nat.min_eq_left hk', ← hlen]
    simp only [Res.bind_ok, hb, ht]
    rw [if_pos (by simp; omega)]
  · rw [if_neg (by simp; omega)]; rfl

theorem total (p : Profile) (e : Endian) (sz isz : Nat)
    (h : (256 ^ sz - 1) * isz + sz < 2 ^ 64) : (fromSlice p e sz isz).Total := by
  intro b
  unfold fromSlice
  rw [Scalar.fromSlice_eq]
  split
  · next hsz =>
    simp only [Res.bind_ok]
    have hlt : intOfWire e (b.take sz) ≤ 256 ^ sz - 1 := by
      have := intOfWire_lt e (b.take sz)
      rw [show (b.take sz).length = sz by simp; omega] at this
      omega
    have hmul : intOfWire e (b.take sz) * isz ≤ (256 ^ sz - 1) * isz := Nat.mul_le_mul_right _ hlt
    rw [mulU_ok p (show _ < 2 ^ usizeBits by unfold usizeBits; omega)]
    simp only [Res.bind_ok]
    rw [addU_ok p (show _ < 2 ^ usizeBits by unfold usizeBits; omega)]
    simp only [Res.bind_ok]
    split
    · simp
    · rw [slice_ok (by omega) (by omega)]; simp
  · simp

end Arr

theorem Seq.writeTo_bytes (e : Endian) (sz : Nat) (l : Seq Bytes) :
    (l.writeTo e sz).bytes = wireInt e sz l.len ++ l.data := by
  unfold Seq.writeTo
  rw [Out.andThen_bytes (by simp), Scalar.writeTo_bytes, Out.write_bytes]
  congr 1
  cases e <;> simp [wireInt, fromUsize, natLe_mod, natBe]

@[simp] theorem Seq.writeTo_res (e : Endian) (sz : Nat) (l : Seq Bytes) :
    (l.writeTo e sz).res = .ok () := rfl

end Proto
