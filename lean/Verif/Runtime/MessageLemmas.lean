import Verif.Spec.Wire
import Verif.Runtime.CodecLemmas

/-! # Laws of the primitive wire codecs -/

namespace Proto

/-! ## Helpers -/

@[simp] theorem wireInt_length (e : Endian) (sz v : Nat) : (wireInt e sz v).length = sz := by
  cases e <;> simp [wireInt]

theorem intOfWire_wireInt (e : Endian) (sz v : Nat) :
    intOfWire e (wireInt e sz v) = v % 256 ^ sz := by
  cases e <;> simp [intOfWire, wireInt, leNat_natLe, beNat_natBe]

theorem wireInt_intOfWire (e : Endian) (b : Bytes) : wireInt e b.length (intOfWire e b) = b := by
  cases e <;> simp [intOfWire, wireInt, natLe_leNat, natBe_beNat]

theorem intOfWire_lt (e : Endian) (b : Bytes) : intOfWire e b < 256 ^ b.length := by
  cases e <;> simp [intOfWire, leNat_lt, beNat_lt]

theorem fromUsize_of_lt {sz n : Nat} (h : n < 256 ^ sz) : fromUsize sz n = n := Nat.mod_eq_of_lt h

theorem dropFrom_ok {l : Bytes} {n : Nat} (h : n ≤ l.length) : dropFrom l n = .ok (l.drop n) := by
  unfold dropFrom
  rw [slice_ok h (Nat.le_refl _), List.take_of_length_le (by simp)]

theorem dropFrom_eq_ok {l r : Bytes} {n : Nat} :
    dropFrom l n = .ok r ↔ n ≤ l.length ∧ r = l.drop n := by
  unfold dropFrom
  rw [slice_eq_ok]
  constructor
  · rintro ⟨h, _, rfl⟩
    exact ⟨h, List.take_of_length_le (by simp)⟩
  · rintro ⟨h, rfl⟩
    exact ⟨h, Nat.le_refl _, (List.take_of_length_le (by simp)).symm⟩

theorem dropFrom_panic {l : Bytes} {n : Nat} (h : l.length < n) : dropFrom l n = .panic := by
  unfold dropFrom slice
  rw [if_neg (by omega)]

theorem slice_take {l : Bytes} {a b k : Nat} (hb : b ≤ k) {s : Bytes}
    (h : (slice l a b : R Bytes) = .ok s) : (slice (l.take k) a b : R Bytes) = .ok s := by
  rw [slice_eq_ok] at h ⊢
  obtain ⟨h1, h2, rfl⟩ := h
  refine ⟨h1, by simp; omega, ?_⟩
  rw [List.drop_take, List.take_take, Nat.min_eq_left (by omega)]

theorem slice_append {l t : Bytes} {a b : Nat} {s : Bytes}
    (h : (slice l a b : R Bytes) = .ok s) : (slice (l ++ t) a b : R Bytes) = .ok s := by
  rw [slice_eq_ok] at h ⊢
  obtain ⟨h1, h2, rfl⟩ := h
  refine ⟨h1, by simp; omega, ?_⟩
  rw [List.drop_append_of_le_length (by omega), List.take_append_of_le_length (by simp; omega)]

theorem slice_ne_err {l : Bytes} {a b : Nat} {e : Error} : (slice l a b : R Bytes) ≠ .err e := by
  unfold slice; split <;> simp

/-! ## `Out` -/

namespace Out

@[simp] theorem done_bytes : done.bytes = [] := rfl
@[simp] theorem done_res : done.res = .ok () := rfl
@[simp] theorem write_bytes (b : Bytes) : (write b).bytes = b := by simp [write, bytes]
@[simp] theorem write_res (b : Bytes) : (write b).res = .ok () := rfl
@[simp] theorem stop_bytes (r : R Unit) : (stop r).bytes = [] := rfl
@[simp] theorem stop_res (r : R Unit) : (stop r).res = r := rfl

theorem andThen_ok {a b : Out} (h : a.res = .ok ()) :
    a.andThen b = ⟨a.chunks ++ b.chunks, b.res⟩ := by simp [andThen, h]

theorem andThen_bytes {a b : Out} (h : a.res = .ok ()) :
    (a.andThen b).bytes = a.bytes ++ b.bytes := by simp [andThen_ok h, bytes]

theorem andThen_res {a b : Out} (h : a.res = .ok ()) : (a.andThen b).res = b.res := by
  simp [andThen_ok h]

theorem andThen_fail {a b : Out} (h : a.res ≠ .ok ()) : a.andThen b = a := by
  obtain ⟨c, r⟩ := a
  cases r with
  | ok u => cases u; exact absurd rfl h
  | err e => rfl
  | panic => rfl

theorem andThen_res_eq_ok {a b : Out} : (a.andThen b).res = .ok () ↔ a.res = .ok () ∧ b.res = .ok () := by
  by_cases h : a.res = .ok ()
  · rw [andThen_res h]; simp [h]
  · rw [andThen_fail h]; simp [h]

end Out

/-! ## Scalars -/

namespace Scalar

theorem fromSlice_eq (e : Endian) (sz : Nat) (b : Bytes) :
    fromSlice e sz b =
      if sz ≤ b.length then .ok ⟨sz, intOfWire e (b.take sz)⟩ else .err .truncated := by
  unfold fromSlice readBytes intOfWire
  by_cases h : sz ≤ b.length
  · rw [if_neg (by omega), if_pos h, if_pos h]; cases e <;> rfl
  · rw [if_pos (by omega), if_neg h]

theorem fromSlice_eq_ok {e : Endian} {sz : Nat} {b : Bytes} {m : Msg Nat} :
    fromSlice e sz b = .ok m ↔ sz ≤ b.length ∧ m = ⟨sz, intOfWire e (b.take sz)⟩ := by
  rw [fromSlice_eq]
  split
  · next h => simp [h, eq_comm]
  · next h => simp [h]

theorem writeTo_bytes (e : Endian) (sz v : Nat) : (writeTo e sz v).bytes = wireInt e sz v := by
  cases e <;> simp [writeTo, wireInt]

@[simp] theorem writeTo_res (e : Endian) (sz v : Nat) : (writeTo e sz v).res = .ok () := rfl

theorem fromSlice_wire (e : Endian) {sz v : Nat} (h : v < 256 ^ sz) (t : Bytes) :
    fromSlice e sz (wireInt e sz v ++ t) = .ok ⟨sz, v⟩ := by
  rw [fromSlice_eq_ok]
  refine ⟨by simp, ?_⟩
  rw [List.take_append_of_le_length (by simp), List.take_of_length_le (by simp),
    intOfWire_wireInt, Nat.mod_eq_of_lt h]

theorem cut (e : Endian) (sz : Nat) : (fromSlice e sz).Cut := by
  intro b n v h
  obtain ⟨h1, h2⟩ := fromSlice_eq_ok.mp h
  cases h2
  refine ⟨h1, fun k hk => fromSlice_eq_ok.mpr ⟨by simp; omega, ?_⟩⟩
  rw [List.take_take, Nat.min_eq_left hk]

theorem delimits (e : Endian) (sz : Nat) : (fromSlice e sz).Delimits := by
  intro b n v h t
  obtain ⟨h1, h2⟩ := fromSlice_eq_ok.mp h
  cases h2
  refine fromSlice_eq_ok.mpr ⟨by simp; omega, ?_⟩
  rw [List.take_append_of_le_length h1]

theorem truncates (e : Endian) (sz : Nat) (pan : Prop) : (fromSlice e sz).Truncates pan := by
  intro b n v h k hk
  obtain ⟨h1, h2⟩ := fromSlice_eq_ok.mp h
  cases h2
  left
  rw [fromSlice_eq, if_neg (by simp; omega)]

theorem total (e : Endian) (sz : Nat) : (fromSlice e sz).Total := by
  intro b
  rw [fromSlice_eq]; split <;> simp

end Scalar

theorem Parser.insensitive_of_delimits {f : Parser α} (hc : f.Cut) (hd : f.Delimits) :
    f.Insensitive := by
  intro b n v h _ t
  have := (hc b n v h).2 n (Nat.le_refl _)
  exact hd _ n v this t

/-! ## Optional -/

namespace Optional

variable {f : Parser α}

theorem fromSlice_eq_ok {b : Bytes} {n : Nat} {v : Option α} :
    fromSlice f b = .ok ⟨n, v⟩ ↔
      (∃ t, b = 0 :: t ∧ n = 1 ∧ v = none) ∨
      (∃ x t m w, b = x :: t ∧ x ≠ 0 ∧ f t = .ok ⟨m, w⟩ ∧ n = m + 1 ∧ v = some w) := by
  unfold fromSlice
  cases b with
  | nil => simp
  | cons x t =>
    simp only
    by_cases hx : x = 0
    · subst hx
      simp [eq_comm]
    · have hpos : x.toNat > 0 := by
        rcases Nat.eq_zero_or_pos x.toNat with h | h
        · exact absurd (UInt8.toNat_inj.mp (by simpa using h)) hx
        · exact h
      rw [if_pos hpos]
      constructor
      · intro h
        obtain ⟨⟨m, w⟩, hm, h2⟩ := Res.bind_eq_ok.mp h
        simp only [Res.pure_eq, Res.ok.injEq, Msg.mk.injEq] at h2
        exact Or.inr ⟨x, t, m, w, rfl, hx, hm, h2.1.symm, h2.2.symm⟩
      · rintro (⟨t', h, _⟩ | ⟨x', t', m, w, h, _, hf, rfl, rfl⟩)
        · exact absurd (List.cons.inj h).1 hx
        · obtain ⟨rfl, rfl⟩ := List.cons.inj h
          simp [hf]

theorem fromSlice_none (t : Bytes) : fromSlice f (0 :: t) = .ok ⟨1, none⟩ :=
  fromSlice_eq_ok.mpr (Or.inl ⟨t, rfl, rfl, rfl⟩)

theorem fromSlice_some {x : UInt8} (hx : x ≠ 0) {t : Bytes} {m : Nat} {w : α}
    (h : f t = .ok ⟨m, w⟩) : fromSlice f (x :: t) = .ok ⟨m + 1, some w⟩ :=
  fromSlice_eq_ok.mpr (Or.inr ⟨x, t, m, w, rfl, hx, h, rfl, rfl⟩)

theorem fromSlice_cons_ne {x : UInt8} (hx : x ≠ 0) (t : Bytes) :
    fromSlice f (x :: t) = (f t).bind (fun m => .ok ⟨m.size + 1, some m.data⟩) := by
  unfold fromSlice
  have hpos : x.toNat > 0 := by
    rcases Nat.eq_zero_or_pos x.toNat with h | h
    · exact absurd (UInt8.toNat_inj.mp (by simpa using h)) hx
    · exact h
  simp only [if_pos hpos]
  cases f t <;> rfl

theorem cut (hf : f.Cut) : (fromSlice f).Cut := by
  intro b n v h
  rcases fromSlice_eq_ok.mp h with ⟨t, rfl, rfl, rfl⟩ | ⟨x, t, m, w, rfl, hx, hm, rfl, rfl⟩
  · refine ⟨by simp, fun k hk => ?_⟩
    obtain ⟨j, rfl⟩ : ∃ j, k = j + 1 := ⟨k - 1, by omega⟩
    exact fromSlice_none _
  · have := hf t m w hm
    refine ⟨by simp; omega, fun k hk => ?_⟩
    obtain ⟨j, rfl⟩ : ∃ j, k = j + 1 := ⟨k - 1, by omega⟩
    rw [List.take_succ_cons]
    exact fromSlice_some hx (this.2 j (by omega))

theorem insensitive (hf : f.Insensitive) : (fromSlice f).Insensitive := by
  intro b n v h hn t'
  rcases fromSlice_eq_ok.mp h with ⟨t, rfl, rfl, rfl⟩ | ⟨x, t, m, w, rfl, hx, hm, rfl, rfl⟩
  · exact fromSlice_none _
  · simp only [List.length_cons, Nat.add_lt_add_iff_right] at hn
    rw [List.take_succ_cons, List.cons_append]
    exact fromSlice_some hx (hf t m w hm hn t')

theorem delimits (hf : f.Delimits) : (fromSlice f).Delimits := by
  intro b n v h t'
  rcases fromSlice_eq_ok.mp h with ⟨t, rfl, rfl, rfl⟩ | ⟨x, t, m, w, rfl, hx, hm, rfl, rfl⟩
  · exact fromSlice_none _
  · exact fromSlice_some hx (hf t m w hm t')

theorem truncates {pan : Prop} (hf : f.Truncates pan) : (fromSlice f).Truncates pan := by
  intro b n v h k hk
  rcases fromSlice_eq_ok.mp h with ⟨t, rfl, rfl, rfl⟩ | ⟨x, t, m, w, rfl, hx, hm, rfl, rfl⟩
  · obtain rfl : k = 0 := by omega
    exact Or.inl rfl
  · cases k with
    | zero => exact Or.inl rfl
    | succ j =>
      rw [List.take_succ_cons, fromSlice_cons_ne hx]
      rcases hf t m w hm j (by omega) with e | ⟨hp, e⟩
      · rw [e]; exact Or.inl rfl
      · rw [e]; exact Or.inr ⟨hp, rfl⟩

theorem total (hf : f.Total) : (fromSlice f).Total := by
  intro b
  cases b with
  | nil => simp [fromSlice]
  | cons x t =>
    by_cases hx : x = 0
    · subst hx; rw [fromSlice_none]; simp
    · rw [fromSlice_cons_ne hx]
      exact Res.bind_ne_panic (hf t) (fun a _ => by simp)

end Optional

/-! ## Buffer -/

namespace Buffer

theorem fromSlice_eq_ok {b : Bytes} {n : Nat} {v : Bytes} :
    fromSlice b = .ok ⟨n, v⟩ ↔ n = b.length ∧ v = b := by
  simp [fromSlice, eq_comm]

theorem cut : fromSlice.Cut := by
  intro b n v h
  obtain ⟨rfl, rfl⟩ := fromSlice_eq_ok.mp h
  refine ⟨Nat.le_refl _, fun k hk => ?_⟩
  rw [List.take_of_length_le hk]; exact h

theorem insensitive : fromSlice.Insensitive := by
  intro b n v h hn
  obtain ⟨rfl, rfl⟩ := fromSlice_eq_ok.mp h
  omega

theorem total : fromSlice.Total := by intro b; simp [fromSlice]

end Buffer

/-! ## Strings -/

theorem validUtf8_iff (b : Bytes) : validUtf8 b = true ↔ IsUtf8 b := by
  unfold validUtf8 IsUtf8
  rw [decide_eq_true_iff]
  constructor
  · rintro ⟨m, hm⟩
    refine ⟨m, ?_⟩
    have := congrArg (fun a => a.data.toList) hm
    simpa [List.utf8Encode] using this
  · rintro ⟨cs, rfl⟩
    exact ⟨cs, by simp [List.utf8Encode]⟩

theorem findNul_eq_some {b : Bytes} {k : Nat} :
    findNul b = some k ↔ ∃ s t, b = s ++ 0 :: t ∧ 0 ∉ s ∧ k = s.length := by
  induction b generalizing k with
  | nil => simp [findNul]
  | cons x xs ih =>
    unfold findNul
    by_cases hx : x = 0
    · subst hx
      rw [if_pos rfl]
      constructor
      · intro h; cases h; exact ⟨[], xs, rfl, by simp, rfl⟩
      · rintro ⟨s, t, h, h0, rfl⟩
        cases s with
        | nil => rfl
        | cons y ys =>
          obtain ⟨rfl, _⟩ := List.cons.inj h
          simp at h0
    · rw [if_neg hx]
      constructor
      · intro h
        obtain ⟨j, hj, rfl⟩ := Option.map_eq_some_iff.mp h
        obtain ⟨s, t, rfl, h0, rfl⟩ := ih.mp hj
        exact ⟨x :: s, t, rfl, by simp [h0, Ne.symm hx], rfl⟩
      · rintro ⟨s, t, h, h0, rfl⟩
        cases s with
        | nil => exact absurd (List.cons.inj h).1 hx
        | cons y ys =>
          obtain ⟨rfl, h'⟩ := List.cons.inj h
          rw [ih.mpr ⟨ys, t, h', fun h => h0 (List.mem_cons_of_mem _ h), rfl⟩]
          rfl

theorem findNul_eq_none {b : Bytes} : findNul b = none ↔ 0 ∉ b := by
  induction b with
  | nil => simp [findNul]
  | cons x xs ih =>
    unfold findNul
    by_cases hx : x = 0
    · subst hx; simp
    · rw [if_neg hx, Option.map_eq_none_iff, ih]
      simp [Ne.symm hx]

theorem append_cons_inj {a : α} {s s' t t' : List α} (h : s ++ a :: t = s' ++ a :: t') (hs : a ∉ s)
    (hs' : a ∉ s') : s = s' ∧ t = t' := by
  induction s generalizing s' with
  | nil =>
    cases s' with
    | nil => exact ⟨rfl, (List.cons.inj h).2⟩
    | cons y ys => exact absurd (List.cons.inj h).1 (fun e => hs' (by simp [e]))
  | cons x xs ih =>
    cases s' with
    | nil => exact absurd (List.cons.inj h).1 (fun e => hs (by simp [e]))
    | cons y ys =>
      obtain ⟨rfl, h'⟩ := List.cons.inj h
      obtain ⟨rfl, rfl⟩ := ih h' (fun hh => hs (List.mem_cons_of_mem _ hh))
        (fun hh => hs' (List.mem_cons_of_mem _ hh))
      exact ⟨rfl, rfl⟩

namespace NullTerminated

theorem fromSlice_split {s t : Bytes} (h : 0 ∉ s) :
    fromSlice (s ++ 0 :: t) = if validUtf8 s then .ok ⟨s.length + 1, s⟩ else .err .invalidUtf8 := by
  unfold fromSlice
  rw [findNul_eq_some.mpr ⟨s, t, rfl, h, rfl⟩]
  simp [slice]

theorem fromSlice_eq_ok {b : Bytes} {n : Nat} {v : Bytes} :
    fromSlice b = .ok ⟨n, v⟩ ↔
      ∃ t, b = v ++ 0 :: t ∧ 0 ∉ v ∧ validUtf8 v = true ∧ n = v.length + 1 := by
  constructor
  · intro h
    cases hf : findNul b with
    | none => simp [fromSlice, hf] at h
    | some k =>
      obtain ⟨s, t, rfl, h0, rfl⟩ := findNul_eq_some.mp hf
      rw [fromSlice_split h0] at h
      split at h
      · next hv => cases h; exact ⟨t, rfl, h0, hv, rfl⟩
      · cases h
  · rintro ⟨t, rfl, h0, hv, rfl⟩
    rw [fromSlice_split h0, if_pos hv]

theorem cut : fromSlice.Cut := by
  intro b n v h
  obtain ⟨t, rfl, h0, hv, rfl⟩ := fromSlice_eq_ok.mp h
  refine ⟨by simp, fun k hk => fromSlice_eq_ok.mpr ?_⟩
  obtain ⟨j, rfl⟩ : ∃ j, k = v.length + (j + 1) := ⟨k - v.length - 1, by omega⟩
  refine ⟨t.take j, ?_, h0, hv, rfl⟩
  rw [List.take_length_add_append, List.take_succ_cons]

theorem delimits : fromSlice.Delimits := by
  intro b n v h t'
  obtain ⟨t, rfl, h0, hv, rfl⟩ := fromSlice_eq_ok.mp h
  exact fromSlice_eq_ok.mpr ⟨t ++ t', by simp, h0, hv, rfl⟩

theorem truncates (pan : Prop) : fromSlice.Truncates pan := by
  intro b n v h k hk
  obtain ⟨t, rfl, h0, hv, rfl⟩ := fromSlice_eq_ok.mp h
  left
  rw [List.take_append_of_le_length (by omega)]
  unfold fromSlice
  rw [findNul_eq_none.mpr (fun h => h0 (List.mem_of_mem_take h))]

theorem total : fromSlice.Total := by
  intro b
  cases hf : findNul b with
  | none => simp [fromSlice, hf]
  | some k =>
    obtain ⟨s, t, rfl, h0, rfl⟩ := findNul_eq_some.mp hf
    rw [fromSlice_split h0]; split <;> simp

theorem writeTo_bytes (s : Bytes) : (writeTo s).bytes = s ++ [0] := by
  unfold writeTo
  rw [Out.andThen_bytes rfl, Out.write_bytes, Out.write_bytes]

@[simp] theorem writeTo_res (s : Bytes) : (writeTo s).res = .ok () := rfl

end NullTerminated

namespace Varchar

theorem fromSlice_eq_ok {p : Profile} {e : Endian} {sz : Nat} (hsz : sz ≤ 8) {b : Bytes} {n : Nat}
    {v : Bytes} :
    fromSlice p e sz b = .ok ⟨n, v⟩ ↔
      validUtf8 v = true ∧ n = sz + v.length ∧ v.length < 256 ^ sz ∧ sz + v.length < 2 ^ 64 ∧
        ∃ t, b = wireInt e sz v.length ++ v ++ t := by
  unfold fromSlice
  constructor
  · intro h
    obtain ⟨⟨m, len⟩, hm, h⟩ := Res.bind_eq_ok.mp h
    obtain ⟨hb, hm'⟩ := Scalar.fromSlice_eq_ok.mp hm
    cases hm'
    simp only at h
    obtain ⟨stop, hstop, h⟩ := Res.bind_eq_ok.mp h
    obtain ⟨sub, hsub, h⟩ := Res.bind_eq_ok.mp h
    split at h
    · next hv =>
      simp only [Res.ok.injEq, Msg.mk.injEq] at h
      obtain ⟨rfl, rfl⟩ := h
      obtain ⟨h1, h2, hs⟩ := slice_eq_ok.mp hsub
      have hlt : intOfWire e (b.take sz) < 2 ^ 64 := by
        have := intOfWire_lt e (b.take sz)
        have e1 : (b.take sz).length = sz := by simp; omega
        rw [e1] at this
        calc _ < 256 ^ sz := this
          _ ≤ 256 ^ 8 := Nat.pow_le_pow_right (by omega) hsz
          _ = 2 ^ 64 := by decide
      have hst : stop = sz + intOfWire e (b.take sz) ∧ sz + intOfWire e (b.take sz) < 2 ^ 64 := by
        unfold addU usizeBits at hstop
        split at hstop
        · next hl => cases hstop; exact ⟨rfl, hl⟩
        · next hl =>
          exfalso
          cases p
          · cases hstop
          · cases hstop
            rw [Nat.mod_eq_sub_mod (by omega), Nat.mod_eq_of_lt (by omega)] at h1
            omega
      obtain ⟨rfl, hlt2⟩ := hst
      have hlen : sub.length = intOfWire e (b.take sz) := by rw [hs]; simp; omega
      refine ⟨hv, rfl, ?_, by omega, ?_⟩
      · rw [hlen]
        have := intOfWire_lt e (b.take sz)
        have e1 : (b.take sz).length = sz := by simp; omega
        rwa [e1] at this
      · refine ⟨b.drop (sz + sub.length), ?_⟩
        have e1 : wireInt e sz sub.length = b.take sz := by
          rw [hlen]
          have := wireInt_intOfWire e (b.take sz)
          rwa [show (b.take sz).length = sz by simp; omega] at this
        rw [e1, hs]
        have : sz + intOfWire e (List.take sz b) - sz = intOfWire e (List.take sz b) := by omega
        rw [this]
        have e2 : (List.take (intOfWire e (List.take sz b)) (List.drop sz b)).length =
            intOfWire e (List.take sz b) := by simp; omega
        rw [e2, ← List.drop_drop, List.append_assoc, List.take_append_drop, List.take_append_drop]
    · cases h
  · rintro ⟨hv, rfl, h1, h2, t, rfl⟩
    rw [List.append_assoc, Scalar.fromSlice_wire e h1]
    simp only [Res.bind_ok]
    rw [addU_ok p (show sz + v.length < 2 ^ usizeBits from h2)]
    simp only [Res.bind_ok]
    rw [slice_ok (by omega) (by simp)]
    simp only [Res.bind_ok]
    have : List.take (sz + v.length - sz) (List.drop sz (wireInt e sz v.length ++ (v ++ t))) = v := by
      rw [List.drop_append_of_le_length (by simp), List.drop_of_length_le (by simp)]
      simp
    rw [this, if_pos hv]

theorem cut (p : Profile) (e : Endian) {sz : Nat} (hsz : sz ≤ 8) : (fromSlice p e sz).Cut := by
  intro b n v h
  obtain ⟨hv, rfl, h1, h2, t, rfl⟩ := (fromSlice_eq_ok hsz).mp h
  refine ⟨by simp, fun k hk => (fromSlice_eq_ok hsz).mpr ⟨hv, rfl, h1, h2, ?_⟩⟩
  have hl : (wireInt e sz v.length ++ v).length = sz + v.length := by simp
  obtain ⟨j, rfl⟩ : ∃ j, k = (wireInt e sz v.length ++ v).length + j :=
    ⟨k - (sz + v.length), by omega⟩
  exact ⟨t.take j, by rw [List.take_length_add_append]⟩

theorem delimits (p : Profile) (e : Endian) {sz : Nat} (hsz : sz ≤ 8) :
    (fromSlice p e sz).Delimits := by
  intro b n v h t'
  obtain ⟨hv, rfl, h1, h2, t, rfl⟩ := (fromSlice_eq_ok hsz).mp h
  exact (fromSlice_eq_ok hsz).mpr ⟨hv, rfl, h1, h2, t ++ t', by simp⟩

/-- A shortened length-prefixed string panics once the prefix is complete. -/
theorem fromSlice_short {p : Profile} {e : Endian} {sz : Nat} {b : Bytes}
    (h1 : sz ≤ b.length) (h2 : b.length < sz + intOfWire e (b.take sz)) (hsz : sz ≤ 8)  :
    fromSlice p e sz b = .panic := by
  unfold fromSlice
  rw [Scalar.fromSlice_eq, if_pos h1]
  simp only [Res.bind_ok]
  have hlt : intOfWire e (b.take sz) < 2 ^ 64 := by
    have := intOfWire_lt e (b.take sz)
    have e1 : (b.take sz).length = sz := by simp; omega
    rw [e1] at this
    calc _ < 256 ^ sz := this
      _ ≤ 256 ^ 8 := Nat.pow_le_pow_right (by omega) hsz
      _ = 2 ^ 64 := by decide
  unfold addU usizeBits
  split
  · simp only [Res.bind_ok]
    unfold slice
    rw [if_neg (by omega)]; rfl
  · next hl =>
    cases p
    · rfl
    · simp only [Res.bind_ok]
      rw [Nat.mod_eq_sub_mod (by omega), Nat.mod_eq_of_lt (by omega)]
      unfold slice
      rw [if_neg (by omega)]; rfl

theorem truncates (p : Profile) (e : Endian) {sz : Nat} (hsz : sz ≤ 8) {pan : Prop} (hp : pan) :
    (fromSlice p e sz).Truncates pan := by
  intro b n v h k hk
  obtain ⟨hv, rfl, h1, h2, t, rfl⟩ := (fromSlice_eq_ok hsz).mp h
  by_cases hk' : k < sz
  · left
    unfold fromSlice
    rw [Scalar.fromSlice_eq, if_neg (by simp; omega)]; rfl
  · right
    refine ⟨hp, fromSlice_short (by simp; omega) ?_ hsz⟩
    have : (List.take k (wireInt e sz v.length ++ v ++ t)).take sz = wireInt e sz v.length := by
      rw [List.take_take, Nat.min_eq_left (by omega), List.append_assoc,
        List.take_append_of_le_length (by simp), List.take_of_length_le (by simp)]
    rw [this, intOfWire_wireInt, Nat.mod_eq_of_lt h1]
    simp; omega

theorem writeTo_bytes (e : Endian) (sz : Nat) (s : Bytes) :
    (writeTo e sz s).bytes = wireInt e sz s.length ++ s := by
  unfold writeTo
  rw [Out.andThen_bytes (by simp), Scalar.writeTo_bytes, Out.write_bytes]
  congr 1
  cases e <;> simp [wireInt, fromUsize, natLe_mod, natBe]

@[simp] theorem writeTo_res (e : Endian) (sz : Nat) (s : Bytes) : (writeTo e sz s).res = .ok () := rfl

end Varchar

end Proto
