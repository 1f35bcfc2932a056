import Verif.Props.SwiftRuntime

/-!
# The Swift runtime: strings, optional values, lists
-/

namespace Proto.Sw

open Proto Proto.Props

/-! ## C76: strings -/

theorem position_zero (l : Bytes) : View.position 0 l = findNul l := by
  induction l with
  | nil => rfl
  | cons b bs ih => simp only [View.position, findNul, ih]

theorem View.WF.rest {v : View} (h : v.WF) : v.all.drop v.start = v.bytes ++ v.all.drop v.fin := by
  have := h.order
  rw [View.bytes]
  conv => lhs; rw [← List.take_append_drop (v.fin - v.start) (v.all.drop v.start)]
  rw [List.drop_drop]; congr 2; omega

theorem View.toData_eq (F : Foundation) {v : View} {n : Nat} (h : v.fin = v.start + n) :
    v.toData F = if n = 0 then .panic
      else if v.start + n ≤ v.all.length then .ok ((v.all.drop v.start).take n)
      else orTrap (F.sliceBeyond v.all v.start (v.start + n - 1)) := by
  unfold View.toData
  rw [h]
  by_cases hn : n = 0
  · rw [if_pos (by omega), if_pos hn]
  · rw [if_neg (by omega), if_neg hn, Nat.add_sub_cancel_left]

/-- C76: what reading a null-terminated string does, for every buffer.  The terminator is looked for
from the start of the buffer to the end of the data it is a part of.  Its position `s.length` is
counted from the beginning of that data, and this is how many bytes are taken and, plus one, the size
reported. -/
theorem C76_null_exact (d : Build) (F : Foundation) (v : View) (h : v.WF) (s t : Bytes)
    (hs : v.all.drop v.start = s ++ 0 :: t) (h0 : 0 ∉ s) :
    NullTerminated.read d F v =
      if v.start + s.length = 0 ∨ (d = .debug ∧ v.bytes.length < v.start + s.length) then .panic
      else if v.start + (v.start + s.length) ≤ v.all.length then
        .ok ⟨v.start + s.length + 1, F.repair ((v.all.drop v.start).take (v.start + s.length))⟩
      else
        match F.sliceBeyond v.all v.start (v.start + (v.start + s.length) - 1) with
        | some b => .ok ⟨v.start + s.length + 1, F.repair b⟩
        | none => .panic := by
  have hst : v.start ≤ v.all.length := Nat.le_trans h.order h.inside
  have hf : v.findFirst 0 = .ok (some (v.start + s.length)) := by
    rw [View.findFirst, if_neg (by omega), position_zero,
      findNul_eq_some.mpr ⟨s, t, hs, h0, rfl⟩]; rfl
  unfold NullTerminated.read
  rw [hf]
  simp only [Res.bind_ok]
  generalize hi : v.start + s.length = i
  have tail : ∀ u : View, u = ⟨v.all, v.start, v.start + i⟩ → i ≠ 0 →
      (u.toData F >>= fun data => (pure ⟨i + 1, F.repair data⟩ : S (Msg Bytes))) =
      if v.start + i ≤ v.all.length then
        .ok ⟨i + 1, F.repair ((v.all.drop v.start).take i)⟩
      else
        match F.sliceBeyond v.all v.start (v.start + i - 1) with
        | some b => .ok ⟨i + 1, F.repair b⟩
        | none => .panic := by
    rintro u rfl hi0
    rw [View.toData_eq F (n := i) rfl, if_neg hi0]
    simp only
    split
    · rfl
    · cases F.sliceBeyond v.all v.start (v.start + i - 1) <;> rfl
  unfold View.upTo
  by_cases hi0 : i = 0
  · rw [if_pos (.inl hi0)]
    cases d with
    | debug =>
      rw [assert_pos .debug (by rw [h.size, hi0]; simp), assert_neg (by simp [hi0])]; rfl
    | release =>
      simp only [assert, Res.bind_ok, Res.pure_eq]
      rw [View.toData_eq F (n := i) rfl, if_pos hi0]; rfl
  · cases d with
    | debug =>
      by_cases hl : v.bytes.length < i
      · rw [if_pos (.inr ⟨rfl, hl⟩), assert_neg (by rw [h.size]; simpa using hl)]; rfl
      · rw [if_neg (by simp [hi0, hl]), assert_pos .debug (by rw [h.size]; simpa using hl),
          assert_pos .debug (by simp; omega)]
        simp only [Res.bind_ok, Res.pure_eq]
        exact tail _ rfl hi0
    | release =>
      rw [if_neg (by simp [hi0])]
      simp only [assert, Res.bind_ok, Res.pure_eq]
      exact tail _ rfl hi0

/-- C76: without a zero byte up to the end of the data, reading a null-terminated string fails as
truncated. -/
theorem C76_null_none (d : Build) (F : Foundation) (v : View) (h : v.WF)
    (h0 : 0 ∉ v.all.drop v.start) : NullTerminated.read d F v = .err .truncated := by
  have hst : v.start ≤ v.all.length := Nat.le_trans h.order h.inside
  have hf : v.findFirst 0 = .ok none := by
    rw [View.findFirst, if_neg (by omega), position_zero, findNul_eq_none.mpr h0]; rfl
  simp [NullTerminated.read, hf]

example (F : Foundation) : NullTerminated.read .debug F ⟨[0, 0x61, 0x62], 1, 3⟩ = .err .truncated :=
  C76_null_none .debug F _ ⟨by decide, by decide, by decide⟩ (by decide)

/-- C76: a string that the Rust library reads is read by the Swift library with the same text and
size exactly when it stands at the very beginning of the data and is not empty. -/
theorem C76_null (d : Build) (F : Foundation) (v : View) (h : v.WF) (m : Msg Bytes)
    (hr : Proto.NullTerminated.fromSlice v.bytes = .ok m) :
    NullTerminated.read d F v = .ok m ↔ v.start = 0 ∧ m.data ≠ [] := by
  obtain ⟨n, s⟩ := m
  obtain ⟨t, hb, h0, hu, rfl⟩ := NullTerminated.fromSlice_eq_ok.mp hr
  have hs : v.all.drop v.start = s ++ 0 :: (t ++ v.all.drop v.fin) := by rw [h.rest, hb]; simp
  rw [C76_null_exact d F v h s _ hs h0]
  have hlen : s.length < v.bytes.length := by rw [hb]; simp
  have hall : v.start + s.length ≤ v.all.length := by
    have := h.length; have := h.inside; have := h.order; omega
  constructor
  · intro he
    split at he
    · cases he
    · next hne =>
      have hsz : v.start + s.length + 1 = s.length + 1 := by
        split at he
        · exact congrArg Msg.size (Res.ok.inj he)
        · split at he
          · exact congrArg Msg.size (Res.ok.inj he)
          · cases he
      refine ⟨by omega, fun hh => hne (.inl ?_)⟩
      simp only at hh
      rw [hh]; simp; omega
  · rintro ⟨hst, hne⟩
    have hne' : s.length ≠ 0 := fun hh => hne (List.length_eq_zero_iff.mp hh)
    rw [hst, if_neg (by rintro (hh | ⟨-, hh⟩) <;> omega), if_pos (by omega)]
    rw [hst] at hs
    have : (v.all.drop 0).take (0 + s.length) = s := by
      rw [hs, Nat.zero_add, List.take_left]
    rw [this, F.repair_valid s hu]; simp

/-- C76: at any later place the size reported is too large by the distance from the beginning of the
data, whatever text is returned. -/
theorem C76_null_size (d : Build) (F : Foundation) (v : View) (h : v.WF) (m m' : Msg Bytes)
    (hr : Proto.NullTerminated.fromSlice v.bytes = .ok m)
    (hs : NullTerminated.read d F v = .ok m') : m'.size = v.start + m.size := by
  obtain ⟨n, s⟩ := m
  obtain ⟨t, hb, h0, hu, rfl⟩ := NullTerminated.fromSlice_eq_ok.mp hr
  have hs' : v.all.drop v.start = s ++ 0 :: (t ++ v.all.drop v.fin) := by rw [h.rest, hb]; simp
  rw [C76_null_exact d F v h s _ hs' h0] at hs
  split at hs
  · cases hs
  · split at hs
    · rw [← Res.ok.inj hs]; simp only; omega
    · split at hs
      · rw [← Res.ok.inj hs]; simp only; omega
      · cases hs

example (F : Foundation) (m m' : Msg Bytes)
    (hr : Proto.NullTerminated.fromSlice (View.bytes ⟨[7, 0x61, 0x62, 0, 9], 1, 5⟩) = .ok m)
    (hs : NullTerminated.read .release F ⟨[7, 0x61, 0x62, 0, 9], 1, 5⟩ = .ok m') :
    m'.size = 1 + m.size := C76_null_size .release F _ ⟨by decide, by decide, by decide⟩ m m' hr hs

/-- C76: an empty null-terminated string at the beginning of the data stops the program. -/
theorem C76_null_empty (d : Build) (F : Foundation) (v : View) (h : v.WF) (t : Bytes)
    (hst : v.start = 0) (hb : v.bytes = 0 :: t) : NullTerminated.read d F v = .panic := by
  have hs : v.all.drop v.start = [] ++ 0 :: (t ++ v.all.drop v.fin) := by rw [h.rest, hb]; simp
  rw [C76_null_exact d F v h [] _ hs (by simp), if_pos (.inl (by simp [hst]))]

example (F : Foundation) : NullTerminated.read .debug F ⟨[0, 5], 0, 2⟩ = .panic :=
  C76_null_empty .debug F _ ⟨by decide, by decide, by decide⟩ [5] rfl rfl

/-- C76: a missing terminator is reported as the Rust library does exactly when no zero byte follows
the buffer in its data either; otherwise the bytes behind the buffer are taken for its contents. -/
theorem C76_null_missing (d : Build) (F : Foundation) (v : View) (h : v.WF)
    (hr : Proto.NullTerminated.fromSlice v.bytes = .err .truncated) :
    NullTerminated.read d F v = .err .truncated ↔ 0 ∉ v.all.drop v.fin := by
  have h0 : 0 ∉ v.bytes := by
    intro hm
    cases hf : findNul v.bytes with
    | none => exact findNul_eq_none.mp hf hm
    | some k =>
      obtain ⟨s, t, hb, h0, rfl⟩ := findNul_eq_some.mp hf
      rw [hb, NullTerminated.fromSlice_split h0] at hr
      split at hr <;> cases hr
  constructor
  · intro he hm
    cases hf : findNul (v.all.drop v.start) with
    | none =>
      exact findNul_eq_none.mp hf (by rw [h.rest]; exact List.mem_append_right _ hm)
    | some k =>
      obtain ⟨s, t, hb, h0, rfl⟩ := findNul_eq_some.mp hf
      rw [C76_null_exact d F v h s t hb h0] at he
      split at he
      · cases he
      · split at he
        · cases he
        · split at he <;> cases he
  · intro hm
    exact C76_null_none d F v h (by rw [h.rest, List.mem_append]; exact fun hh => hh.elim h0 hm)

/-- The string has no end in its part of the data, but the data have a zero behind it. -/
example (F : Foundation) : NullTerminated.read .release F ⟨[0x61, 0x62, 0], 0, 2⟩ ≠ .err .truncated :=
  fun h => absurd ((C76_null_missing .release F ⟨[0x61, 0x62, 0], 0, 2⟩
    ⟨by decide, by decide, by decide⟩ (by decide)).mp h)
    (by decide)

/-- C76: text that is not UTF-8 is never rejected: it is replaced by other text. -/
theorem C76_null_utf8 (d : Build) (F : Foundation) (v : View) (h : v.WF)
    (hr : Proto.NullTerminated.fromSlice v.bytes = .err .invalidUtf8) :
    (∀ x, NullTerminated.read d F v ≠ .err x) ∧
      (v.start = 0 → ∃ s t, v.bytes = s ++ 0 :: t ∧ 0 ∉ s ∧ F.repair s ≠ s ∧
        NullTerminated.read d F v = .ok ⟨s.length + 1, F.repair s⟩) := by
  cases hf : findNul v.bytes with
  | none => simp [Proto.NullTerminated.fromSlice, hf] at hr
  | some k =>
    obtain ⟨s, t, hb, h0, rfl⟩ := findNul_eq_some.mp hf
    rw [hb, NullTerminated.fromSlice_split h0] at hr
    split at hr
    · cases hr
    · next hu =>
      have hs : v.all.drop v.start = s ++ 0 :: (t ++ v.all.drop v.fin) := by rw [h.rest, hb]; simp
      have hex := C76_null_exact d F v h s _ hs h0
      refine ⟨fun x he => ?_, fun hst => ⟨s, t, hb, h0, fun hh => hu (hh ▸ F.repair_utf8 s), ?_⟩⟩
      · rw [hex] at he
        split at he
        · cases he
        · split at he
          · cases he
          · split at he <;> cases he
      · have hne : s.length ≠ 0 := by
          intro hh
          rw [List.length_eq_zero_iff.mp hh] at hu
          exact hu (validUtf8_iff [] |>.mpr ⟨[], rfl⟩)
        have hlen : s.length < v.bytes.length := by rw [hb]; simp
        have := h.length; have := h.inside; have := h.order
        rw [hex, hst, if_neg (by rintro (hh | ⟨-, hh⟩) <;> omega), if_pos (by omega)]
        rw [hst] at hs
        have : (v.all.drop 0).take (0 + s.length) = s := by rw [hs, Nat.zero_add, List.take_left]
        rw [this]; simp

/-- C76: what reading a length-prefixed string does, for every buffer.  In a release build a length
beyond the buffer is read from what follows the buffer in its data. -/
theorem C76_varchar_exact (d : Build) (F : Foundation) (e : Endian) (w : Width) (v : View)
    (h : v.WF) :
    Varchar.read d F (Value.read d F e w) v =
      if v.bytes.length < w.size then .err .truncated
      else
        let n := intOfWire e (v.bytes.take w.size)
        if n = 0 then .panic
        else if w.size + n ≤ v.bytes.length then
          .ok ⟨w.size + n, F.repair ((v.bytes.drop w.size).take n)⟩
        else if d = .debug ∨ 2 ^ 63 - 1 < w.size + n then .panic
        else if v.start + w.size + n ≤ v.all.length then
          .ok ⟨w.size + n, F.repair ((v.all.drop (v.start + w.size)).take n)⟩
        else
          match F.sliceBeyond v.all (v.start + w.size) (v.start + w.size + n - 1) with
          | some b => .ok ⟨w.size + n, F.repair b⟩
          | none => .panic := by
  unfold Varchar.read
  rw [C74_digits d F e w v h]
  by_cases hsz : w.size ≤ v.bytes.length
  · rw [if_pos hsz, if_neg (by omega)]
    simp only [Res.bind_ok]
    generalize hn : intOfWire e (v.bytes.take w.size) = n
    have hsmall := h.length_le
    by_cases hfit : w.size + n ≤ v.bytes.length
    · obtain ⟨s, hs, hw, hb, -⟩ := View.closed_ok h d (a := w.size) (b := w.size + n) (by omega) hfit
      rw [toInt, if_pos (by unfold intMax; omega)]
      simp only [Res.bind_ok]
      rw [toInt, if_pos (by unfold intMax; omega)]
      simp only [Res.bind_ok, hs]
      rw [C75_data F s hw, hb, Nat.add_sub_cancel_left]
      by_cases hn0 : n = 0
      · rw [if_pos hn0, if_pos (by simp [hn0])]; rfl
      · rw [if_neg hn0, if_neg (by
          intro hh
          have := congrArg List.length hh
          simp at this; omega), if_pos hfit]
        simp [Nat.add_comm]
    · have hn0 : n ≠ 0 := by omega
      rw [if_neg hn0, if_neg hfit]
      by_cases hbig : 2 ^ 63 - 1 < w.size + n
      · rw [if_pos (.inr hbig)]
        by_cases hb2 : n ≤ intMax
        · rw [toInt, if_pos hb2]
          simp only [Res.bind_ok]
          rw [toInt, if_neg (by unfold intMax; omega)]; rfl
        · rw [toInt, if_neg hb2]; rfl
      · rw [toInt, if_pos (by unfold intMax; omega)]
        simp only [Res.bind_ok]
        rw [toInt, if_pos (by unfold intMax; omega)]
        simp only [Res.bind_ok]
        unfold View.closed
        rw [if_neg (by omega)]
        cases d with
        | debug =>
          rw [if_pos (.inl rfl), assert_pos .debug (by rw [h.size]; simp; omega),
            assert_neg (by rw [h.size]; simp; omega)]; rfl
        | release =>
          rw [if_neg (by simp; omega)]
          simp only [assert, Res.bind_ok, Res.pure_eq]
          rw [View.toData_eq F (n := n) (by simp only; omega), if_neg hn0]
          simp only
          split
          · simp [Nat.add_comm]
          · cases F.sliceBeyond v.all (v.start + w.size) (v.start + w.size + n - 1) <;>
              simp [orTrap, Nat.add_comm]
  · rw [if_neg hsz, if_pos (by omega)]; rfl

/-- C76: a length-prefixed string that the Rust library reads is read by the Swift library with the
same text and size exactly when it is not empty; the empty string stops the program. -/
theorem C76_varchar (p : Profile) (d : Build) (F : Foundation) (e : Endian) (w : Width) (v : View)
    (h : v.WF) (m : Msg Bytes) (hr : Proto.Varchar.fromSlice p e w.size v.bytes = .ok m) :
    Varchar.read d F (Value.read d F e w) v = if m.data = [] then .panic else .ok m := by
  obtain ⟨n, s⟩ := m
  have hsz : w.size ≤ 8 := by cases w <;> decide
  obtain ⟨hu, rfl, hlt, -, t, hb⟩ := (Varchar.fromSlice_eq_ok hsz).mp hr
  have hl : (wireInt e w.size s.length).length = w.size := by cases e <;> simp [wireInt]
  have htk : v.bytes.take w.size = wireInt e w.size s.length := by
    rw [hb, List.append_assoc, List.take_append_of_le_length (by omega),
      List.take_of_length_le (by omega)]
  have hn : intOfWire e (v.bytes.take w.size) = s.length := by
    rw [htk, intOfWire_wireInt, Nat.mod_eq_of_lt hlt]
  have hlen : v.bytes.length = w.size + s.length + t.length := by rw [hb]; simp [hl]; omega
  rw [C76_varchar_exact d F e w v h, if_neg (by omega)]
  simp only [hn]
  by_cases hs : s = []
  · rw [if_pos (by simp [hs]), if_pos hs]
  · have : s.length ≠ 0 := fun hh => hs (List.length_eq_zero_iff.mp hh)
    rw [if_neg this, if_neg hs, if_pos (by omega)]
    have : (v.bytes.drop w.size).take s.length = s := by
      rw [hb, List.append_assoc, List.drop_append, hl, List.drop_eq_nil_of_le (by omega),
        Nat.sub_self, List.drop_zero, List.nil_append, List.take_left]
    rw [this, F.repair_valid s hu]

/-- C76: no string reading ever fails with `invalidUTF8`. -/
theorem C76_never_utf8 (d : Build) (F : Foundation) (t : FromSlice Nat)
    (ht : ∀ v, t v ≠ .err .invalidUTF8) (v : View) :
    NullTerminated.read d F v ≠ .err .invalidUTF8 ∧ Varchar.read d F t v ≠ .err .invalidUTF8 := by
  have ha : ∀ b x, assert d b ≠ .err x := by
    intro b x; cases d <;> cases b <;> simp [assert]
  have hd : ∀ (u : View) x, u.toData F ≠ .err x := by
    intro u x
    unfold View.toData
    split
    · simp
    · split
      · simp
      · cases F.sliceBeyond u.all u.start (u.fin - 1) <;> simp [orTrap]
  have hb : ∀ {β γ : Type} {x : S β} {f : β → S γ} {z : Error}, x ≠ .err z →
      (∀ a, f a ≠ .err z) → (x >>= f) ≠ .err z := by
    intro β γ x f z h1 h2
    cases x with
    | ok a => exact h2 a
    | err y => simpa using h1
    | panic => simp
  constructor
  · unfold NullTerminated.read
    refine hb (by unfold View.findFirst; split <;> simp) fun a => ?_
    cases a with
    | none => simp
    | some i =>
      refine hb (hb (ha _ _) fun _ => hb (ha _ _) fun _ => by simp) fun u => hb (hd u _) fun _ => by
        simp
  · unfold Varchar.read
    have hi : ∀ n, toInt n ≠ .err .invalidUTF8 := by intro n; unfold toInt; split <;> simp
    refine hb (ht v) fun m => hb (hi _) fun _ => hb (hi _) fun _ => hb ?_ fun u => hb (hd u _)
      fun _ => by simp
    unfold View.closed
    split
    · simp
    · exact hb (ha _ _) fun _ => hb (ha _ _) fun _ => by simp

/-- C76: strings are written as the same bytes as by the Rust library, unless the length does not fit
its prefix of 1, 4 or 8 bytes, which stops the program. -/
theorem C76_write (e : Endian) (w : Width) (s : Bytes) :
    (∃ ops, NullTerminated.write s = .ok ops ∧ written ops = s ++ [0] ∧
      written ops = (Proto.NullTerminated.writeTo s).bytes) ∧
    (s.length < 256 ^ w.size ∨ w = .w16 →
      ∃ ops, Varchar.write w (Value.write e w) s = .ok ops ∧
        written ops = (Proto.Varchar.writeTo e w.size s).bytes ∧
        written ops = wireInt e w.size s.length ++ s) ∧
    (¬s.length < 256 ^ w.size → w ≠ .w16 →
      Varchar.write w (Value.write e w) s = .panic) := by
  refine ⟨⟨_, rfl, by simp [written, Op.data], by
    rw [NullTerminated.writeTo_bytes]; simp [written, Op.data]⟩, fun hs => ?_, fun hs hw => ?_⟩
  · have hmod : wireInt e w.size (s.length % 256 ^ w.size) = wireInt e w.size s.length := by
      cases e <;> simp [wireInt, natBe, natLe_mod]
    have hrust : (Proto.Varchar.writeTo e w.size s).bytes = wireInt e w.size s.length ++ s := by
      rw [Varchar.writeTo_bytes]
    have hf : fromUInt w s.length = .ok (s.length % 256 ^ w.size) := by
      rcases hs with hs | rfl
      · rw [fromUInt_ok hs, Nat.mod_eq_of_lt hs]
      · rfl
    refine ⟨[.bytes (toBytes e w (s.length % 256 ^ w.size)), .bytes s], ?_, ?_, ?_⟩
    · simp [Varchar.write, hf, Value.write]
    · rw [hrust]; simp [written, Op.data, toBytes_eq, hmod]
    · simp [written, Op.data, toBytes_eq, hmod]
  · have : fromUInt w s.length = .panic := by
      cases w <;> simp only [fromUInt, Width.size] at hs hw ⊢
      · rw [if_neg (by omega)]
      · exact absurd rfl hw
      · rw [if_neg (by omega)]
      · rw [if_neg (by omega)]
    simp [Varchar.write, this]

example : ∃ ops, Varchar.write .w8 (Value.write .little .w8) [0x61, 0x62] = .ok ops ∧
    written ops = [2, 0x61, 0x62] := by
  obtain ⟨ops, h, _, h'⟩ := (C76_write .little .w8 [0x61, 0x62]).2.1 (.inl (by decide))
  exact ⟨ops, h, h'⟩

/-! ## C77: optional values -/

/-- C77: reading an optional value gives the same value or the same failure as the Rust library,
given that the value itself does; the size reported is that of the Rust library for an absent value
and one less for a present one. -/
theorem C77_read (d : Build) (F : Foundation) (fr : Parser α) (fs : FromSlice α)
    (ha : Agree fr fs) (v : View) (h : v.WF) :
    Same ((fun m => if m.data.isSome then ⟨m.size - 1, m.data⟩ else m) <$>
        Optional.fromSlice fr v.bytes) (Opt.read d F fs v) := by
  unfold Opt.read View.isEmpty
  rw [h.size]
  cases hb : v.bytes with
  | nil => rw [if_pos (by simp)]; exact .truncated
  | cons x rest =>
    rw [if_neg (by simp; omega), View.byte_ok h d F (i := 0) (x := x) (by simp [hb])]
    simp only [Res.bind_ok, Optional.fromSlice]
    by_cases hx : x.toNat > 0
    · rw [if_pos hx, if_pos hx]
      obtain ⟨s, hs, hw, hsb, -⟩ := View.dropFrom_ok h (d := d) (a := 1) (fun _ => by omega)
        (by rw [hb]; simp)
      rw [hs]
      simp only [Res.bind_ok]
      have hag := ha s hw
      rw [hsb, hb, List.drop_one, List.tail_cons] at hag
      generalize fr rest = x at hag
      generalize fs s = y at hag
      cases hag with
      | ok a => exact .ok _
      | truncated => exact .truncated
      | utf8 => exact .utf8
      | discriminant n => exact .discriminant n
      | panic => exact .panic
    · rw [if_neg hx, if_neg hx]; exact .ok _

example (F : Foundation) : Same
    ((fun m : Msg (Option Nat) => if m.data.isSome then ⟨m.size - 1, m.data⟩ else m) <$>
      Optional.fromSlice (Scalar.fromSlice .little 2) [1, 5, 0])
    (Opt.read .debug F (Value.read .debug F .little .w16) ⟨[1, 5, 0], 0, 3⟩) :=
  C77_read .debug F _ _ (C74_read .debug F .little .w16)
    ⟨[1, 5, 0], 0, 3⟩ ⟨by decide, by decide, by decide⟩

/-- C77: so the outcome is that of the Rust library exactly when the value is absent; a reader that
continues behind a present value starts at the last byte of the value. -/
theorem C77_exact (d : Build) (F : Foundation) (fr : Parser α) (fs : FromSlice α)
    (ha : Agree fr fs) (v : View) (h : v.WF) (m : Msg (Option α))
    (hr : Optional.fromSlice fr v.bytes = .ok m) :
    (Opt.read d F fs v = .ok m ↔ m.data = none) ∧
      (∀ x, m.data = some x → ∃ n, m.size = n + 1 ∧ Opt.read d F fs v = .ok ⟨n, some x⟩) := by
  have hs := C77_read d F fr fs ha v h
  rw [hr, Res.map_ok] at hs
  have hs := hs.of_ok
  have hpos : 0 < m.size := by
    unfold Optional.fromSlice at hr
    split at hr
    · cases hr
    · split at hr
      · obtain ⟨m', -, hr⟩ := Res.bind_eq_ok.mp hr
        rw [← Res.ok.inj hr]; exact Nat.succ_pos _
      · rw [← Res.ok.inj hr]; exact Nat.one_pos
  obtain ⟨n, x⟩ := m
  simp only at hpos
  cases x with
  | none => exact ⟨⟨fun _ => rfl, fun _ => hs⟩, fun x hx => nomatch hx⟩
  | some x =>
    have hs' : Opt.read d F fs v = .ok ⟨n - 1, some x⟩ := hs
    refine ⟨⟨fun he => ?_, fun hh => nomatch hh⟩, fun y hy => ?_⟩
    · rw [hs'] at he
      have := congrArg Msg.size (Res.ok.inj he)
      simp only at this; omega
    · cases hy; exact ⟨n - 1, by simp only; omega, hs'⟩

/-- C77: an optional value is written as by the Rust library: a byte 0, or a byte 1 followed by the
value. -/
theorem C77_write (ws : WriteTo α) (wr : α → Out)
    (hw : ∀ a, ∃ ops, ws a = .ok ops ∧ written ops = (wr a).bytes) (x : Option α) :
    ∃ ops, Opt.write ws x = .ok ops ∧ written ops = (Optional.writeTo wr x).bytes ∧
      written ops = match x with
        | none => [0]
        | some a => 1 :: (wr a).bytes := by
  cases x with
  | none => exact ⟨_, rfl, rfl, rfl⟩
  | some a =>
    obtain ⟨ops, h1, h2⟩ := hw a
    refine ⟨.byte 1 :: ops, by simp [Opt.write, h1], ?_, ?_⟩
    · simp only [Optional.writeTo]
      rw [Out.andThen_bytes rfl, Out.write_bytes, ← h2]; rfl
    · show 1 :: written ops = 1 :: (wr a).bytes
      rw [h2]

example : ∃ ops, Opt.write (Value.write .little .w16) (some 5) = .ok ops ∧ written ops = [1, 5, 0] := by
  obtain ⟨ops, h, _, h'⟩ := C77_write (Value.write .little .w16) (Scalar.writeTo .little 2)
    (fun a => let ⟨ops, h, _, h'⟩ := C74_write .little .w16 a; ⟨ops, h, h'⟩) (some 5)
  exact ⟨ops, h, h'.trans (by decide)⟩

/-! ## C78: lists and arrays -/

theorem chain_det {f : Parser α} {b r r' : Bytes} {xs ys : List α} (h : Chain f b xs r)
    (h' : Chain f b ys r') (hl : xs.length = ys.length) : xs = ys := by
  induction h generalizing ys r' with
  | nil b => exact (List.length_eq_zero_iff.mp hl.symm).symm
  | @cons b rest m v vs hf _ ih =>
    cases h' with
    | nil => simp at hl
    | @cons _ _ m' v' vs' hf' hch' =>
      rw [hf] at hf'; cases hf'
      rw [ih hch' (by simpa using hl)]

theorem items_same {d : Build} {fr : Parser α} {fs : FromSlice α} (hc : fr.Cut) (ha : Agree fr fs)
    (hp : d = .debug → ∀ b m, fr b = .ok m → 0 < m.size) (n : Nat) (v : View) (h : v.WF) :
    (∀ k, Proto.Lst.scanR fr n v.bytes = .ok k → ∃ xs, items d fs n v = .ok (k, xs) ∧
      xs.length = n ∧ Chain fr v.bytes xs (v.bytes.drop k)) ∧
    (∀ x, Proto.Lst.scanR fr n v.bytes = .err x →
      Same (.err x : R (Nat × List α)) (items d fs n v)) ∧
    (Proto.Lst.scanR fr n v.bytes = .panic → items d fs n v = .panic) := by
  induction n generalizing v with
  | zero =>
    refine ⟨fun k hk => ?_, fun x hx => (nomatch hx), fun hx => (nomatch hx)⟩
    cases hk
    exact ⟨[], rfl, rfl, by simpa using Chain.nil v.bytes⟩
  | succ n ih =>
    have hag := ha v h
    simp only [Proto.Lst.scanR, items]
    cases hf : fr v.bytes with
    | err x =>
      rw [hf] at hag
      refine ⟨fun k hk => (nomatch hk), fun y hy => ?_, fun hx => (nomatch hx)⟩
      cases hy
      generalize fs v = y at hag
      cases hag with
      | truncated => exact .truncated
      | utf8 => exact .utf8
      | discriminant n => exact .discriminant n
    | panic =>
      rw [hf] at hag
      refine ⟨fun k hk => (nomatch hk), fun y hy => (nomatch hy), fun _ => ?_⟩
      rw [hag.of_panic]; rfl
    | ok m =>
      rw [hf] at hag
      rw [hag.of_ok]
      have hle := (hc _ _ _ hf).1
      obtain ⟨s, hs, hw, hsb, -⟩ := View.dropFrom_ok h (d := d) (a := m.size)
        (fun hd => hp hd _ _ hf) hle
      obtain ⟨i1, i2, i3⟩ := ih s hw
      rw [hsb] at i1 i2 i3
      simp only [Res.bind_ok, hs]
      refine ⟨fun k hk => ?_, fun y hy => ?_, fun hx => ?_⟩
      · cases hsc : Proto.Lst.scanR fr n (v.bytes.drop m.size) with
        | err x => rw [hsc] at hk; cases hk
        | panic => rw [hsc] at hk; cases hk
        | ok j =>
          rw [hsc] at hk
          cases hk
          obtain ⟨xs, e1, e2, e3⟩ := i1 j hsc
          refine ⟨m.data :: xs, by rw [e1]; rfl, by simp [e2], .cons (m := m.size) hf ?_⟩
          rwa [List.drop_drop] at e3
      · cases hsc : Proto.Lst.scanR fr n (v.bytes.drop m.size) with
        | ok j => rw [hsc] at hy; cases hy
        | panic => rw [hsc] at hy; cases hy
        | err x =>
          rw [hsc] at hy
          cases hy
          have := i2 _ hsc
          generalize items d fs n s = z at this
          cases this with
          | truncated => exact .truncated
          | utf8 => exact .utf8
          | discriminant n => exact .discriminant n
      · cases hsc : Proto.Lst.scanR fr n (v.bytes.drop m.size) with
        | ok j => rw [hsc] at hx; cases hx
        | err x => rw [hsc] at hx; cases hx
        | panic => rw [i3 hsc]; rfl

/-- C78: a list that the Rust library reads is read by the Swift library with the same size and the
same items, given that the items are, that the array can be allocated and that the list is not
empty.  In a debug build the items must not be empty either. -/
theorem C78_list (d : Build) (F : Foundation) (e : Endian) (w : Width) (fr : Parser α)
    (fs : FromSlice α) (hc : fr.Cut) (ha : Agree fr fs)
    (hp : d = .debug → ∀ b m, fr b = .ok m → 0 < m.size) (v : View) (h : v.WF) (k : Nat)
    (l : Seq Bytes) (hr : Proto.Lst.fromSlice e w.size fr v.bytes = .ok ⟨k, l⟩) (hn : l.len ≠ 0)
    (hi : l.len ≤ 2 ^ 63 - 1) (hres : F.canReserve l.len = true) :
    ∃ xs, Lst.read d F (Value.read d F e w) fs v = .ok ⟨k, xs⟩ ∧ xs.length = l.len ∧
      ∀ j, Proto.Lst.steps fr (l.len + j) l =
        xs.map (fun x => some (.ok x)) ++ List.replicate j none := by
  obtain ⟨hlen, vs, hvl, hch, hst⟩ := C33_decoded e w.size fr hc v.bytes k l hr
  obtain ⟨j, hsz, -, hs, rfl, hd⟩ := (Lst.fromSlice_eq_ok hc).mp hr
  obtain ⟨s, hsv, hw, hsb, -⟩ := View.dropFrom_ok h (d := d) (a := w.size)
    (fun _ => by cases w <;> decide) hsz
  obtain ⟨xs, e1, e2, e3⟩ := (items_same hc ha hp l.len s hw).1 j (by rw [hsb]; exact hs)
  rw [hsb] at e3
  have hxs : xs = vs := chain_det e3 hch (by rw [e2, hvl])
  refine ⟨xs, ?_, e2, by rw [hxs]; exact hst⟩
  unfold Lst.read
  rw [C74_digits d F e w v h, if_pos hsz]
  simp only [Res.bind_ok, hsv, ← hlen]
  unfold loop
  rw [toInt, if_pos (show _ ≤ intMax from hi)]
  simp only [Res.bind_ok]
  rw [if_pos hres, if_neg hn, e1]
  simp [Nat.add_comm]

/-- C78: an empty list stops the program, as does a count for which no array can be allocated,
whatever follows the count. -/
theorem C78_list_empty (d : Build) (F : Foundation) (e : Endian) (w : Width) (fs : FromSlice α)
    (v : View) (h : v.WF) (hsz : w.size ≤ v.bytes.length)
    (hn : intOfWire e (v.bytes.take w.size) = 0 ∨ 2 ^ 63 - 1 < intOfWire e (v.bytes.take w.size) ∨
      F.canReserve (intOfWire e (v.bytes.take w.size)) = false) :
    Lst.read d F (Value.read d F e w) fs v = .panic := by
  obtain ⟨s, hsv, hw, hsb, -⟩ := View.dropFrom_ok h (d := d) (a := w.size)
    (fun _ => by cases w <;> decide) hsz
  unfold Lst.read
  rw [C74_digits d F e w v h, if_pos hsz]
  simp only [Res.bind_ok, hsv]
  suffices H : loop d F fs (intOfWire e (v.bytes.take w.size)) s = .panic by rw [H]; rfl
  unfold loop
  by_cases hi : intOfWire e (v.bytes.take w.size) ≤ intMax
  · rw [toInt, if_pos hi]
    simp only [Res.bind_ok]
    split
    · next hr =>
      rcases hn with hn | hn | hn
      · rw [if_pos hn]
      · unfold intMax at hi; omega
      · rw [hr] at hn; cases hn
    · rfl
  · rw [toInt, if_neg hi]; rfl

example (F : Foundation) (fs : FromSlice Nat) :
    Lst.read .debug F (Value.read .debug F .little .w8) fs ⟨[0, 1, 2], 0, 3⟩ = .panic :=
  C78_list_empty .debug F .little .w8 fs _ ⟨by decide, by decide, by decide⟩ (by decide)
    (.inl (by decide))

/-- C78: a list that the Rust library rejects is rejected with the same error, under the same
conditions; a missing count is always reported. -/
theorem C78_list_error (d : Build) (F : Foundation) (e : Endian) (w : Width) (fr : Parser α)
    (fs : FromSlice α) (hc : fr.Cut) (ha : Agree fr fs)
    (hp : d = .debug → ∀ b m, fr b = .ok m → 0 < m.size) (v : View) (h : v.WF) (x : Proto.Error)
    (hr : Proto.Lst.fromSlice e w.size fr v.bytes = .err x)
    (hres : w.size ≤ v.bytes.length → intOfWire e (v.bytes.take w.size) ≤ 2 ^ 63 - 1 ∧
      F.canReserve (intOfWire e (v.bytes.take w.size)) = true) :
    Same (.err x : R (Msg (List α))) (Lst.read d F (Value.read d F e w) fs v) := by
  rw [Lst.fromSlice_eq hc] at hr
  unfold Lst.read
  rw [C74_digits d F e w v h]
  split at hr
  · next hsz =>
    obtain ⟨hi, hres⟩ := hres hsz
    rw [if_pos hsz]
    obtain ⟨s, hsv, hw, hsb, -⟩ := View.dropFrom_ok h (d := d) (a := w.size)
      (fun _ => by cases w <;> decide) hsz
    simp only [Res.bind_ok, hsv]
    have hsc : Proto.Lst.scanR fr (intOfWire e (v.bytes.take w.size)) (v.bytes.drop w.size)
        = .err x := by
      cases hsc : Proto.Lst.scanR fr (intOfWire e (v.bytes.take w.size)) (v.bytes.drop w.size) with
      | ok j => rw [hsc] at hr; cases hr
      | panic => rw [hsc] at hr; cases hr
      | err y => rw [hsc] at hr; cases hr; rfl
    have hn : intOfWire e (v.bytes.take w.size) ≠ 0 := by
      intro hh; rw [hh] at hsc; cases hsc
    have := (items_same hc ha hp _ s hw).2.1 x (by rw [hsb]; exact hsc)
    unfold loop
    rw [toInt, if_pos (show _ ≤ intMax from hi)]
    simp only [Res.bind_ok]
    rw [if_pos hres, if_neg hn]
    generalize items d fs _ s = z at this
    cases this with
    | truncated => exact .truncated
    | utf8 => exact .utf8
    | discriminant n => exact .discriminant n
  · next hsz => rw [if_neg hsz]; cases hr; exact .truncated

theorem items_fixed {d : Build} {fs : FromSlice α} {isz : Nat} {g : Bytes → α} (hz : 0 < isz)
    (hf : ∀ v : View, v.WF → isz ≤ v.bytes.length → fs v = .ok ⟨isz, g (v.bytes.take isz)⟩)
    (n : Nat) (v : View) (h : v.WF) (hl : n * isz ≤ v.bytes.length) :
    items d fs n v = .ok (n * isz, (List.range n).map fun i =>
      g ((v.bytes.drop (i * isz)).take isz)) := by
  induction n generalizing v with
  | zero => simp [items]
  | succ n ih =>
    have hl' : n * isz + isz ≤ v.bytes.length := by rwa [Nat.succ_mul] at hl
    obtain ⟨s, hs, hw, hsb, -⟩ := View.dropFrom_ok h (d := d) (a := isz) (fun _ => hz) (by omega)
    simp only [items, hf v h (by omega), Res.bind_ok, hs]
    rw [ih s hw (by rw [hsb, List.length_drop]; omega)]
    simp only [Res.bind_ok, Res.pure_eq, hsb, List.drop_drop]
    rw [List.range_succ_eq_map]
    simp only [List.map_cons, List.map_map, Nat.zero_mul, List.drop_zero]
    congr 3
    · rw [Nat.succ_mul]; omega
    · apply List.map_congr_left
      intro i _
      simp only [Function.comp]
      rw [Nat.succ_mul, Nat.add_comm]

/-- C78: what reading an array of items of a fixed size does, for every buffer: an empty array stops
the program, and so does one that cannot be allocated or whose size is beyond `Int.max`. -/
theorem C78_array_exact (d : Build) (F : Foundation) (e : Endian) (w : Width)
    (fs : FromSlice α) (isz : Nat) (g : Bytes → α) (hz : 0 < isz)
    (hf : ∀ v : View, v.WF → isz ≤ v.bytes.length → fs v = .ok ⟨isz, g (v.bytes.take isz)⟩)
    (v : View) (h : v.WF) :
    let n := intOfWire e (v.bytes.take w.size)
    Arr.read d F isz (Value.read d F e w) fs v =
      if v.bytes.length < w.size then .err .truncated
      else if 2 ^ 63 - 1 < w.size + n * isz then .panic
      else if v.bytes.length < w.size + n * isz then .err .truncated
      else if n = 0 ∨ F.canReserve n = false then .panic
      else .ok ⟨w.size + n * isz, (List.range n).map fun i =>
        g ((v.bytes.drop (w.size + i * isz)).take isz)⟩ := by
  intro n
  unfold Arr.read
  rw [C74_digits d F e w v h]
  by_cases hsz : w.size ≤ v.bytes.length
  · obtain ⟨s, hsv, hw, hsb, -⟩ := View.dropFrom_ok h (d := d) (a := w.size)
      (fun _ => by cases w <;> decide) hsz
    rw [if_pos hsz, if_neg (by omega)]
    simp only [Res.bind_ok, hsv]
    have hnn : n ≤ n * isz := Nat.le_mul_of_pos_right n hz
    change (toInt n >>= fun n' => _) = _
    by_cases hbig : 2 ^ 63 - 1 < w.size + n * isz
    · rw [if_pos hbig]
      by_cases h1 : n ≤ intMax
      · rw [toInt, if_pos h1]
        simp only [Res.bind_ok]
        by_cases h2 : n * isz ≤ intMax
        · rw [toInt, if_pos h2]
          simp only [Res.bind_ok]
          rw [toInt, if_neg (by unfold intMax; omega)]; rfl
        · rw [toInt, if_neg h2]; rfl
      · rw [toInt, if_neg h1]; rfl
    · rw [if_neg hbig, toInt, if_pos (by unfold intMax; omega)]
      simp only [Res.bind_ok]
      rw [toInt, if_pos (by unfold intMax; omega)]
      simp only [Res.bind_ok]
      rw [toInt, if_pos (by unfold intMax; omega)]
      simp only [Res.bind_ok, h.size]
      by_cases hs : v.bytes.length < w.size + n * isz
      · rw [if_pos hs, if_pos (by omega)]
      · rw [if_neg hs, if_neg (by omega)]
        change (loop d F fs n s >>= fun x => _) = _
        unfold loop
        rw [toInt, if_pos (by unfold intMax; omega)]
        simp only [Res.bind_ok]
        by_cases hr : F.canReserve n = true
        · rw [if_pos hr]
          by_cases hn : n = 0
          · rw [if_pos hn, if_pos (.inl hn)]; rfl
          · rw [if_neg hn, if_neg (by simp [hn, hr]),
              items_fixed hz hf n s hw (by rw [hsb, List.length_drop]; omega)]
            simp [hsb, List.drop_drop]
        · rw [if_neg hr, if_pos (.inr (by simpa using hr))]; rfl
  · rw [if_neg hsz, if_pos (by omega)]; rfl

/-- C78: an array that the Rust library reads is read by the Swift library with the same size and the
same items, if it is not empty and can be allocated. -/
theorem C78_array (p : Profile) (d : Build) (F : Foundation) (e : Endian) (w : Width)
    (fs : FromSlice α) (isz : Nat) (g : Bytes → α) (hz : 0 < isz)
    (hf : ∀ v : View, v.WF → isz ≤ v.bytes.length → fs v = .ok ⟨isz, g (v.bytes.take isz)⟩)
    (v : View) (h : v.WF) (hfit : w.size + intOfWire e (v.bytes.take w.size) * isz < 2 ^ 64)
    (k : Nat) (a : Seq Bytes) (hr : Proto.Arr.fromSlice p e w.size isz v.bytes = .ok ⟨k, a⟩)
    (hn : a.len ≠ 0) (hres : F.canReserve a.len = true) :
    ∃ xs, Arr.read d F isz (Value.read d F e w) fs v = .ok ⟨k, xs⟩ ∧ xs.length = a.len ∧
      ∀ i, i < a.len → ∃ b, Proto.Arr.get p isz a i = .ok b ∧ xs[i]? = some (g b) := by
  obtain ⟨h1, h2, h3⟩ := C34_decoded p e w.size isz v.bytes k a hfit hr
  have hr' := hr
  rw [C34_decode p e w.size isz v.bytes hfit] at hr'
  have hex := C78_array_exact d F e w fs isz g hz hf v h
  simp only at hex
  split at hr'
  · cases hr'
  · next hsz =>
    split at hr'
    · cases hr'
    · next hlen =>
      cases hr'
      have hle := h.length_le
      simp only at hn hres h1
      rw [if_neg hsz, if_neg (by omega), if_neg hlen, if_neg (by simp [hn, hres])] at hex
      refine ⟨_, hex, by simp, fun i hi => ?_⟩
      simp only at hi
      have hii : (i + 1) * isz ≤ intOfWire e (v.bytes.take w.size) * isz :=
        Nat.mul_le_mul_right _ hi
      rw [Nat.succ_mul] at hii
      refine ⟨_, C34_get p isz _ i h1 (by rw [h1]; omega) hi, ?_⟩
      rw [List.getElem?_map, List.getElem?_range hi, Option.map_some]
      simp only [List.drop_take, List.take_take, List.drop_drop]
      congr 3; omega

theorem writeItems_ok (ws : WriteTo α) (wr : α → Bytes) (xs : List α)
    (hw : ∀ a ∈ xs, ∃ ops, ws a = .ok ops ∧ written ops = wr a) :
    ∃ ops, Lst.writeItems ws xs = .ok ops ∧ written ops = xs.flatMap wr := by
  induction xs with
  | nil => exact ⟨[], rfl, rfl⟩
  | cons x xs ih =>
    obtain ⟨o1, a1, b1⟩ := hw x (by simp)
    obtain ⟨o2, a2, b2⟩ := ih fun a ha => hw a (by simp [ha])
    refine ⟨o1 ++ o2, by simp [Lst.writeItems, a1, a2], ?_⟩
    rw [List.flatMap_cons, ← b1, ← b2]; simp [written]

/-- C78: a list or array is written as its count followed by its items, which is what the Rust list
builder produces for them, unless the count does not fit its prefix of 1, 4 or 8 bytes, which stops
the program. -/
theorem C78_write (e : Endian) (w : Width) (ws : WriteTo α) (wr : α → Out) (xs : List α)
    (hw : ∀ a ∈ xs, ∃ ops, ws a = .ok ops ∧ written ops = (wr a).bytes)
    (hok : ∀ a ∈ xs, (wr a).res = .ok ()) :
    (xs.length < 256 ^ w.size ∨ w = .w16 →
      ∃ ops, Lst.write w (Value.write e w) ws xs = .ok ops ∧
        written ops = wireInt e w.size xs.length ++ xs.flatMap (fun a => (wr a).bytes) ∧
        ∃ l, Seq.writeItems Sink.vec (xs.map wr) (Seq.new []) = (.ok (), l) ∧
          written ops = (l.writeTo e w.size).bytes) ∧
    (¬xs.length < 256 ^ w.size → w ≠ .w16 →
      Lst.write w (Value.write e w) ws xs = .panic) := by
  refine ⟨fun hs => ?_, fun hs hw => ?_⟩
  · have hmod : wireInt e w.size (xs.length % 256 ^ w.size) = wireInt e w.size xs.length := by
      cases e <;> simp [wireInt, natBe, natLe_mod]
    have hf : fromUInt w xs.length = .ok (xs.length % 256 ^ w.size) := by
      rcases hs with hs | rfl
      · rw [fromUInt_ok hs, Nat.mod_eq_of_lt hs]
      · rfl
    obtain ⟨ops, h1, h2⟩ := writeItems_ok ws (fun a => (wr a).bytes) xs hw
    have hwr : written (.bytes (toBytes e w (xs.length % 256 ^ w.size)) :: ops) =
        wireInt e w.size xs.length ++ xs.flatMap (fun a => (wr a).bytes) := by
      rw [← h2]; simp [written, Op.data, toBytes_eq, hmod]
    refine ⟨.bytes (toBytes e w (xs.length % 256 ^ w.size)) :: ops, ?_, hwr, ?_⟩
    · simp [Lst.write, hf, Value.write, h1]
    · refine ⟨_, C31_builder wr (Seq.new []) xs hok, ?_⟩
      rw [hwr, Seq.writeTo_bytes]; simp [Seq.new]
  · have : fromUInt w xs.length = .panic := by
      cases w <;> simp only [fromUInt, Width.size] at hs hw ⊢
      · rw [if_neg (by omega)]
      · exact absurd rfl hw
      · rw [if_neg (by omega)]
      · rw [if_neg (by omega)]
    simp [Lst.write, this]

/-! ## Concrete cases -/

namespace Ex

/-- A Foundation that traps wherever it may. -/
def F : Foundation where
  byteBeyond := fun _ _ => none
  copyBeyond := fun _ _ _ => none
  copyBeyond_length := fun _ _ _ _ h => nomatch h
  sliceBeyond := fun _ _ _ => none
  repair := fun b => if validUtf8 b then b else []
  repair_valid := fun b h => by rw [if_pos h]
  repair_utf8 := fun b => by
    split
    · assumption
    · exact validUtf8_iff [] |>.mpr ⟨[], rfl⟩
  canReserve := fun n => n < 1000

/-- "ab" in front of other data. -/
example : (View.whole [0x61, 0x62, 0, 9]).WF ∧
    Proto.NullTerminated.fromSlice (View.whole [0x61, 0x62, 0, 9]).bytes = .ok ⟨3, [0x61, 0x62]⟩ ∧
    NullTerminated.read .debug F (View.whole [0x61, 0x62, 0, 9]) = .ok ⟨3, [0x61, 0x62]⟩ := by
  have h : (View.whole [0x61, 0x62, 0, 9]).WF := View.whole_wf (by decide)
  have hr : Proto.NullTerminated.fromSlice (View.whole [0x61, 0x62, 0, 9]).bytes =
      .ok ⟨3, [0x61, 0x62]⟩ := NullTerminated.fromSlice_eq_ok.mpr
    ⟨[9], rfl, by decide, validUtf8_iff _ |>.mpr ⟨['a', 'b'], by decide⟩, rfl⟩
  exact ⟨h, hr, (C76_null .debug F _ h _ hr).mpr ⟨rfl, by simp⟩⟩

/-- The same string behind one byte of a message: the Swift library takes three bytes of text. -/
example : NullTerminated.read .release F ⟨[7, 0x61, 0x62, 0, 9], 1, 5⟩ =
    .ok ⟨4, F.repair [0x61, 0x62, 0]⟩ :=
  C76_null_exact .release F _ ⟨by decide, by decide, by decide⟩ [0x61, 0x62] [9] rfl (by decide)

/-- An optional byte. -/
example : Opt.read .debug F (Value.read .debug F .little .w8) (View.whole [1, 5, 6]) =
    .ok ⟨1, some 5⟩ := by rfl

/-- Two bytes in a list with a count of one byte, and no byte. -/
example : Lst.read .debug F (Value.read .debug F .little .w8) (Value.read .debug F .little .w8)
    (View.whole [2, 5, 6, 7]) = .ok ⟨3, [5, 6]⟩ := by rfl

example : Lst.read .debug F (Value.read .debug F .little .w8) (Value.read .debug F .little .w8)
    (View.whole [0, 5]) = .panic := by rfl

/-- Text that is not UTF-8 is repaired. -/
example : NullTerminated.read .debug F (View.whole [0xFF, 0, 9]) = .ok ⟨2, F.repair [0xFF]⟩ := by
  have hr : Proto.NullTerminated.fromSlice (View.whole [0xFF, 0, 9]).bytes = .err .invalidUtf8 := by decide
  obtain ⟨s, t, h1, h2, -, h4⟩ := (C76_null_utf8 .debug F (View.whole [0xFF, 0, 9]) (View.whole_wf (by decide)) hr).2 rfl
  rw [h4]
  have h1 : [0xFF, 0, 9] = s ++ 0 :: t := h1
  cases s with
  | nil => cases h1
  | cons x s =>
    cases s with
    | nil => cases h1; rfl
    | cons y s =>
      injection h1 with hx h1
      injection h1 with hy h1
      subst hy
      simp at h2

example : Varchar.read .debug F (Value.read .debug F .little .w8) (View.whole [2, 0x61, 0x62, 9]) =
    .ok ⟨3, [0x61, 0x62]⟩ :=
  C76_varchar .checked .debug F .little .w8 (View.whole [2, 0x61, 0x62, 9]) (View.whole_wf (by decide))
    ⟨3, [0x61, 0x62]⟩ (by decide)

/-- A length beyond the end of the buffer takes bytes from behind it, in release builds. -/
example : Varchar.read .release F (Value.read .release F .little .w8) ⟨[2, 0x61, 0x62, 9], 0, 2⟩ =
    .ok ⟨3, F.repair [0x61, 0x62]⟩ :=
  C76_varchar_exact .release F .little .w8 ⟨[2, 0x61, 0x62, 9], 0, 2⟩ ⟨by decide, by decide, by decide⟩

example (v : View) : Varchar.read .debug F (fun _ => .ok ⟨1, 1⟩) v ≠ .err .invalidUTF8 :=
  (C76_never_utf8 .debug F (fun _ => .ok ⟨1, 1⟩) (by simp) v).2

example : ∃ n, 3 = n + 1 ∧
    Opt.read .debug F (Value.read .debug F .little .w16) (View.whole [1, 5, 0, 9]) = .ok ⟨n, some 5⟩ :=
  (C77_exact .debug F (Scalar.fromSlice .little 2) _ (C74_read .debug F .little .w16) (View.whole [1, 5, 0, 9])
    (View.whole_wf (by decide)) ⟨3, some 5⟩ (by rfl)).2 5 rfl

/-- Two items of two bytes. -/
theorem items (v : View) (h : v.WF) (hl : 2 ≤ v.bytes.length) :
    Value.read .debug F .big .w16 v = .ok ⟨2, intOfWire .big (v.bytes.take 2)⟩ := by
  rw [C74_digits .debug F .big .w16 v h, if_pos (show Width.w16.size ≤ _ from hl)]
  rfl

example : ∃ xs, Arr.read .debug F 2 (Value.read .debug F .little .w8) (Value.read .debug F .big .w16)
    (View.whole [2, 0, 5, 1, 0, 9]) = .ok ⟨5, xs⟩ ∧ xs.length = 2 := by
  obtain ⟨xs, h1, h2, -⟩ := C78_array .checked .debug F .little .w8 _ 2 (intOfWire .big) (by decide) items
    (View.whole [2, 0, 5, 1, 0, 9]) (View.whole_wf (by decide)) (by decide) 5 ⟨[0, 5, 1, 0], 2⟩ (by rfl) (by decide)
    (by decide)
  exact ⟨xs, h1, h2⟩

example : Arr.read .debug F 2 (Value.read .debug F .little .w8) (Value.read .debug F .big .w16)
    (View.whole [2, 0, 5, 1, 0, 9]) = .ok ⟨5, [5, 256]⟩ :=
  (C78_array_exact .debug F .little .w8 _ 2 (intOfWire .big) (by decide) items (View.whole [2, 0, 5, 1, 0, 9])
    (View.whole_wf (by decide))).trans (by decide)

example : ∃ xs, Lst.read .debug F (Value.read .debug F .little .w8) (Value.read .debug F .big .w16)
    (View.whole [2, 0, 5, 1, 0, 9]) = .ok ⟨5, xs⟩ ∧ xs.length = 2 := by
  obtain ⟨xs, h1, h2, -⟩ := C78_list .debug F .little .w8 (Scalar.fromSlice .big 2) _ (Scalar.cut .big 2)
    (C74_read .debug F .big .w16) (fun _ b m h => by rw [(Scalar.fromSlice_eq_ok.1 h).2]; exact Nat.zero_lt_two)
    (View.whole [2, 0, 5, 1, 0, 9]) (View.whole_wf (by decide)) 5 ⟨[0, 5, 1, 0], 2⟩ (by rfl) (by decide)
    (by decide) (by decide)
  exact ⟨xs, h1, h2⟩

example : Same (.err .truncated : R (Msg (List Nat))) (Lst.read .debug F (Value.read .debug F .little .w8)
    (Value.read .debug F .big .w16) (View.whole [2, 0, 5, 1])) :=
  C78_list_error .debug F .little .w8 (Scalar.fromSlice .big 2) _ (Scalar.cut .big 2)
    (C74_read .debug F .big .w16) (fun _ b m h => by rw [(Scalar.fromSlice_eq_ok.1 h).2]; exact Nat.zero_lt_two)
    (View.whole [2, 0, 5, 1]) (View.whole_wf (by decide)) .truncated (by rfl) (fun _ => ⟨by decide, by decide⟩)

example : ∃ ops, Lst.write .w8 (Value.write .little .w8) (Value.write .big .w16) [5, 256] = .ok ops ∧
    written ops = [2, 0, 5, 1, 0] := by
  obtain ⟨ops, h1, h2, -⟩ := (C78_write .little .w8 (Value.write .big .w16) (Scalar.writeTo .big 2) [5, 256]
    (fun a _ => by
      obtain ⟨ops, h1, -, h3⟩ := C74_write .big .w16 a
      exact ⟨ops, h1, h3⟩)
    (fun a _ => rfl)).1 (.inl (by decide))
  exact ⟨ops, h1, h2.trans (by decide)⟩

end Ex

end Proto.Sw
