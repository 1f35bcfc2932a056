import Verif.Swift.Lemmas

/-!
# C83: parts of a Swift buffer, searching and copying
-/

namespace Proto.Sw

open Proto

/-! ## Subscripts -/

theorem assert_eq (d : Build) (b : Bool) (k : Unit → S α) :
    (assert d b >>= k) = if d = .debug ∧ b = false then .panic else k () := by
  cases d <;> cases b <;> simp [assert]

/-- C83: `buffer[a...b]` is the part from `a` up to, not including, `b`.  It stops the program exactly
when `b < a`, and in debug builds when `b` is larger than the buffer; in release builds it then reaches
past the buffer. -/
theorem C83_closed (d : Build) (v : View) (a b : Nat) :
    v.closed d a b =
      if a ≤ b ∧ (d = .debug → (b : Int) ≤ (v.fin : Int) - v.start)
      then .ok ⟨v.all, v.start + a, v.start + b⟩ else .panic := by
  unfold View.closed View.size
  by_cases h : b < a
  · rw [if_pos h, if_neg (by omega)]
  · rw [if_neg h, assert_eq, assert_eq]
    by_cases hd : d = .debug
    · subst hd
      simp only [true_and, forall_const, decide_eq_false_iff_not]
      repeat' split
      all_goals first | rfl | omega
    · simp [hd]; omega

example : View.closed .debug ⟨[1, 2, 3, 4], 1, 4⟩ 1 3 = .ok ⟨[1, 2, 3, 4], 2, 4⟩ ∧
    View.closed .debug ⟨[1, 2, 3, 4], 1, 3⟩ 1 3 = .panic :=
  ⟨C83_closed .debug _ 1 3, C83_closed .debug _ 1 3⟩

/-- C83: `buffer[a...]` is the rest from `a`.  In debug builds it stops the program exactly when `a` is
zero or larger than the buffer; in release builds it never does. -/
theorem C83_from (d : Build) (v : View) (a : Nat) :
    v.dropFrom d a =
      if d = .debug → 0 < a ∧ (a : Int) ≤ (v.fin : Int) - v.start
      then .ok ⟨v.all, v.start + a, v.fin⟩ else .panic := by
  unfold View.dropFrom View.size
  rw [assert_eq, assert_eq]
  by_cases hd : d = .debug
  · subst hd
    simp only [true_and, forall_const, decide_eq_false_iff_not]
    repeat' split
    all_goals first | rfl | omega
  · simp [hd]

example : View.dropFrom .debug ⟨[1, 2, 3, 4], 1, 4⟩ 2 = .ok ⟨[1, 2, 3, 4], 3, 4⟩ ∧
    View.dropFrom .debug ⟨[1, 2, 3, 4], 1, 4⟩ 0 = .panic :=
  ⟨C83_from .debug _ 2, C83_from .debug _ 0⟩

/-- C83: `buffer[...b]` is the beginning up to, not including, `b`.  In debug builds it stops the program
exactly when `b` is zero or larger than the buffer; in release builds it never does. -/
theorem C83_through (d : Build) (v : View) (b : Nat) :
    v.upTo d b =
      if d = .debug → 0 < b ∧ (b : Int) ≤ (v.fin : Int) - v.start
      then .ok ⟨v.all, v.start, v.start + b⟩ else .panic := by
  unfold View.upTo View.size
  rw [assert_eq, assert_eq]
  by_cases hd : d = .debug
  · subst hd
    simp only [true_and, forall_const, decide_eq_false_iff_not]
    repeat' split
    all_goals first | rfl | omega
  · simp [hd]

example : View.upTo .debug ⟨[1, 2, 3, 4], 1, 4⟩ 2 = .ok ⟨[1, 2, 3, 4], 1, 3⟩ ∧
    View.upTo .debug ⟨[1, 2, 3, 4], 1, 4⟩ 0 = .panic :=
  ⟨C83_through .debug _ 2, C83_through .debug _ 0⟩

/-- C83: the bytes of the parts of a buffer within its data. -/
theorem C83_bytes {v : View} (h : v.WF) (d : Build) (a b : Nat) (hb : b ≤ v.bytes.length) :
    (a ≤ b → ∃ s, v.closed d a b = .ok s ∧ s.WF ∧ s.bytes = (v.bytes.drop a).take (b - a)) ∧
    ((d = .debug → 0 < b) → (∃ s, v.dropFrom d b = .ok s ∧ s.WF ∧ s.bytes = v.bytes.drop b) ∧
      ∃ s, v.upTo d b = .ok s ∧ s.WF ∧ s.bytes = v.bytes.take b) := by
  constructor
  · intro hab
    obtain ⟨s, h1, h2, h3, -⟩ := View.closed_ok h d hab hb
    exact ⟨s, h1, h2, h3⟩
  · intro hd
    obtain ⟨s, h1, h2, h3, -⟩ := View.dropFrom_ok h hd hb
    refine ⟨⟨s, h1, h2, h3⟩, ⟨v.all, v.start, v.start + b⟩, ?_, ?_, ?_⟩
    · rw [C83_through, if_pos]
      intro h'
      refine ⟨hd h', ?_⟩
      have := h.length; have := h.order; omega
    · have := h.length; have := h.order; have := h.inside; have := h.small
      exact ⟨by simp, by simp only; omega, h.small⟩
    · have := h.length
      simp only [View.bytes, List.take_take]
      congr 1; omega

example : ∃ s, View.closed .debug ⟨[1, 2, 3, 4], 1, 4⟩ 1 3 = .ok s ∧ s.WF ∧ s.bytes = [3, 4] :=
  (C83_bytes (v := ⟨[1, 2, 3, 4], 1, 4⟩) ⟨by decide, by decide, by decide⟩ .debug 1 3 (by decide)).1
    (by decide)

/-- C83: the parts of a `DataBuffer` share its data, and their writing position is their start. -/
theorem C83_shared (d : Build) (h : Heap) (b : DataBuffer) :
    (∀ lo hi s, b.closed d h lo hi = .ok s → s.data = b.data ∧ s.dataMut = b.dataMut ∧
      s.start = b.start + lo ∧ s.fin = b.start + hi ∧ s.cursor = s.start) ∧
    (∀ lo s, b.dropFrom d h lo = .ok s → s.data = b.data ∧ s.dataMut = b.dataMut ∧
      s.start = b.start + lo ∧ s.fin = b.fin ∧ s.cursor = s.start) ∧
    (∀ hi s, b.upTo d h hi = .ok s → s.data = b.data ∧ s.dataMut = b.dataMut ∧
      s.start = b.start ∧ s.fin = b.start + hi ∧ s.cursor = s.start) := by
  refine ⟨fun lo hi s hs => ?_, fun lo s hs => ?_, fun hi s hs => ?_⟩
  · unfold DataBuffer.closed at hs
    rw [C83_closed] at hs
    split at hs
    · cases Res.ok.inj hs; exact ⟨rfl, rfl, rfl, rfl, rfl⟩
    · cases hs
  · unfold DataBuffer.dropFrom at hs
    rw [C83_from] at hs
    split at hs
    · cases Res.ok.inj hs; exact ⟨rfl, rfl, rfl, rfl, rfl⟩
    · cases hs
  · unfold DataBuffer.upTo at hs
    rw [C83_through] at hs
    split at hs
    · cases Res.ok.inj hs; exact ⟨rfl, rfl, rfl, rfl, rfl⟩
    · cases hs

example (h : Heap) (b s : DataBuffer) (hs : b.closed .release h 1 3 = .ok s) :
    s.dataMut = b.dataMut ∧ s.start = b.start + 1 :=
  let ⟨_, h1, h2, _⟩ := (C83_shared .release h b).1 1 3 s hs; ⟨h1, h2⟩

theorem ite_ok_iff (c : Prop) [Decidable c] (v : α) (k : α → β) :
    (∃ s, ((if c then .ok v else .panic : S α) >>= fun v => pure (k v)) = .ok s) ↔ c := by
  by_cases hc : c
  · simp only [if_pos hc, hc, iff_true]
    exact ⟨_, rfl⟩
  · simp only [if_neg hc, hc, iff_false]
    rintro ⟨_, h⟩
    cases h

/-- C83: the parts succeed exactly when those of what is read through the buffer do. -/
theorem C83_parts (d : Build) (h : Heap) (b : DataBuffer) (lo hi : Nat) :
    ((∃ s, b.closed d h lo hi = .ok s) ↔
      lo ≤ hi ∧ (d = .debug → (hi : Int) ≤ (b.fin : Int) - b.start)) ∧
    ((∃ s, b.dropFrom d h lo = .ok s) ↔
      (d = .debug → 0 < lo ∧ (lo : Int) ≤ (b.fin : Int) - b.start)) ∧
    ((∃ s, b.upTo d h hi = .ok s) ↔
      (d = .debug → 0 < hi ∧ (hi : Int) ≤ (b.fin : Int) - b.start)) := by
  unfold DataBuffer.closed DataBuffer.dropFrom DataBuffer.upTo
  rw [C83_closed, C83_from, C83_through]
  simp only [DataBuffer.view]
  exact ⟨ite_ok_iff _ _ _, ite_ok_iff _ _ _, ite_ok_iff _ _ _⟩

example : ∃ s, (⟨[], some 0, 0, 3, 0⟩ : DataBuffer).upTo .debug [[1, 2, 3]] 2 = .ok s :=
  (C83_parts .debug [[1, 2, 3]] ⟨[], some 0, 0, 3, 0⟩ 0 2).2.2.mpr (by decide)

/-! ## New buffers -/

/-- C83: a buffer made of bytes, of immutable data or of memory shows exactly those, and writing begins at
its start.  Writing to the first and the last kind changes an object no other buffer has; writing to a
buffer made of an `NSMutableData` changes that object. -/
theorem C83_new (h : Heap) (b : Bytes) (r : Nat) (hr : h[r]? = some b) :
    (∀ h' x, (h', x) = DataBuffer.ofBytes h b ∨ (h', x) = DataBuffer.mutable h b →
      x.view h' = ⟨b, 0, b.length⟩ ∧ x.cursor = 0 ∧ x.dataMut = some h.length ∧ h[h.length]? = none ∧
      ∀ k, k < h.length → h'[k]? = h[k]?) ∧
    (DataBuffer.immutable b).view h = ⟨b, 0, b.length⟩ ∧ (DataBuffer.immutable b).cursor = 0 ∧
    (DataBuffer.immutable b).dataMut = none ∧
    (DataBuffer.over h r).view h = ⟨b, 0, b.length⟩ ∧ (DataBuffer.over h r).cursor = 0 ∧
    (DataBuffer.over h r).dataMut = some r ∧
    (∀ h' x, (h', x) = DataBuffer.new h →
      x.view h' = ⟨[], 0, 0⟩ ∧ x.cursor = 0 ∧ x.dataMut = some h.length) ∧
    DataBuffer.new h = DataBuffer.ofBytes h [] := by
  refine ⟨?_, rfl, rfl, rfl, ?_, rfl, rfl, ?_, rfl⟩
  · rintro h' x (hx | hx)
    all_goals
      cases hx
      refine ⟨?_, rfl, rfl, by simp, fun k hk => List.getElem?_append_left hk⟩
      simp [DataBuffer.view, DataBuffer.get]
  · simp [DataBuffer.over, DataBuffer.view, DataBuffer.get, hr]
  · rintro h' x hx
    cases hx
    simp [DataBuffer.view, DataBuffer.get]

example : (DataBuffer.over [[7], [1, 2]] 1).view [[7], [1, 2]] = ⟨[1, 2], 0, 2⟩ :=
  (C83_new [[7], [1, 2]] [1, 2] 1 rfl).2.2.2.2.1

/-! ## Single bytes -/

/-- C83: `buffer[i]` is byte `i` of the buffer; beyond it debug builds stop and release builds read on in
the data. -/
theorem C83_byte {v : View} (h : v.WF) (d : Build) (F : Foundation) (i : Nat) :
    (∀ x, v.bytes[i]? = some x → v.byte d F i = .ok x) ∧
    (v.bytes.length ≤ i → v.byte .debug F i = .panic) ∧
    (∀ x, v.all[v.start + i]? = some x → v.byte .release F i = .ok x) := by
  refine ⟨fun x hx => View.byte_ok h d F hx, fun hi => ?_, fun x hx => ?_⟩
  · unfold View.byte
    rw [assert_neg (by rw [h.size]; simpa using hi)]
    rfl
  · unfold View.byte
    simp [assert, hx]

example (F : Foundation) : View.byte .debug F ⟨[1, 2, 3, 4], 1, 3⟩ 1 = .ok 3 ∧
    View.byte .debug F ⟨[1, 2, 3, 4], 1, 3⟩ 2 = .panic ∧
    View.byte .release F ⟨[1, 2, 3, 4], 1, 3⟩ 2 = .ok 4 :=
  have h : View.WF ⟨[1, 2, 3, 4], 1, 3⟩ := ⟨by decide, by decide, by decide⟩
  ⟨(C83_byte h .debug F 1).1 3 rfl, (C83_byte h .debug F 2).2.1 (by decide),
    (C83_byte h .debug F 2).2.2 4 rfl⟩

/-! ## Searching -/

/-- `i` is the first position of `x`. -/
def FirstAt (x : UInt8) (l : Bytes) (i : Nat) : Prop := l[i]? = some x ∧ ∀ j < i, l[j]? ≠ some x

theorem position_some {x : UInt8} {l : Bytes} {i : Nat} :
    View.position x l = some i ↔ FirstAt x l i := by
  induction l generalizing i with
  | nil => simp [View.position, FirstAt]
  | cons b l ih =>
    unfold View.position
    by_cases hb : b = x
    · subst hb
      simp only [if_true, Option.some.injEq]
      constructor
      · rintro rfl; exact ⟨rfl, by simp⟩
      · rintro ⟨_, h⟩
        cases i with
        | zero => rfl
        | succ i => exact absurd rfl (h 0 (by omega))
    · rw [if_neg hb]
      cases i with
      | zero => simp [FirstAt, hb]
      | succ i =>
        simp only [Option.map_eq_some_iff, Nat.add_right_cancel_iff, exists_eq_right, ih]
        constructor
        · rintro ⟨h1, h2⟩
          refine ⟨h1, fun j hj => ?_⟩
          cases j with
          | zero => simpa using hb
          | succ j => exact h2 j (by omega)
        · rintro ⟨h1, h2⟩
          exact ⟨h1, fun j hj => h2 (j + 1) (by omega)⟩

theorem position_none {x : UInt8} {l : Bytes} : View.position x l = none ↔ x ∉ l := by
  induction l with
  | nil => simp [View.position]
  | cons b l ih =>
    unfold View.position
    by_cases hb : b = x
    · simp [hb]
    · rw [if_neg hb]
      simp [ih, Ne.symm hb]

/-- C83: `findFirst` of a `DataBuffer` finds the first occurrence in the data from the buffer's start on,
also beyond the buffer's end, and gives its position in the data, not in the buffer. -/
theorem C83_find {v : View} (h : v.start ≤ v.all.length) (x : UInt8) :
    (∀ k, v.findFirst x = .ok (some k) ↔ ∃ i, k = v.start + i ∧ FirstAt x (v.all.drop v.start) i) ∧
    (v.findFirst x = .ok none ↔ x ∉ v.all.drop v.start) := by
  unfold View.findFirst
  rw [if_neg (by omega)]
  constructor
  · intro k
    simp only [Res.ok.injEq, Option.map_eq_some_iff, position_some]
    exact ⟨fun ⟨i, h1, h2⟩ => ⟨i, h2.symm, h1⟩, fun ⟨i, h1, h2⟩ => ⟨i, h2, h1.symm⟩⟩
  · simp only [Res.ok.injEq, Option.map_eq_none_iff, position_none]

/-- The position found counts from the start of the data, not of the part. -/
example : View.findFirst ⟨[0, 5, 0, 7], 1, 4⟩ 0 = .ok (some 2) :=
  ((C83_find (v := ⟨[0, 5, 0, 7], 1, 4⟩) (by decide) 0).1 2).mpr
    ⟨1, rfl, by refine ⟨rfl, ?_⟩; intro j hj; have : j = 0 := by omega
                subst this; decide⟩

/-- C83: it stops the program when the buffer begins beyond its data. -/
theorem C83_find_beyond {v : View} (h : v.all.length < v.start) (x : UInt8) :
    v.findFirst x = .panic := by
  unfold View.findFirst
  rw [if_pos h]

example : View.findFirst ⟨[1, 2], 5, 6⟩ 0 = .panic := C83_find_beyond (by decide) 0

theorem findFrom_spec {v : View} (h : v.WF) (d : Build) (F : Foundation) (x : UInt8) :
    ∀ n i, i + n = v.bytes.length →
      v.findFrom d F x n i = .ok ((View.position x (v.bytes.drop i)).map (i + ·))
  | 0, i, hi => by
    rw [List.drop_eq_nil_of_le (by omega)]
    rfl
  | n + 1, i, hi => by
    have hlt : i < v.bytes.length := by omega
    rw [List.drop_eq_getElem_cons hlt]
    unfold View.findFrom
    rw [View.byte_ok h d F (List.getElem?_eq_getElem hlt)]
    simp only [Res.bind_ok, View.position]
    by_cases hb : v.bytes[i] = x
    · simp [hb]
    · rw [if_neg hb, if_neg hb, findFrom_spec h d F x n (i + 1) (by omega)]
      cases View.position x (v.bytes.drop (i + 1)) with
      | none => rfl
      | some k => simp; omega

/-- C83: `findFirst` of the `Buffer` protocol finds the first occurrence in the buffer and gives its
position in the buffer. -/
theorem C83_find_default {v : View} (h : v.WF) (d : Build) (F : Foundation) (x : UInt8) :
    (∀ k, v.defaultFindFirst d F x = .ok (some k) ↔ FirstAt x v.bytes k) ∧
    (v.defaultFindFirst d F x = .ok none ↔ x ∉ v.bytes) := by
  unfold View.defaultFindFirst
  rw [findFrom_spec h d F x _ 0 (by rw [h.size]; simp)]
  constructor
  · intro k
    simp [position_some]
  · simp [position_none]

example (F : Foundation) : View.defaultFindFirst .debug F ⟨[0, 5, 0, 7], 1, 4⟩ 9 = .ok none :=
  (C83_find_default (v := ⟨[0, 5, 0, 7], 1, 4⟩) ⟨by decide, by decide, by decide⟩ .debug F 9).2.mpr
    (by decide)

/-- C83: a `DataBuffer` finds what its protocol's own function finds exactly when the byte does not occur
from the buffer's start on, or the buffer begins with its data and contains it. -/
theorem C83_find_same {v : View} (h : v.WF) (d : Build) (F : Foundation) (x : UInt8) :
    v.findFirst x = v.defaultFindFirst d F x ↔
      x ∉ v.all.drop v.start ∨ (v.start = 0 ∧ x ∈ v.bytes) := by
  have hst : v.start ≤ v.all.length := Nat.le_trans h.order h.inside
  have hb : v.bytes = (v.all.drop v.start).take (v.fin - v.start) := rfl
  obtain ⟨f1, f2⟩ := C83_find hst x
  obtain ⟨g1, g2⟩ := C83_find_default h d F x
  by_cases hx : x ∈ v.all.drop v.start
  · obtain ⟨i, hi⟩ : ∃ i, View.position x (v.all.drop v.start) = some i := by
      cases hp : View.position x (v.all.drop v.start) with
      | none => exact absurd hx (position_none.1 hp)
      | some i => exact ⟨i, rfl⟩
    have hi := position_some.1 hi
    rw [(f1 _).2 ⟨i, rfl, hi⟩]
    constructor
    · intro e
      right
      have hk := (g1 _).1 e.symm
      have hlt : v.start + i < v.bytes.length := (List.getElem?_eq_some_iff.1 hk.1).1
      refine ⟨?_, List.mem_of_getElem? hk.1⟩
      rcases Nat.eq_zero_or_pos v.start with h0 | h0
      · exact h0
      · exfalso
        refine hk.2 i (by omega) ?_
        rw [hb, List.getElem?_take, if_pos (by rw [h.length] at hlt; omega)]
        exact hi.1
    · rintro (hc | ⟨h0, hc⟩)
      · exact absurd hx hc
      · obtain ⟨k, hk⟩ : ∃ k, View.position x v.bytes = some k := by
          cases hp : View.position x v.bytes with
          | none => exact absurd hc (position_none.1 hp)
          | some i => exact ⟨i, rfl⟩
        have hk := position_some.1 hk
        rw [(g1 k).2 hk, h0, Nat.zero_add]
        have hkl : k < v.bytes.length := (List.getElem?_eq_some_iff.1 hk.1).1
        have hsame : ∀ j, j ≤ k → v.bytes[j]? = (v.all.drop v.start)[j]? := by
          intro j hj
          rw [hb, List.getElem?_take, if_pos (by rw [h.length] at hkl; omega)]
        congr 2
        rcases Nat.lt_trichotomy i k with hlt | heq | hgt
        · exact absurd (by rw [hsame i (by omega)]; exact hi.1) (hk.2 i hlt)
        · exact heq
        · exact absurd (by rw [← hsame k (by omega)]; exact hk.1) (hi.2 k hgt)
  · rw [f2.2 hx, g2.2 (fun hc => hx (by rw [hb] at hc; exact List.mem_of_mem_take hc))]
    simp [hx]

example (F : Foundation) : View.findFirst ⟨[0, 5, 0, 7], 1, 4⟩ 0 ≠
    View.defaultFindFirst .debug F ⟨[0, 5, 0, 7], 1, 4⟩ 0 := fun h =>
  absurd ((C83_find_same (v := ⟨[0, 5, 0, 7], 1, 4⟩) ⟨by decide, by decide, by decide⟩ .debug F 0).mp h)
    (by decide)

/-! ## Copying -/

/-- C83: `toData` copies the bytes of a buffer; of an empty buffer it stops the program. -/
theorem C83_data {v : View} (h : v.WF) (F : Foundation) :
    v.toData F = if v.bytes = [] then .panic else .ok v.bytes := by
  have hl := h.length
  have := h.order; have := h.inside
  unfold View.toData
  by_cases hz : v.fin ≤ v.start
  · rw [if_pos hz, if_pos (List.eq_nil_of_length_eq_zero (by omega))]
  · rw [if_neg hz, if_pos h.inside, if_neg (fun e => by rw [e] at hl; simp at hl; omega)]
    rfl

example (F : Foundation) : View.toData F ⟨[1, 2, 3], 1, 2⟩ = .ok [2] :=
  C83_data ⟨by decide, by decide, by decide⟩ F

theorem copyFrom_spec {v : View} (h : v.WF) (d : Build) (F : Foundation) :
    ∀ n i, i + n ≤ v.bytes.length → v.copyFrom d F n i = .ok ((v.bytes.drop i).take n)
  | 0, i, _ => rfl
  | n + 1, i, hi => by
    have hlt : i < v.bytes.length := by omega
    rw [List.drop_eq_getElem_cons hlt]
    unfold View.copyFrom
    rw [View.byte_ok h d F (List.getElem?_eq_getElem hlt), Res.bind_ok,
      copyFrom_spec h d F n (i + 1) (by omega)]
    rfl

/-- C83: `copyTo` of the protocol stores exactly the first `n` bytes, and stops the program when `n` is
zero. -/
theorem C83_copy_default {v : View} (h : v.WF) (d : Build) (F : Foundation) (n : Nat)
    (hn : n ≤ v.bytes.length) :
    v.defaultCopyTo d F n = if n = 0 then .panic else .ok (v.bytes.take n) := by
  unfold View.defaultCopyTo
  split
  · rfl
  · rw [copyFrom_spec h d F n 0 (by omega)]
    rfl

example (F : Foundation) : View.defaultCopyTo .debug F ⟨[1, 2, 3], 1, 3⟩ 1 = .ok [2] :=
  C83_copy_default ⟨by decide, by decide, by decide⟩ .debug F 1 (by decide)

/-- C83: `copyTo` of a `DataBuffer` into eight zero bytes copies one byte more than asked for, wherever
the data goes on; the byte behind the buffer when all of it is asked for. -/
theorem C83_copy {v : View} (h : v.WF) (d : Build) (F : Foundation) (n : Nat)
    (hn : n ≤ v.bytes.length) (hin : v.start + n < v.all.length) :
    ∃ c, v.copyTo8 d F n = .ok c ∧ c.length = 8 ∧
      ∀ i < 8, c[i]? = if i ≤ n then v.all[v.start + i]? else some 0 := by
  refine ⟨((v.all.drop v.start).take (n + 1)).take 8 ++
    List.replicate (8 - (((v.all.drop v.start).take (n + 1)).take 8).length) 0, ?_, ?_, ?_⟩
  · unfold View.copyTo8
    rw [assert_pos d (by rw [h.size]; simpa using hn)]
    simp only [Res.bind_ok]
    rw [if_neg (by omega), if_pos (by simpa using hin)]
    rfl
  · simp; omega
  · intro i hi
    by_cases hle : i ≤ n
    · rw [if_pos hle, List.getElem?_append_left (by simp; omega), List.getElem?_take, if_pos (by omega),
        List.getElem?_take, if_pos (by omega), List.getElem?_drop]
    · rw [if_neg hle, List.getElem?_append_right (by simp; omega), List.getElem?_replicate]
      simp; omega

/-! ## A buffer of two bytes in the middle of four -/

def Ex.middle : View := ⟨[7, 8, 9, 8], 1, 3⟩

theorem Ex.middle_wf : Ex.middle.WF := ⟨by decide, by decide, by decide⟩

example : Ex.middle.bytes = [8, 9] := by decide
example : Ex.middle.findFirst 9 = .ok (some 2) := by decide
example (d : Build) (F : Foundation) : Ex.middle.defaultFindFirst d F 9 = .ok (some 1) :=
  ((C83_find_default Ex.middle_wf d F 9).1 1).2 ⟨by decide, by decide⟩
example : Ex.middle.dropFrom .debug 0 = .panic := by decide
example : Ex.middle.closed .debug 0 2 = .ok Ex.middle := by decide
example (d : Build) (F : Foundation) : ∃ c, Ex.middle.copyTo8 d F 1 = .ok c ∧ c.length = 8 ∧
    ∀ i < 8, c[i]? = if i ≤ 1 then Ex.middle.all[1 + i]? else some 0 :=
  C83_copy Ex.middle_wf d F 1 (by decide) (by decide)

end Proto.Sw
