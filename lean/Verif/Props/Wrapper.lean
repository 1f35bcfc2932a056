import Verif.Runtime.Wrapper
import Verif.Props.Seq
import Verif.Gen.Message

/-!
# C90: the array types of generated code

`generate_array_wrapper!` declares, for each array field, a type around `Array`.
-/

namespace Proto.Props

open Proto

/-! ## Specification: a list of items -/

/-- What a program does with an array. -/
inductive ArrayOp where
  /-- `write_item`; the structure's storage is `b`. -/
  | push (b : Bytes)
  /-- `write_items`. -/
  | pushAll (bs : List Bytes)
  /-- `get_mut` and a change of the item. -/
  | change (i : Nat) (g : Bytes → Bytes)
  /-- `iter_mut` and the same change of each item. -/
  | changeAll (g : Bytes → Bytes)

/-- Its effect on the list of items, `none` for a panic; items have `n` bytes. -/
def ArrayOp.effect (n : Nat) (items : List Bytes) : ArrayOp → Option (List Bytes)
  | .push b => if n ≤ b.length then some (items ++ [b.take n]) else none
  | .pushAll bs => if ∀ b ∈ bs, n ≤ b.length then some (items ++ bs.map (List.take n)) else none
  | .change i g => items[i]?.map fun x => items.set i (g x)
  | .changeAll g => some (items.map g)

/-- The effect of a sequence of operations. -/
def ArrayOp.effects (n : Nat) : List ArrayOp → List Bytes → Option (List Bytes)
  | [], items => some items
  | o :: os, items => (o.effect n items).bind (ArrayOp.effects n os)

/-- Changes keep the size of an item, and the end of the item they concern is a `usize`. -/
def ArrayOp.Sane (n : Nat) : ArrayOp → Prop
  | .change i g => (∀ x, (g x).length = x.length) ∧ (i + 1) * n < 2 ^ 64
  | .changeAll g => ∀ x, (g x).length = x.length
  | _ => True

/-! ## The wrapper -/

/-- The result of a call, as the program sees it. -/
def outcome {α : Type} : R Unit × α → R α
  | (.ok (), a) => .ok a
  | (.err e, _) => .err e
  | (.panic, _) => .panic

/-- Performing an operation on a wrapper over a `Vec<u8>` of structures `s`. -/
def ArrayOp.perform (p : Profile) (s : Structure) (w : ArrayWrapper Bytes) : ArrayOp → R (ArrayWrapper Bytes)
  | .push b => outcome (w.writeItem Sink.vec (s.write b))
  | .pushAll bs => outcome (w.writeItems Sink.vec (bs.map s.write))
  | .change i g => w.modify p s.byteSize i g
  | .changeAll g => w.modifyAll s.byteSize g

/-- Performing a sequence of operations. -/
def ArrayOp.performAll (p : Profile) (s : Structure) : List ArrayOp → ArrayWrapper Bytes → R (ArrayWrapper Bytes)
  | [], w => .ok w
  | o :: os, w => (o.perform p s w).bind (ArrayOp.performAll p s os)

/-! ## Lemmas on lists of items of the same size -/

theorem flatten_length {n : Nat} {items : List Bytes} (h : ∀ x ∈ items, x.length = n) :
    items.flatten.length = items.length * n := by
  induction items with
  | nil => simp
  | cons x xs ih =>
    rw [List.flatten_cons, List.length_append, ih (fun y hy => h y (by simp [hy])), h x (by simp),
      List.length_cons, Nat.add_mul]
    omega

theorem flatten_drop {n : Nat} : ∀ (i : Nat) (items : List Bytes), (∀ x ∈ items, x.length = n) →
    i ≤ items.length → items.flatten.drop (i * n) = (items.drop i).flatten ∧
      items.flatten.take (i * n) = (items.take i).flatten := by
  intro i
  induction i with
  | zero => intro items _ _; simp
  | succ i ih =>
    intro items h hi
    cases items with
    | nil => simp at hi
    | cons x xs =>
      have hx := h x (by simp)
      obtain ⟨h1, h2⟩ := ih xs (fun y hy => h y (by simp [hy])) (by simpa using hi)
      have e : (i + 1) * n = x.length + i * n := by rw [Nat.add_mul, hx]; omega
      rw [List.flatten_cons, List.drop_succ_cons, List.take_succ_cons, List.flatten_cons, e]
      constructor
      · rw [List.drop_length_add_append, h1]
      · rw [List.take_length_add_append, h2]

theorem flatten_window {n i : Nat} {items : List Bytes} (h : ∀ x ∈ items, x.length = n)
    (hi : i < items.length) : (items.flatten.drop (i * n)).take n = items[i] := by
  rw [(flatten_drop i items h (by omega)).1, List.drop_eq_getElem_cons hi, List.flatten_cons]
  have := h _ (List.getElem_mem hi)
  rw [List.take_append_of_le_length (by omega), List.take_of_length_le (by omega)]

theorem flatten_splice {n i : Nat} {items : List Bytes} {y : Bytes} (h : ∀ x ∈ items, x.length = n)
    (hi : i < items.length) (hy : y.length = n) :
    splice items.flatten (i * n) y = (items.set i y).flatten := by
  unfold splice
  have e : i * n + y.length = (i + 1) * n := by rw [Nat.add_mul, hy]; omega
  rw [e, (flatten_drop (i + 1) items h (by omega)).1, (flatten_drop i items h (by omega)).2,
    List.set_eq_take_append_cons_drop, if_pos hi, List.flatten_append, List.flatten_cons,
    List.append_assoc]

theorem chunks_flatten {n : Nat} (hn : 0 < n) {items : List Bytes} (h : ∀ x ∈ items, x.length = n) :
    ArrayCodec.chunks n items.flatten = .ok items := by
  have aux : ∀ (fuel : Nat) (items : List Bytes), (∀ x ∈ items, x.length = n) → items.length ≤ fuel →
      ArrayCodec.chunksAux n fuel items.flatten = items := by
    intro fuel
    induction fuel with
    | zero =>
      intro items _ hl
      cases items with
      | nil => rfl
      | cons x xs => simp at hl
    | succ fuel ih =>
      intro items h hl
      cases items with
      | nil => simp [ArrayCodec.chunksAux]
      | cons x xs =>
        have hx := h x (by simp)
        have hne : (x :: xs).flatten ≠ [] := by
          intro hc
          have := congrArg List.length hc
          rw [List.flatten_cons, List.length_append, hx, List.length_nil] at this
          omega
        unfold ArrayCodec.chunksAux
        rw [if_neg hne, List.flatten_cons, List.take_append_of_le_length (by omega),
          List.take_of_length_le (by omega)]
        have e : (x ++ xs.flatten).drop n = xs.flatten := by
          rw [← hx, List.drop_left]
        rw [e, ih xs (fun y hy => h y (by simp [hy])) (by simpa using hl)]
  unfold ArrayCodec.chunks
  rw [if_neg (by omega), aux _ _ h (by
    rw [flatten_length h]; exact Nat.le_mul_of_pos_right _ hn)]

/-! ## C90 -/

/-- What the wrapper holds. -/
def Held (n : Nat) (items : List Bytes) (w : ArrayWrapper Bytes) : Prop :=
  (∀ x ∈ items, x.length = n) ∧ w.inner.data = items.flatten ∧ w.inner.len = items.length

theorem write_item (s : Structure) (b : Bytes) (w : ArrayWrapper Bytes) :
    w.writeItem Sink.vec (s.write b) =
      if s.byteSize ≤ b.length then (.ok (), ⟨⟨w.inner.data ++ b.take s.byteSize, w.inner.len + 1⟩⟩)
      else (.panic, w) := by
  unfold ArrayWrapper.writeItem
  rw [C32_write_item]
  unfold Structure.write Proto.slice
  by_cases h : s.byteSize ≤ b.length
  · rw [if_pos ⟨Nat.zero_le _, h⟩, if_pos h]
    simp [Out.write, Out.bytes]
  · rw [if_neg (fun hc => h hc.2), if_neg h]
    simp [Out.stop, Out.bytes, Res.bind]

theorem perform_step (p : Profile) (s : Structure) (hn : 0 < s.byteSize) (o : ArrayOp)
    (ho : o.Sane s.byteSize) (items : List Bytes) (w : ArrayWrapper Bytes) (h : Held s.byteSize items w) :
    match o.effect s.byteSize items with
    | some items' => ∃ w', o.perform p s w = .ok w' ∧ Held s.byteSize items' w'
    | none => o.perform p s w = .panic := by
  obtain ⟨hl, hd, hc⟩ := h
  have hlen := flatten_length hl
  cases o with
  | push b =>
    simp only [ArrayOp.effect, ArrayOp.perform, write_item]
    by_cases hb : s.byteSize ≤ b.length
    · simp only [if_pos hb]
      refine ⟨_, rfl, ⟨?_, ?_, ?_⟩⟩
      · intro x hx
        rcases List.mem_append.mp hx with hx | hx
        · exact hl x hx
        · rw [List.mem_singleton.mp hx]; simp; omega
      · simp [hd]
      · simp [hc]
    · simp only [if_neg hb]
      rfl
  | pushAll bs =>
    simp only [ArrayOp.effect, ArrayOp.perform]
    clear ho
    have key : ∀ (bs : List Bytes) (items : List Bytes) (w : ArrayWrapper Bytes), Held s.byteSize items w →
        match (if ∀ b ∈ bs, s.byteSize ≤ b.length then some (items ++ bs.map (List.take s.byteSize)) else none) with
        | some items' => ∃ w', outcome (w.writeItems Sink.vec (bs.map s.write)) = .ok w' ∧
            Held s.byteSize items' w'
        | none => outcome (w.writeItems Sink.vec (bs.map s.write)) = .panic := by
      intro bs
      induction bs with
      | nil =>
        intro items w hw
        simp only [List.map_nil, List.append_nil, List.not_mem_nil, false_implies, implies_true, if_true]
        exact ⟨w, rfl, hw⟩
      | cons b bs ih =>
        intro items w hw
        have hstep : w.writeItems Sink.vec ((b :: bs).map s.write) =
            match w.writeItem Sink.vec (s.write b) with
            | (.ok (), w') => w'.writeItems Sink.vec (bs.map s.write)
            | (r, w') => (r, w') := by
          unfold ArrayWrapper.writeItems ArrayWrapper.writeItem
          simp only [List.map_cons, Seq.writeItems]
          rcases hww : w.inner.writeItem Sink.vec (s.write b) with ⟨r, a⟩
          cases r <;> rfl
        rw [hstep, write_item]
        obtain ⟨hl', hd', hc'⟩ := hw
        by_cases hb : s.byteSize ≤ b.length
        · simp only [if_pos hb]
          have := ih (items ++ [b.take s.byteSize]) ⟨⟨w.inner.data ++ b.take s.byteSize, w.inner.len + 1⟩⟩
            ⟨by
              intro x hx
              rcases List.mem_append.mp hx with hx | hx
              · exact hl' x hx
              · rw [List.mem_singleton.mp hx]; simp; omega, by simp [hd'], by simp [hc']⟩
          simp only [List.mem_cons, forall_eq_or_imp, hb, true_and, List.map_cons]
          rw [List.append_assoc] at this
          exact this
        · simp only [List.mem_cons, forall_eq_or_imp, hb, false_and, if_false]
          rfl
    have := key bs items w ⟨hl, hd, hc⟩
    split at this
    · rename_i items' he
      split at he
      · cases he
        obtain ⟨w', h1, h2⟩ := this
        exact ⟨w', h1, h2⟩
      · cases he
    · exact this
  | change i g =>
    obtain ⟨hg, hi64⟩ := ho
    simp only [ArrayOp.effect, ArrayOp.perform, ArrayWrapper.modify]
    have hr : Arr.range p s.byteSize i = .ok (i * s.byteSize, i * s.byteSize + s.byteSize) := by
      rw [Nat.add_mul, Nat.one_mul] at hi64
      unfold Arr.range
      rw [mulU_ok p (show _ < 2 ^ usizeBits by unfold usizeBits; omega)]
      simp only [Res.bind_ok]
      rw [addU_ok p (show _ < 2 ^ usizeBits by unfold usizeBits; omega)]
      rfl
    unfold Arr.modify
    rw [hr]
    simp only [Res.bind_ok, hd]
    by_cases hi : i < items.length
    · have h1 : (i + 1) * s.byteSize ≤ items.length * s.byteSize := Nat.mul_le_mul_right _ hi
      rw [Nat.add_mul, Nat.one_mul] at h1
      rw [slice_ok (by omega) (by omega), Nat.add_sub_cancel_left, flatten_window hl hi,
        List.getElem?_eq_getElem hi]
      simp only [Option.map_some, Res.bind_ok, Res.pure_eq]
      have hx := hl _ (List.getElem_mem hi)
      refine ⟨_, rfl, ⟨?_, flatten_splice hl hi (by rw [hg, hx]), by simp [hc]⟩⟩
      intro y hy
      rcases List.mem_or_eq_of_mem_set hy with hy | rfl
      · exact hl y hy
      · rw [hg, hx]
    · rw [List.getElem?_eq_none (by omega)]
      simp only [Option.map_none]
      have h1 : items.length * s.byteSize ≤ i * s.byteSize := Nat.mul_le_mul_right _ (by omega)
      unfold slice
      rw [if_neg (by omega)]
      rfl
  | changeAll g =>
    simp only [ArrayOp.effect, ArrayOp.perform, ArrayWrapper.modifyAll, Arr.modifyAll, hd]
    rw [chunks_flatten hn hl]
    refine ⟨_, rfl, ⟨?_, rfl, by simp [hc]⟩⟩
    intro y hy
    obtain ⟨x, hx, rfl⟩ := List.mem_map.mp hy
    rw [ho, hl x hx]

/-- C90: whatever a program writes to an array built from nothing and however it changes its items, the
array holds the list of items these operations would leave: its length is their number and its bytes are
theirs; a program panics exactly when it writes a structure whose storage is too short or changes an item
that is not there. -/
theorem C90_history (p : Profile) (s : Structure) (hn : 0 < s.byteSize) (ops : List ArrayOp)
    (ho : ∀ o ∈ ops, o.Sane s.byteSize) :
    match ArrayOp.effects s.byteSize ops [] with
    | some items => ∃ w, ArrayOp.performAll p s ops (.new []) = .ok w ∧
        (∀ x ∈ items, x.length = s.byteSize) ∧ w.len = items.length ∧
        w.toRef = ⟨items.flatten, items.length⟩
    | none => ArrayOp.performAll p s ops (.new []) = .panic := by
  have key : ∀ (ops : List ArrayOp) (items : List Bytes) (w : ArrayWrapper Bytes),
      (∀ o ∈ ops, o.Sane s.byteSize) → Held s.byteSize items w →
      match ArrayOp.effects s.byteSize ops items with
      | some items' => ∃ w', ArrayOp.performAll p s ops w = .ok w' ∧ Held s.byteSize items' w'
      | none => ArrayOp.performAll p s ops w = .panic := by
    intro ops
    induction ops with
    | nil => intro items w _ hw; exact ⟨w, rfl, hw⟩
    | cons o os ih =>
      intro items w ho hw
      have hs := perform_step p s hn o (ho o (by simp)) items w hw
      simp only [ArrayOp.effects, ArrayOp.performAll]
      cases he : o.effect s.byteSize items with
      | none =>
        rw [he] at hs
        simp only at hs
        simp only [Option.bind_none, hs]
        rfl
      | some items' =>
        rw [he] at hs
        obtain ⟨w', h1, h2⟩ := hs
        simp only [Option.bind_some, h1, Res.bind]
        exact ih items' w' (fun o' ho' => ho o' (by simp [ho'])) h2
  have := key ops [] (.new []) ho ⟨by simp, rfl, rfl⟩
  split at this
  · rename_i items he
    obtain ⟨w, h1, h2, h3, h4⟩ := this
    refine ⟨w, h1, h2, h4, ?_⟩
    unfold ArrayWrapper.toRef
    rw [h3, h4]
  · exact this

/-- C90: what a program sees of an array that holds `items`: each item at its index and a panic beyond,
all items in order, the array again from its bytes and length (and nothing from another length), and an
encoding that decodes to it whatever follows. -/
theorem C90_view (p : Profile) (n : Nat) (hn : 0 < n) (items : List Bytes) (w : ArrayWrapper Bytes)
    (hl : ∀ x ∈ items, x.length = n) (hw : w.toRef = ⟨items.flatten, items.length⟩)
    (hm : items.length * n < 2 ^ 64) :
    (∀ i, (h : i < items.length) → w.get p n i = .ok items[i]) ∧
    (∀ i, items.length ≤ i → (i + 1) * n < 2 ^ 64 → w.get p n i = .panic) ∧
    w.iter n = .ok items ∧
    (∀ k, k * n < 2 ^ 64 →
      ArrayWrapper.fromParts p n items.flatten k = .ok (if k = items.length then some w else none)) ∧
    (∀ (e : Endian) (sz : Nat) (t : Bytes), items.length < 256 ^ sz → sz + items.length * n < 2 ^ 64 →
      (w.toRef.writeTo e sz).res = .ok () ∧
      (w.toRef.writeTo e sz).bytes = wireInt e sz items.length ++ items.flatten ∧
      ∃ a, Arr.fromSlice p e sz n ((w.toRef.writeTo e sz).bytes ++ t) =
          .ok ⟨sz + items.length * n, a⟩ ∧ ArrayWrapper.fromArray a = w) := by
  obtain ⟨⟨data, len⟩⟩ := w
  simp only [ArrayWrapper.toRef, Seq.mk.injEq] at hw
  obtain ⟨rfl, rfl⟩ := hw
  have hlen := flatten_length hl
  refine ⟨?_, ?_, chunks_flatten hn hl, ?_, ?_⟩
  · intro i hi
    unfold ArrayWrapper.get
    rw [C34_get p n _ i hlen (by simp only [hlen]; omega) hi, flatten_window hl hi]
  · intro i hi hfit
    exact C34_get_out p n _ i hn hlen hi hfit
  · intro k hk
    unfold ArrayWrapper.fromParts
    rw [C34_from_parts p n _ k hk, hlen]
    simp only [Res.bind_ok, Res.pure_eq]
    by_cases he : k = items.length
    · subst he; simp
    · rw [if_neg he, if_neg]
      · rfl
      · intro hc
        exact he (Nat.eq_of_mul_eq_mul_right hn hc).symm
  · intro e sz t hc hfit
    have hb : (Seq.writeTo e sz ⟨items.flatten, items.length⟩).bytes =
        wireInt e sz items.length ++ items.flatten := Seq.writeTo_bytes _ _ _
    refine ⟨rfl, hb, ⟨items.flatten, items.length⟩, ?_, rfl⟩
    simp only [ArrayWrapper.toRef]
    rw [hb]
    have hsz : (wireInt e sz items.length).length = sz := by simp
    have ht : ((wireInt e sz items.length ++ items.flatten) ++ t).take sz =
        wireInt e sz items.length := by
      rw [List.append_assoc, List.take_append_of_le_length (by omega), List.take_of_length_le (by omega)]
    have hi : intOfWire e (wireInt e sz items.length) = items.length := by
      rw [intOfWire_wireInt, Nat.mod_eq_of_lt hc]
    rw [C34_decode p e sz n _ (by rw [ht, hi]; exact hfit), ht, hi]
    have hlen2 : ((wireInt e sz items.length ++ items.flatten) ++ t).length =
        sz + items.length * n + t.length := by simp [hlen, hsz]; omega
    rw [if_neg (by omega), if_neg (by omega)]
    congr 3
    rw [List.append_assoc]
    conv => lhs; arg 2; arg 1; rw [← hsz]
    rw [List.drop_left, List.take_append_of_le_length (by omega), List.take_of_length_le (by omega)]

/-- C90: changing items never changes the number of items the wrapper reports, whatever it holds, also when
that number does not match the data (`from_raw_parts` checks nothing). -/
theorem C90_change_len (p : Profile) (n : Nat) (w w' : ArrayWrapper Bytes) (g : Bytes → Bytes) :
    (∀ i, w.modify p n i g = .ok w' → w'.len = w.len) ∧ (w.modifyAll n g = .ok w' → w'.len = w.len) := by
  constructor
  · intro i h
    obtain ⟨a, ha, h⟩ := Res.bind_eq_ok.1 h
    obtain rfl := Res.ok.inj h
    obtain ⟨r, -, ha⟩ := Res.bind_eq_ok.1 ha
    obtain ⟨x, -, ha⟩ := Res.bind_eq_ok.1 ha
    obtain rfl := Res.ok.inj ha
    rfl
  · intro h
    obtain ⟨a, ha, h⟩ := Res.bind_eq_ok.1 h
    obtain rfl := Res.ok.inj h
    obtain ⟨x, -, ha⟩ := Res.bind_eq_ok.1 ha
    obtain rfl := Res.ok.inj ha
    rfl

example : (⟨⟨[1, 2, 3, 4], 7⟩⟩ : ArrayWrapper Bytes).modifyAll 2 List.reverse = .ok ⟨⟨[2, 1, 4, 3], 7⟩⟩ := by rfl

namespace Ex

/-- A structure of two bytes. -/
def twoBytes : Structure := .mk 0 ['P'] [] 2 16

/-- Three items written (from storages of two and three bytes), the second reversed, all incremented. -/
example : ∃ w, ArrayOp.performAll .checked twoBytes
    [.push [1, 2], .pushAll [[3, 4, 9], [5, 6]], .change 1 List.reverse, .changeAll (List.map (· + 1))]
      (.new []) = .ok w ∧ w.len = 3 ∧ w.toRef = ⟨[2, 3, 5, 4, 6, 7], 3⟩ := by
  obtain ⟨w, h1, -, h2, h3⟩ := C90_history .checked twoBytes (by decide)
    [.push [1, 2], .pushAll [[3, 4, 9], [5, 6]], .change 1 List.reverse, .changeAll (List.map (· + 1))]
    (by simp [ArrayOp.Sane, Structure.byteSize, twoBytes])
  exact ⟨w, h1, h2, h3⟩

/-- Changing an item that is not there, or writing a structure whose storage is too short. -/
example : ArrayOp.performAll .wrapping twoBytes [.push [1, 2], .change 1 id] (.new []) = .panic :=
  C90_history .wrapping twoBytes (by decide) [.push [1, 2], .change 1 id]
    (by simp [ArrayOp.Sane, Structure.byteSize, twoBytes])
example : ArrayOp.performAll .wrapping twoBytes [.push [1, 2], .push [3]] (.new []) = .panic :=
  C90_history .wrapping twoBytes (by decide) [.push [1, 2], .push [3]] (by simp [ArrayOp.Sane])

example : (⟨⟨[1, 2, 3, 4], 2⟩⟩ : ArrayWrapper Bytes).iter 2 = .ok [[1, 2], [3, 4]] ∧
    (⟨⟨[1, 2, 3, 4], 2⟩⟩ : ArrayWrapper Bytes).get .checked 2 1 = .ok [3, 4] :=
  have h := C90_view .checked 2 (by decide) [[1, 2], [3, 4]] ⟨⟨[1, 2, 3, 4], 2⟩⟩ (by simp) rfl (by decide)
  ⟨h.2.2.1, h.1 1 (by decide)⟩

end Ex

end Proto.Props
