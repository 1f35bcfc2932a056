import Verif.Props.Message
import Verif.Props.Compile
import Verif.Gen.Sizes

/-!
# C124: the sizes of recorded ranges

What `FieldOffset::size` answers for the ranges a decoder records, and for ranges a program makes up.
-/

namespace Proto.Props
open Proto.Spec

/-- `r` is one of the ranges of `o`: of a field of the message, or of a message inside. -/
inductive Recorded (r : FieldOffset) : Offsets → Prop where
  | here {nm : Name} {o : Offsets} {offs : OffEnv} : (nm, r, o) ∈ offs → Recorded r (.msg offs)
  | inside {nm : Name} {r' : FieldOffset} {o : Offsets} {offs : OffEnv} :
      (nm, r', o) ∈ offs → Recorded r o → Recorded r (.msg offs)
  | present {o : Offsets} : Recorded r o → Recorded r (.present o)

/-- C124: what a range answers: the distance from its beginning to its end; for a range that ends before
it begins, a build with overflow checks panics, one without answers what is missing to a machine word. -/
theorem C124_size (r : FieldOffset) (h1 : r.start < 2 ^ 64) (h2 : r.stop < 2 ^ 64) :
    (r.start ≤ r.stop → ∀ p, r.size p = .ok (r.stop - r.start)) ∧
    (r.stop < r.start → r.size .checked = .panic ∧
      r.size .wrapping = .ok (2 ^ 64 - (r.start - r.stop))) := by
  constructor
  · intro h p
    exact subU_ok p h
  · intro h
    unfold FieldOffset.size subU
    rw [if_neg (by omega), if_neg (by omega)]
    refine ⟨rfl, ?_⟩
    simp only [usizeBits, Res.ok.injEq]
    rw [Nat.mod_eq_of_lt h1, Nat.mod_eq_of_lt (by omega)]
    omega

example (p : Profile) : FieldOffset.size p ⟨3, 7⟩ = .ok 4 := (C124_size ⟨3, 7⟩ (by decide) (by decide)).1 (by decide) p
example : FieldOffset.size .checked ⟨7, 3⟩ = .panic ∧ FieldOffset.size .wrapping ⟨7, 3⟩ = .ok 18446744073709551612 :=
  (C124_size ⟨7, 3⟩ (by decide) (by decide)).2 (by decide)

theorem mem_field (c : Ctx) (m : Message) {b : Bytes} {n : Nat} {v : Value} {offs : OffEnv}
    (h : m.parseOff c b = .ok ⟨n, (v, .msg offs)⟩) {nm : Name} {r : FieldOffset} {o : Offsets}
    (hm : (nm, r, o) ∈ offs) : r.start ≤ r.stop ∧ r.stop ≤ n ∧
      ∃ f env x, f ∈ m.fields ∧ f.name = nm ∧
        f.parseOff c (c.emb m.id) env (bytesOf b r) = .ok ⟨r.stop - r.start, (x, o)⟩ := by
  obtain ⟨vs, offs', -, h2, -, hl, -, ht⟩ := C35_tiles c m h
  cases h2
  obtain ⟨i, hi, he⟩ := List.mem_iff_getElem.1 hm
  obtain ⟨f, hf⟩ : ∃ f, m.fields[i]? = some f := ⟨_, List.getElem?_eq_getElem (by omega)⟩
  obtain ⟨r', o', x, ho, -, h3, h4, -, -, -, -, h5⟩ := ht i f hf
  rw [List.getElem?_eq_getElem hi, he] at ho
  cases ho
  exact ⟨h3, h4, f, _, x, List.mem_of_getElem? hf, rfl, h5⟩

theorem recorded_within (c : Ctx) {r : FieldOffset} {o : Offsets} (hr : Recorded r o) :
    (∀ (m : Message) {b : Bytes} {n : Nat} {v : Value}, m.parseOff c b = .ok ⟨n, (v, o)⟩ →
      r.start ≤ r.stop ∧ r.stop ≤ n) ∧
    (∀ (f : MField) {emb : Bool} {env : Env} {b : Bytes} {n : Nat} {v : Value},
      f.parseOff c emb env b = .ok ⟨n, (v, o)⟩ → r.start ≤ r.stop ∧ r.stop ≤ n) := by
  have lift : ∀ o, (∀ o', o ≠ .present o') → Recorded r o →
      (∀ (m : Message) {b : Bytes} {n : Nat} {v : Value}, m.parseOff c b = .ok ⟨n, (v, o)⟩ →
        r.start ≤ r.stop ∧ r.stop ≤ n) →
      ∀ (f : MField) {emb : Bool} {env : Env} {b : Bytes} {n : Nat} {v : Value},
        f.parseOff c emb env b = .ok ⟨n, (v, o)⟩ → r.start ≤ r.stop ∧ r.stop ≤ n := by
    intro o hp hr ih f emb env b n v h
    obtain ⟨h1, h2, h3⟩ := C35_nested c emb f env b h
    by_cases hm : ∃ m, f.ty = .ref (.message m)
    · obtain ⟨m, hm⟩ := hm
      cases ho : f.optional with
      | false => exact ih m (h1 m hm ho)
      | true =>
        rcases h2 m hm ho with ⟨-, rfl, -⟩ | ⟨x, y, -, rfl, -⟩
        · cases hr
        · exact absurd rfl (hp y)
    · cases h3 (fun m h => hm ⟨m, h⟩)
      cases hr
  induction hr with
  | @here nm o offs hm =>
    have key : ∀ (m : Message) {b : Bytes} {n : Nat} {v : Value}, m.parseOff c b = .ok ⟨n, (v, .msg offs)⟩ →
        r.start ≤ r.stop ∧ r.stop ≤ n := fun m _ _ _ h =>
      let ⟨h1, h2, _⟩ := mem_field c m h hm
      ⟨h1, h2⟩
    exact ⟨key, lift _ (fun _ h => nomatch h) (.here hm) key⟩
  | @inside nm r' o offs hm hr ih =>
    have key : ∀ (m : Message) {b : Bytes} {n : Nat} {v : Value}, m.parseOff c b = .ok ⟨n, (v, .msg offs)⟩ →
        r.start ≤ r.stop ∧ r.stop ≤ n := fun m _ _ _ h => by
      obtain ⟨h1, h2, f, env, x, -, -, hf⟩ := mem_field c m h hm
      obtain ⟨h3, h4⟩ := ih.2 f hf
      exact ⟨h3, by omega⟩
    exact ⟨key, lift _ (fun _ h => nomatch h) (.inside hm hr) key⟩
  | @present o hr ih =>
    refine ⟨fun m _ _ _ h => ?_, fun f emb env b n v h => ?_⟩
    · obtain ⟨_, _, -, h2, -⟩ := C35_tiles c m h
      cases h2
    · obtain ⟨h1, h2, h3⟩ := C35_nested c emb f env b h
      by_cases hm : ∃ m, f.ty = .ref (.message m)
      · obtain ⟨m, hm⟩ := hm
        cases ho : f.optional with
        | false =>
          obtain ⟨_, _, -, h4, -⟩ := C35_tiles c m (h1 m hm ho)
          cases h4
        | true =>
          rcases h2 m hm ho with ⟨-, h4, -⟩ | ⟨x, y, -, h4, -, h5⟩
          · cases h4
          · cases h4
            obtain ⟨h6, h7⟩ := ih.1 m h5
            exact ⟨h6, by omega⟩
      · cases h3 (fun m h => hm ⟨m, h⟩)

/-- C124: whatever a decoder records, at every depth, `size` answers and does not panic, in both builds, and
the answer is at most the size of the message. -/
theorem C124_recorded (c : Ctx) (m : Message) {b : Bytes} {n : Nat} {v : Value} {o : Offsets}
    (h : m.parseOff c b = .ok ⟨n, (v, o)⟩) {r : FieldOffset} (hr : Recorded r o) (p : Profile) :
    ∃ k, r.size p = .ok k ∧ r.start + k = r.stop ∧ k ≤ n := by
  obtain ⟨h1, h2⟩ := (recorded_within c hr).1 m h
  exact ⟨r.stop - r.start, subU_ok p h1, by omega, by omega⟩

theorem listOffsets_sizes (p : Profile) : ∀ (fs : List MField) (off : Nat) (vs : Env),
    vs.length = fs.length →
    (MField.listOffsets fs off vs).map (fun x => x.2.1.size p) =
        (fs.zip vs).map (fun x => .ok (x.1.wire x.2.2).length) ∧
      (MField.listWire fs vs).length = ((fs.zip vs).map fun x => (x.1.wire x.2.2).length).sum
  | [], _, [], _ => ⟨rfl, rfl⟩
  | f :: fs, off, (nm, v) :: vs, h => by
    obtain ⟨h1, h2⟩ := listOffsets_sizes p fs (off + (f.wire v).length) vs (by simpa using h)
    have h3 : FieldOffset.size p ⟨off, off + (f.wire v).length⟩ = .ok (f.wire v).length := by
      unfold FieldOffset.size
      rw [subU_ok p (by simp)]
      simp
    constructor
    · simp only [MField.listOffsets, List.map_cons, List.zip_cons_cons, h1, h3]
    · simp only [MField.listWire, List.length_append, List.map_cons, List.zip_cons_cons, List.sum_cons, h2]

/-- C124: the sizes of the fields of a decoded message are the numbers of bytes that encode their values, in
order, and add up to the size of the message. -/
theorem C124_fields (c : Ctx) (m : Message) {b : Bytes} {n : Nat} {v : Value} {o : Offsets}
    (h : m.parseOff c b = .ok ⟨n, (v, o)⟩) (p : Profile) :
    ∃ (vs : Env) (offs : OffEnv) (ks : List Nat), v = .msg vs ∧ o = .msg offs ∧
      offs.map (fun x => x.2.1.size p) = ks.map .ok ∧ ks.sum = n ∧
      ks = (m.fields.zip vs).map fun x => (x.1.wire x.2.2).length := by
  obtain ⟨vs, offs, rfl, rfl, hv, -⟩ := C35_tiles c m h
  rw [C35_exact] at h
  obtain ⟨r, h1, h2⟩ := Res.bind_eq_ok.1 h
  simp only [Res.ok.injEq, Msg.mk.injEq, Prod.mk.injEq] at h2
  obtain ⟨h2, h3, h4⟩ := h2
  rw [h3] at h2 h4
  obtain ⟨id, nm, fs, sz⟩ := m
  simp only [Message.offsetsOf, Offsets.msg.injEq, Message.wire, Message.fields] at h2 h4 hv ⊢
  obtain ⟨h5, h6⟩ := listOffsets_sizes p fs 0 vs hv
  refine ⟨vs, offs, _, rfl, rfl, ?_, ?_, rfl⟩
  · rw [← h4, h5, List.map_map]; rfl
  · rw [← h6, h2]

namespace Ex

theorem pair_parse : pair.parseOff ctx [0, 1, 7, 0, 0, 1, 7, 0, 0] =
    .ok ⟨9, (.msg [("k".toList, .struct [0, 1]), ("i".toList, itemW), ("o".toList, .some itemW)],
      .msg [("k".toList, ⟨0, 2⟩, .unit),
        ("i".toList, ⟨2, 5⟩, .msg [("x".toList, ⟨0, 2⟩, .unit), ("s".toList, ⟨2, 3⟩, .unit)]),
        ("o".toList, ⟨5, 9⟩, .present (.msg [("x".toList, ⟨0, 2⟩, .unit), ("s".toList, ⟨2, 3⟩, .unit)]))])⟩ := by
  rw [C35_exact]; rfl

/-- The range of the text in the optional item. -/
example (p : Profile) : ∃ k, FieldOffset.size p ⟨2, 3⟩ = .ok k ∧ 2 + k = 3 ∧ k ≤ 9 :=
  C124_recorded ctx pair pair_parse
    (.inside (List.mem_cons_of_mem _ (List.mem_cons_of_mem _ (List.mem_cons_self ..)))
      (.present (.here (List.mem_cons_of_mem _ (List.mem_cons_self ..))))) p

/-- The three fields take 2, 3 and 4 of the 9 bytes. -/
example (p : Profile) : [FieldOffset.size p ⟨0, 2⟩, FieldOffset.size p ⟨2, 5⟩, FieldOffset.size p ⟨5, 9⟩] =
    [.ok 2, .ok 3, .ok 4] := by
  obtain ⟨vs, offs, ks, hv, ho, h1, -, rfl⟩ := C124_fields ctx pair pair_parse p
  cases hv
  cases ho
  exact h1

end Ex

/-! ## Pairs of optional values -/

/-- C125: a pair of optional values becomes an optional pair: there if both are, with their values in order, and
otherwise absent. -/
theorem C125_single (x : Option α × Option β) (a : α) (b : β) :
    (toSingle x = some (a, b) ↔ x.1 = some a ∧ x.2 = some b) ∧ (toSingle x = none ↔ x.1 = none ∨ x.2 = none) := by
  obtain ⟨_ | a', _ | b'⟩ := x <;> simp [toSingle]

example : toSingle (some 1, some 'a') = some (1, 'a') ∧ toSingle (some 1, (none : Option Char)) = none :=
  ⟨(C125_single _ _ _).1.2 ⟨rfl, rfl⟩, (C125_single _ 1 'a').2.2 (.inr rfl)⟩

/-! ## Structures -/

/-- C126: decoding a structure takes as many bytes as the structure then says it has, the first ones, and fails
exactly when there are fewer. -/
theorem C126_read (s : Structure) (b : Bytes) :
    (∀ n v, s.parse b = .ok ⟨n, v⟩ ↔
      n ≤ b.length ∧ v = .struct (b.take n) ∧ n = s.reportedSize (b.take n)) ∧
    (s.parse b = .err .truncated ↔ b.length < s.reportedSize b) ∧ s.parse b ≠ .panic := by
  unfold Structure.parse Structure.reportedSize
  by_cases h : b.length < s.byteSize
  · rw [if_pos h]
    refine ⟨fun n v => ⟨fun h => (by cases h), ?_⟩, ⟨fun _ => h, fun _ => rfl⟩, fun h => (by cases h)⟩
    rintro ⟨h1, -, rfl⟩
    omega
  · rw [if_neg h, slice_ok (by omega) (by omega)]
    simp only [Res.bind_ok, Res.pure_eq, Nat.sub_zero, List.drop_zero]
    refine ⟨fun n v => ⟨fun h' => ?_, ?_⟩, ⟨fun h => (by cases h), fun h' => absurd h' h⟩, fun h => (by cases h)⟩
    · cases h'
      exact ⟨by omega, rfl, rfl⟩
    · rintro ⟨-, rfl, rfl⟩
      rfl

example : Ex.keyS.parse [1, 2, 3] = .ok ⟨2, .struct [1, 2]⟩ :=
  ((C126_read Ex.keyS [1, 2, 3]).1 2 _).2 ⟨by decide, rfl, rfl⟩

/-- C126: encoding a structure writes as many bytes as it says it has, the first ones of its storage; it panics
exactly when the storage has fewer, without writing anything. -/
theorem C126_write (s : Structure) (b : Bytes) :
    (s.reportedSize b ≤ b.length → (s.write b).res = .ok () ∧ (s.write b).bytes = b.take (s.reportedSize b) ∧
      (s.write b).bytes.length = s.reportedSize b) ∧
    (b.length < s.reportedSize b → (s.write b).res = .panic ∧ (s.write b).bytes = []) := by
  unfold Structure.write Structure.reportedSize
  constructor
  · intro h
    rw [slice_ok (by omega) h]
    simp [Out.write, Out.bytes, h]
  · intro h
    have : (Proto.slice b 0 s.byteSize : R Bytes) = .panic := by
      unfold Proto.slice
      rw [if_neg (by omega)]
    rw [this]
    exact ⟨rfl, rfl⟩

example : (Ex.keyS.write [1, 2, 3]).bytes = [1, 2] ∧ (Ex.keyS.write [1]).res = .panic :=
  ⟨((C126_write Ex.keyS [1, 2, 3]).1 (by decide)).2.1, ((C126_write Ex.keyS [1]).2 (by decide)).1⟩

/-- C126: a structure says the same whatever its storage; the storage made for it has exactly that many bytes. -/
theorem C126_storage (s : Structure) (b : Bytes) :
    s.reportedSize b = s.reportedSize s.newOnStack ∧ s.newOnStack.length = s.reportedSize b := by
  simp [Structure.reportedSize, Structure.newOnStack]

example : Ex.keyS.reportedSize [1, 2, 3, 4] = 2 := (C126_storage Ex.keyS [1, 2, 3, 4]).2.symm

/-! ## Which definitions look for a fixed-width field -/

/-- C47: the field that holds a discriminant is the one at the index found, if it has a fixed width; anything
else there, and an index beyond the fields, panics. -/
theorem C47_leaf (d : Discriminant) :
    (∀ f, d.getLeaf = .ok f ↔ ∃ g, d.leaf.fields[d.leafIndex]? = some g ∧ g.asFixed = some f) ∧
    (d.getLeaf = .panic ↔ ∀ g, d.leaf.fields[d.leafIndex]? = some g → g.asFixed = none) := by
  unfold Discriminant.getLeaf
  cases d.leaf.fields[d.leafIndex]? with
  | none => simp
  | some g => cases g <;> simp [SField.asFixed]

example : ∃ g, Ex.keyDisc.leaf.fields[Ex.keyDisc.leafIndex]? = some g ∧ g.asFixed =
    some { name := "kind".toList, ty := .u8, loc := ⟨0, 0, 1, 8⟩, view := .none, endian := .little } :=
  ((C47_leaf Ex.keyDisc).1 _).1 rfl

/-- C51: a structure becomes a number exactly if its only field has a fixed width, no conversion and a whole
number of bytes; the number has the type of the field. -/
theorem C51_scalar (s : Structure) (ty : FixedTy) :
    s.asScalar = some ty ↔ s.fields.length = 1 ∧ ∃ g f, s.fields[0]? = some g ∧ g.asFixed = some f ∧
      f.view.isTransmute = true ∧ f.loc.bitSize % 8 = 0 ∧ f.ty = ty := by
  unfold Structure.asScalar
  cases s.fields with
  | nil => simp
  | cons g gs =>
    cases gs with
    | cons => cases g <;> simp
    | nil => cases g <;> simp [SField.asFixed, and_assoc]

example : (Structure.mk 0 ['s'] [.fixed ⟨['a'], .u32, ⟨0, 0, 3, 24⟩, .none, .little⟩] 3 24).asScalar = some .u32 := by
  decide

end Proto.Props
