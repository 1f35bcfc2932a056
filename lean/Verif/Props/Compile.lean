import Verif.Props.Struct
import Verif.Props.Message
import Verif.Compiler.ProtocolLemmas
import Verif.Spec.Values
import Verif.Compiler.FlagLemmas

/-!
# C41, C42, C46, C47, C51, C59: the compiler of enums, fields, messages and unions
-/

namespace Proto.Props

open Proto

/-! ## C41 -/

/-- C41: the type chosen for an unsigned field of `n` bits holds `n` bits and no smaller one does. -/
theorem C41_unsigned {n : Nat} {t : FixedTy} (h : FixedTy.fromModel (.unsigned n) = .ok t) :
    t ∈ [FixedTy.u8, .u16, .u32, .u64] ∧ n ≤ 8 * t.byteSize ∧
    ∀ t' ∈ [FixedTy.u8, .u16, .u32, .u64], n ≤ 8 * t'.byteSize → t.byteSize ≤ t'.byteSize := by
  obtain ⟨hm, h0, hle, hmin⟩ := C08_element_type _ _ h
  refine ⟨hm, hle, fun t' ht' h' => ?_⟩
  simp only [List.mem_cons, List.not_mem_nil, or_false] at hm ht'
  rcases hm with rfl | rfl | rfl | rfl <;> rcases ht' with rfl | rfl | rfl | rfl <;>
    simp [FixedTy.byteSize] at * <;> omega

example : 17 ≤ 8 * FixedTy.u32.byteSize := (C41_unsigned (n := 17) (t := .u32) rfl).2.1

/-- C41: the same for signed fields. -/
theorem C41_signed {n : Nat} {t : FixedTy} (h : FixedTy.fromModel (.signed n) = .ok t) :
    t ∈ [FixedTy.i8, .i16, .i32, .i64] ∧ n ≤ 8 * t.byteSize ∧
    ∀ t' ∈ [FixedTy.i8, .i16, .i32, .i64], n ≤ 8 * t'.byteSize → t.byteSize ≤ t'.byteSize := by
  obtain ⟨hm, h0, hle, hmin⟩ := C08_element_type _ _ h
  refine ⟨hm, hle, fun t' ht' h' => ?_⟩
  simp only [List.mem_cons, List.not_mem_nil, or_false] at hm ht'
  rcases hm with rfl | rfl | rfl | rfl <;> rcases ht' with rfl | rfl | rfl | rfl <;>
    simp [FixedTy.byteSize] at * <;> omega

example : ∀ t' ∈ [FixedTy.i8, .i16, .i32, .i64], 33 ≤ 8 * t'.byteSize → 8 ≤ t'.byteSize :=
  (C41_signed (n := 33) (t := .i64) rfl).2.2

/-- C41: integer fields of 1 to 64 bits are accepted, others rejected with their width. -/
theorem C41_domain (n : Nat) :
    ((∃ t, FixedTy.fromModel (.unsigned n) = .ok t) ↔ 1 ≤ n ∧ n ≤ 64) ∧
    ((∃ t, FixedTy.fromModel (.signed n) = .ok t) ↔ 1 ≤ n ∧ n ≤ 64) ∧
    (¬ (1 ≤ n ∧ n ≤ 64) → FixedTy.fromModel (.unsigned n) = .err (.unsupportedBitSize n) ∧
      FixedTy.fromModel (.signed n) = .err (.unsupportedBitSize n)) := by
  obtain ⟨h1, h2, _, h4⟩ := C08_width_domain n
  exact ⟨h1, h2, fun h => ⟨h4 _ (by simp) h, h4 _ (by simp) h⟩⟩

example : FixedTy.fromModel (.unsigned 65) = .err (.unsupportedBitSize 65) :=
  ((C41_domain 65).2.2 (by decide)).1

/-- C41: a prefix type is always found for a maximum length; it can represent that maximum and no
smaller unsigned type can. -/
theorem C41_prefix {n : Nat} (hn : n < 2 ^ 64) :
    ∃ t, FixedTy.fromMaxValue n = .ok t ∧ t ∈ [FixedTy.u8, .u16, .u32, .u64] ∧ n < 256 ^ t.byteSize ∧
    ∀ t' ∈ [FixedTy.u8, .u16, .u32, .u64], n < 256 ^ t'.byteSize → t.byteSize ≤ t'.byteSize := by
  have key : ∀ t, FixedTy.fromMaxValue n = .ok t → t ∈ [FixedTy.u8, .u16, .u32, .u64] →
      n < 256 ^ t.byteSize → (∀ t' ∈ [FixedTy.u8, .u16, .u32, .u64], n < 256 ^ t'.byteSize →
        t.byteSize ≤ t'.byteSize) →
      ∃ t, FixedTy.fromMaxValue n = .ok t ∧ t ∈ [FixedTy.u8, .u16, .u32, .u64] ∧ n < 256 ^ t.byteSize ∧
      ∀ t' ∈ [FixedTy.u8, .u16, .u32, .u64], n < 256 ^ t'.byteSize → t.byteSize ≤ t'.byteSize :=
    fun t a b c d => ⟨t, a, b, c, d⟩
  by_cases h1 : n > 2 ^ 32 - 1
  · refine key .u64 (by unfold FixedTy.fromMaxValue; rw [if_pos h1]; rfl) (by simp)
      (by simp [FixedTy.byteSize]; omega) ?_
    simp [FixedTy.byteSize]; omega
  · by_cases h2 : n > 2 ^ 16 - 1
    · refine key .u32 (by unfold FixedTy.fromMaxValue; rw [if_neg h1, if_pos h2]; rfl) (by simp)
        (by simp [FixedTy.byteSize]; omega) ?_
      simp [FixedTy.byteSize]; omega
    · by_cases h3 : n > 2 ^ 8 - 1
      · refine key .u16 (by unfold FixedTy.fromMaxValue; rw [if_neg h1, if_neg h2, if_pos h3]; rfl)
          (by simp) (by simp [FixedTy.byteSize]; omega) ?_
        simp [FixedTy.byteSize]; omega
      · refine key .u8 (by unfold FixedTy.fromMaxValue; rw [if_neg h1, if_neg h2, if_neg h3]; rfl)
          (by simp) (by simp [FixedTy.byteSize]; omega) ?_
        simp [FixedTy.byteSize]

example : ∃ t, FixedTy.fromMaxValue 255 = .ok t ∧ 255 < 256 ^ t.byteSize :=
  let ⟨t, h1, _, h2, _⟩ := C41_prefix (n := 255) (by decide)
  ⟨t, h1, h2⟩

/-- C41: the widths of the types, and of numbers declared with exactly such a width. -/
theorem C41_widths :
    (∀ n ∈ [8, 16, 32, 64], ∀ t, FixedTy.fromModel (.unsigned n) = .ok t ∨
      FixedTy.fromModel (.signed n) = .ok t → 8 * t.byteSize = n) ∧
    (∀ n ∈ [32, 64], ∀ t, FixedTy.fromModel (.float n) = .ok t → 8 * t.byteSize = n) ∧
    (∀ n t, FixedTy.fromModel (.boolean n) = .ok t → t = .bool ∧ t.byteSize = 1) := by
  refine ⟨?_, ?_, ?_⟩
  · intro n hn t h
    simp only [List.mem_cons, List.not_mem_nil, or_false] at hn
    rcases hn with rfl | rfl | rfl | rfl <;> rcases h with h | h <;>
      (simp [FixedTy.fromModel, Model.FieldTy.simple, Model.FieldTy.bitSize?, FixedTy.mapNumeric,
        Res.ofOption, Bind.bind, Res.bind] at h; subst h; rfl)
  · intro n hn t h
    simp only [List.mem_cons, List.not_mem_nil, or_false] at hn
    rcases hn with rfl | rfl <;>
      (simp [FixedTy.fromModel, Model.FieldTy.simple, Model.FieldTy.bitSize?,
        Res.ofOption, Bind.bind, Res.bind] at h; subst h; rfl)
  · intro n t h
    simp [FixedTy.fromModel, Model.FieldTy.simple, Model.FieldTy.bitSize?,
        Res.ofOption, Bind.bind, Res.bind] at h
    subst h
    exact ⟨rfl, rfl⟩

example : FixedTy.fromMaxValue 65536 = .ok .u32 ∧ FixedTy.fromModel (.signed 17) = .ok .i32 :=
  ⟨rfl, rfl⟩

/-! ## C42 -/

/-- C42: exactly the declarations whose fields compile one after the other and have nothing of
variable size after an element-dynamic field are accepted, and the result has these fields. -/
theorem C42_accepts {proto : Protocol} {emb emb' : List Nat} {id : Nat} {v : Model.Message} {m : Message} :
    Message.fromModel proto emb id v = .ok (m, emb') ↔
      ∃ fs, Fields proto emb [] v.fields fs emb' ∧ Legal fs ∧
        m = .mk id v.name fs ⟨fs.any (fun f => f.size.isDynSized), fs.any (fun f => f.size.isElementDynSized)⟩ :=
  Message.fromModel_eq_ok

/-- C42: an accepted message has at most one element-dynamic field. -/
theorem C42_at_most_one {fs : List MField} (h : Legal fs) {i j : Nat} {f g : MField}
    (hi : fs[i]? = some f) (hj : fs[j]? = some g) (hf : f.size.isElementDynSized = true)
    (hg : g.size.isElementDynSized = true) : i = j := by
  have key : ∀ (i j : Nat) (f g : MField), fs[i]? = some f → fs[j]? = some g →
      f.size.isElementDynSized = true → g.size.isElementDynSized = true → ¬ i < j := by
    intro i j f g hi hj hf hg hlt
    have hi' : i < fs.length := by
      rw [List.getElem?_eq_some_iff] at hi; exact hi.1
    have hs : fs = fs.take i ++ f :: fs.drop (i + 1) := by
      rw [List.getElem?_eq_some_iff] at hi
      obtain ⟨_, rfl⟩ := hi
      simp
    have hmem : g ∈ fs.drop (i + 1) := by
      have : (fs.drop (i + 1))[j - (i + 1)]? = some g := by
        rw [List.getElem?_drop, show i + 1 + (j - (i + 1)) = j by omega]; exact hj
      exact List.mem_of_getElem? this
    have := (h _ _ _ hs hf g hmem).2
    rw [hg] at this
    cases this
  have h1 := key i j f g hi hj hf hg
  have h2 := key j i g f hj hi hg hf
  omega

example {fs : List MField} (h : Legal fs) {i : Nat}
    (hi : fs[i]? = some (.mk ['p'] .payload false ⟨true, true⟩ .little))
    (h0 : fs[0]? = some (.mk ['p'] .payload false ⟨true, true⟩ .little)) : i = 0 :=
  C42_at_most_one h hi h0 rfl rfl

/-- C42: a message whose fields compile but with a field of variable size after an element-dynamic
one is rejected with the corresponding error. -/
theorem C42_rejects {proto : Protocol} {emb emb' : List Nat} (id : Nat) {v : Model.Message}
    {fs : List MField} (h : Fields proto emb [] v.fields fs emb') (hl : ¬ Legal fs) :
    Message.fromModel proto emb id v = .err .varsizeAfterPayload := by
  have := fieldsFromModel_illegal h Legal.nil (by simpa using hl) false
  rw [show elemCount [] = 0 from rfl] at this
  unfold Message.fromModel
  rw [this]
  rfl

example : Message.fromModel
    { name := "p".toList, endianness := .little, typePathByName := [], structsByName := [], messagesByName := [],
      enumsByName := [], unionsByName := [], structs := [], messages := [], enums := [], unions := [] } [] 3
    ⟨['m'], [⟨['p'], .payload, none⟩, ⟨['s'], .string none, none⟩]⟩ = .err .varsizeAfterPayload :=
  C42_rejects 3 (.cons rfl (.cons rfl .nil)) (fun h =>
    absurd (h [] (.mk ['p'] .payload false ⟨true, true⟩ .little)
      [.mk ['s'] .nullTerminatedString false ⟨true, false⟩ .little] rfl rfl _ (List.mem_singleton.2 rfl)).1
      (by decide))

/-- C42: the first field that fails decides the error. -/
theorem C42_first_error {proto : Protocol} {emb emb' : List Nat} (id : Nat) {name : Name}
    {as bs : List Model.MField} {v : Model.MField} {fs : List MField} {e : CError}
    (h : Fields proto emb [] as fs emb') (hl : Legal fs)
    (hv : MField.fromModel proto emb' fs v = .err e) :
    Message.fromModel proto emb id ⟨name, as ++ v :: bs⟩ = .err e := by
  have key : ∀ {emb emb' : List Nat} {before fs : List MField} {as : List Model.MField},
      Fields proto emb before as fs emb' → Legal (before ++ fs) →
      MField.fromModel proto emb' (before ++ fs) v = .err e → ∀ d,
      Message.fieldsFromModel proto emb before (elemCount before) d (as ++ v :: bs) = .err e := by
    intro emb emb' before fs as h
    induction h with
    | nil => intro _ hv d; simp only [List.append_nil] at hv; simp [Message.fieldsFromModel, hv]
    | @cons emb emb1 emb2 before fs v' vs f hf _ ih =>
      intro hl hv d
      have hl' : Legal (before ++ [f]) := legal_prefix (gs := fs) (by simpa using hl)
      rw [List.cons_append, (fieldsFromModel_step hf).1 hl' (legal_prefix hl')]
      exact ih (by simpa using hl) (by simpa using hv) _
  have := key h (by simpa using hl) (by simpa using hv) false
  rw [show elemCount [] = 0 from rfl] at this
  unfold Message.fromModel
  simp only
  rw [this]
  rfl

/-- C42: the separate error for several element-dynamic fields is never produced by the check of the
message. -/
theorem C42_multi_unreachable (proto : Protocol) (emb : List Nat) (id : Nat) (v : Model.Message)
    (hf : ∀ emb before f, f ∈ v.fields → MField.fromModel proto emb before f ≠ .err .multiPayload) :
    Message.fromModel proto emb id v ≠ .err .multiPayload := by
  intro h
  rcases fieldsFromModel_cases (proto := proto) v.fields emb [] Legal.nil false with
    ⟨fs, emb'', h1, h2⟩ | ⟨as, x, bs, fs, emb', heq, _, _, h3⟩
  · have := (Message.fromModel_eq_ok (id := id)).2 ⟨fs, h1, by simpa using h2, rfl⟩
    rw [this] at h
    cases h
  · unfold Message.fromModel at h
    rw [show elemCount [] = 0 from rfl] at h3
    rcases h3 with ⟨e, h4, h3⟩ | ⟨_, h3⟩ | ⟨_, _, _, _, h3⟩ <;> rw [h3] at h <;> cases h
    exact hf _ _ _ (by rw [heq]; simp) h4

/-- C42: nor by any of its fields. -/
theorem C42_field_no_multi (proto : Protocol) (emb : List Nat) (before : List MField) (v : Model.MField) :
    MField.fromModel proto emb before v ≠ .err .multiPayload := by
  have hmax : ∀ n, FixedTy.fromMaxValue n ≠ .err .multiPayload := by
    intro n h
    unfold FixedTy.fromMaxValue at h
    split at h
    · cases h
    · split at h
      · cases h
      · split at h <;> cases h
  intro h
  unfold MField.fromModel at h
  cases hi : v.info with
  | item t =>
    rw [hi] at h
    simp only at h
    cases hl : Referenced.lookup proto t with
    | none => rw [hl] at h; cases h
    | some r =>
      rw [hl] at h
      simp only [Res.ofOption_some, Res.bind_ok] at h
      split at h
      · split at h <;> cases h
      · cases h
  | list n t =>
    rw [hi] at h
    simp only at h
    cases hl : Referenced.lookup proto t with
    | none => rw [hl] at h; cases h
    | some r =>
      rw [hl] at h
      simp only [Res.ofOption_some, Res.bind_ok] at h
      cases hm : FixedTy.fromMaxValue n with
      | err e => rw [hm] at h; cases h; exact hmax n hm
      | panic => rw [hm] at h; cases h
      | ok ty => rw [hm] at h; cases r <;> cases h
  | string o =>
    rw [hi] at h
    cases o with
    | none => cases h
    | some n =>
      simp only at h
      cases hm : FixedTy.fromMaxValue n with
      | err e => rw [hm] at h; cases h; exact hmax n hm
      | panic => rw [hm] at h; cases h
      | ok ty => rw [hm] at h; cases h
  | payload => rw [hi] at h; cases h
  | union on t =>
    rw [hi] at h
    simp only at h
    cases h1 : before.findIdx? (fun f => f.name == on) with
    | none => rw [h1] at h; cases h
    | some i =>
      rw [h1] at h
      simp only [Res.ofOption_some, Res.bind_ok] at h
      cases h2 : before[i]? with
      | none => rw [h2] at h; cases h
      | some g =>
        rw [h2] at h
        simp only [Res.ofOption_some, Res.bind_ok] at h
        cases h3 : proto.unionsByName.lookup t with
        | none => rw [h3] at h; cases h
        | some u =>
          rw [h3] at h
          simp only [Res.ofOption_some, Res.bind_ok] at h
          split at h
          · split at h <;> cases h
          · cases h

namespace Ex

/-- A protocol that knows the structures of the message examples. -/
def proto : Protocol :=
  { name := "p".toList, endianness := .little, typePathByName := [],
    structsByName := [("Key".toList, keyS)], messagesByName := [("Item".toList, item)], enumsByName := [],
    unionsByName := [], structs := [], messages := [], enums := [], unions := [] }

end Ex

example :
    (∃ m, Message.fromModel Ex.proto [] 40 ⟨"m".toList,
      [⟨"k".toList, .item "Key".toList, none⟩, ⟨"s".toList, .string none, none⟩,
       ⟨"l".toList, .list 300 "Item".toList, none⟩, ⟨"k2".toList, .item "Key".toList, none⟩]⟩ = .ok m) ∧
    Message.fromModel Ex.proto [] 40 ⟨"m".toList,
      [⟨"l".toList, .list 300 "Item".toList, none⟩, ⟨"s".toList, .string none, none⟩]⟩ =
      .err .varsizeAfterPayload ∧
    Message.fromModel Ex.proto [] 40 ⟨"m".toList,
      [⟨"p".toList, .payload, none⟩, ⟨"q".toList, .payload, none⟩]⟩ = .err .varsizeAfterPayload :=
  ⟨⟨_, rfl⟩, rfl, rfl⟩

/-! ## C46 -/

/-- C46: a compiled enum has exactly the declared variants, by non-decreasing value, and its bound is
the largest of them. -/
theorem C46_enum {v : Model.Enum} {e : Enum} (h : Enum.fromModel v = .ok e) :
    e.name = v.name ∧ e.variants.Perm v.variants ∧ e.variants.Pairwise (fun a b => a.2 ≤ b.2) ∧
    (∃ x ∈ v.variants, x.2 = e.largest) ∧ ∀ x ∈ v.variants, x.2 ≤ e.largest := by
  unfold Enum.fromModel at h
  obtain ⟨largest, hl, h⟩ := Res.bind_eq_ok.1 h
  cases h
  have hl := Res.ofOption_eq_ok hl
  have hperm := List.mergeSort_perm v.variants (fun a b => decide (a.2 ≤ b.2))
  have hsort : (v.variants.mergeSort (fun a b => decide (a.2 ≤ b.2))).Pairwise (fun a b => a.2 ≤ b.2) := by
    have := List.pairwise_mergeSort (le := fun (a b : Name × Nat) => decide (a.2 ≤ b.2))
      (by simpa using fun a b c => Nat.le_trans) (by simpa using fun a b => Nat.le_total _ _) v.variants
    simpa using this
  rw [Option.map_eq_some_iff] at hl
  obtain ⟨x, hx, rfl⟩ := hl
  refine ⟨rfl, hperm, hsort, ⟨x, hperm.mem_iff.1 (List.mem_of_getLast? hx), rfl⟩, fun y hy => ?_⟩
  have hy' := hperm.mem_iff.2 hy
  simp only at hx ⊢
  revert hx hy' hsort
  generalize v.variants.mergeSort (fun a b => decide (a.2 ≤ b.2)) = l
  intro hsort hx hy'
  obtain ⟨l', rfl⟩ := List.getLast?_eq_some_iff.1 hx
  rcases List.mem_append.1 hy' with hy' | hy'
  · exact (List.pairwise_append.1 hsort).2.2 y hy' x (by simp)
  · simp only [List.mem_singleton] at hy'; rw [hy']; exact Nat.le_refl _

example : ∀ e, Enum.fromModel ⟨"e".toList, [("B".toList, 7), ("A".toList, 2)]⟩ = .ok e →
    e.variants.Perm [("B".toList, 7), ("A".toList, 2)] ∧ 7 ≤ e.largest :=
  fun _ h => ⟨(C46_enum h).2.1, (C46_enum h).2.2.2.2 ("B".toList, 7) (by simp)⟩

/-- C46: an enum is rejected exactly when it has no variant. -/
theorem C46_zero (v : Model.Enum) :
    (v.variants = [] → Enum.fromModel v = .err .zeroEnum) ∧
    (v.variants ≠ [] → ∃ e, Enum.fromModel v = .ok e) := by
  constructor
  · intro h
    simp [Enum.fromModel, h]
  · intro h
    have hne : v.variants.mergeSort (fun a b => decide (a.2 ≤ b.2)) ≠ [] := by
      intro hn
      have := (List.mergeSort_perm v.variants (fun a b => decide (a.2 ≤ b.2))).length_eq
      rw [hn] at this
      exact h (List.length_eq_zero_iff.1 this.symm)
    simp only [Enum.fromModel, List.getLast?_eq_some_getLast hne]
    exact ⟨_, rfl⟩

example : Enum.fromModel ⟨"e".toList, []⟩ = .err .zeroEnum := (C46_zero ⟨"e".toList, []⟩).1 rfl

/-- C46: with distinct variant names (as in a map), every variant name maps to its value. -/
theorem C46_lookup {v : Model.Enum} {e : Enum} (h : Enum.fromModel v = .ok e)
    (hn : (v.variants.map Prod.fst).Nodup) {name : Name} {x : Nat} :
    e.variants.lookup name = some x ↔ (name, x) ∈ v.variants := by
  obtain ⟨_, hperm, _⟩ := C46_enum h
  have hn' : (e.variants.map Prod.fst).Nodup := (hperm.map _).nodup_iff.2 hn
  rw [← hperm.mem_iff]
  generalize e.variants = l at hn'
  constructor
  · exact mem_of_lookup
  · intro hm
    induction l with
    | nil => simp at hm
    | cons y l ih =>
      simp only [List.map_cons, List.nodup_cons] at hn'
      rw [List.lookup_cons]
      rcases List.mem_cons.1 hm with rfl | hm
      · simp
      · have : (name == y.1) = false := by
          rw [beq_eq_false_iff_ne]
          rintro rfl
          exact hn'.1 (List.mem_map.2 ⟨_, hm, rfl⟩)
        rw [this]
        exact ih hn'.2 hm

example : ∀ e, Enum.fromModel ⟨"e".toList, [("B".toList, 7), ("A".toList, 2)]⟩ = .ok e →
    e.variants.lookup "A".toList = some 2 :=
  fun _ h => (C46_lookup h (by decide)).2 (by simp)

theorem inj_of_nodup {l : List (Name × Nat)} (h : (l.map Prod.snd).Nodup) {a b : Name × Nat}
    (ha : a ∈ l) (hb : b ∈ l) (hab : a.2 = b.2) : a = b := by
  induction l with
  | nil => simp at ha
  | cons x l ih =>
    simp only [List.map_cons, List.nodup_cons] at h
    rcases List.mem_cons.1 ha with rfl | ha' <;> rcases List.mem_cons.1 hb with rfl | hb'
    · rfl
    · exact absurd (List.mem_map.2 ⟨b, hb', hab.symm⟩) h.1
    · exact absurd (List.mem_map.2 ⟨a, ha', hab⟩) h.1
    · exact ih h.2 ha' hb'

/-- C46: the result does not depend on the iteration order of the map when values are distinct. -/
theorem C46_order {n : Name} {l l' : List (Name × Nat)} (hp : l.Perm l')
    (hv : (l.map Prod.snd).Nodup) : Enum.fromModel ⟨n, l⟩ = Enum.fromModel ⟨n, l'⟩ := by
  have key : l.mergeSort (fun a b => decide (a.2 ≤ b.2)) = l'.mergeSort (fun a b => decide (a.2 ≤ b.2)) := by
    have s1 : ∀ (k : List (Name × Nat)),
        (k.mergeSort (fun a b => decide (a.2 ≤ b.2))).Pairwise (fun a b => a.2 ≤ b.2) := by
      intro k
      have := List.pairwise_mergeSort (le := fun (a b : Name × Nat) => decide (a.2 ≤ b.2))
        (by simpa using fun a b c => Nat.le_trans) (by simpa using fun a b => Nat.le_total _ _) k
      simpa using this
    have p1 := List.mergeSort_perm l (fun a b => decide (a.2 ≤ b.2))
    have p2 := List.mergeSort_perm l' (fun a b => decide (a.2 ≤ b.2))
    refine List.Perm.eq_of_pairwise ?_ (s1 l) (s1 l') (p1.trans (hp.trans p2.symm))
    intro a b ha hb h1 h2
    have ha' := p1.mem_iff.1 ha
    have hb' := hp.mem_iff.2 (p2.mem_iff.1 hb)
    have heq : a.2 = b.2 := Nat.le_antisymm h1 h2
    exact inj_of_nodup hv ha' hb' heq
  unfold Enum.fromModel
  simp only [key]

example : ∃ e, Enum.fromModel ⟨"e".toList, [("B".toList, 7), ("A".toList, 2)]⟩ = .ok e ∧
    e.largest = 7 ∧ e.variants = [("A".toList, 2), ("B".toList, 7)] := by
  refine ⟨⟨"e".toList, 7, [("A".toList, 2), ("B".toList, 7)]⟩, ?_, rfl, rfl⟩
  simp [Enum.fromModel, List.mergeSort, List.MergeSort.Internal.splitInTwo]

/-! ## C47 -/

theorem splitDot_eq (cs : Name) : ∃ p ps, splitDot cs = p :: ps := by
  induction cs with
  | nil => exact ⟨_, _, rfl⟩
  | cons c cs ih =>
    unfold splitDot
    split
    · exact ⟨_, _, rfl⟩
    · obtain ⟨p, ps, h⟩ := ih; rw [h]; exact ⟨_, _, rfl⟩

/-- C47: a path is cut at its dots. -/
theorem C47_split (name : Name) (h : '.' ∉ name) (rest : Name) :
    splitDot name = [name] ∧ splitDot (name ++ '.' :: rest) = name :: splitDot rest := by
  induction name with
  | nil => exact ⟨rfl, by simp [splitDot]⟩
  | cons c cs ih =>
    simp only [List.mem_cons, not_or] at h
    obtain ⟨h1, h2⟩ := ih h.2
    have hc : c ≠ '.' := fun hc => h.1 hc.symm
    constructor
    · simp [splitDot, hc, h1]
    · simp [splitDot, hc, h2]

example : splitDot "a.b".toList = ["a".toList, "b".toList] := by
  have h := (C47_split "a".toList (by decide) "b".toList).2
  rw [(C47_split "b".toList (by decide) []).1] at h
  exact h

theorem walk_leads {name : Name} {s leaf : Structure} {parts : List Name} {f : FixedField} {is : List Nat}
    (h : Leads s parts leaf f is) : Discriminant.walk name s parts = .ok (leaf, is) := by
  induction h with
  | here hi hf => simp [Discriminant.walk, hi, hf]
  | down hi hf _ ih => simp [Discriminant.walk, hi, hf, ih]

theorem walk_stops {name : Name} {s leaf : Structure} {parts : List Name} {is : List Nat}
    (h : Stops s parts leaf is) : Discriminant.walk name s parts = .ok (leaf, is) := by
  induction h with
  | here => simp [Discriminant.walk]
  | down hi hf _ ih => simp [Discriminant.walk, hi, hf, ih]

theorem walk_ok {name : Name} {s leaf : Structure} {parts : List Name} {is : List Nat}
    (h : Discriminant.walk name s parts = .ok (leaf, is)) :
    (∃ f, Leads s parts leaf f is) ∨ Stops s parts leaf is := by
  induction parts generalizing s leaf is with
  | nil => cases h; exact .inr .here
  | cons n parts ih =>
    unfold Discriminant.walk at h
    split at h
    · cases h
    · next i hi =>
      split at h
      · next f hf => cases h; exact .inl ⟨f, .here hi hf⟩
      · next m r loc hf =>
        obtain ⟨⟨l, is'⟩, h1, h⟩ := Res.bind_eq_ok.1 h
        cases h
        rcases ih h1 with ⟨f, h2⟩ | h2
        · exact .inl ⟨f, .down hi hf h2⟩
        · exact .inr (.down hi hf h2)
      · cases h

theorem leads_ne_nil {s leaf : Structure} {parts : List Name} {f : FixedField} {is : List Nat}
    (h : Leads s parts leaf f is) : ∃ i, is.getLast? = some i ∧ leaf.fields[i]? = some (.fixed f) := by
  induction h with
  | @here s n rest i f hi hf => exact ⟨i, rfl, hf⟩
  | down _ _ _ ih =>
    obtain ⟨i, hi, hf⟩ := ih
    exact ⟨i, by rw [List.getLast?_cons, hi]; rfl, hf⟩

/-- The accessor chain of a path ends on the field it leads to. -/
def Ends (f : FixedField) : Access → Prop
  | .fixed g => g = f
  | .nested _ a => Ends f a
  | .item _ _ => False

theorem leads_walk {s leaf : Structure} {parts : List Name} {f : FixedField} {is : List Nat}
    (h : Leads s parts leaf f is) : ∃ a, s.walk is = some a ∧ Ends f a := by
  induction h with
  | here hi hf => exact ⟨.fixed _, by simp [Structure.walk, hf], rfl⟩
  | @down s r leaf n m rest loc i f is hi hf _ ih =>
    obtain ⟨a, ha, he⟩ := ih
    exact ⟨.nested loc a, by simp [Structure.walk, hf, ha], he⟩

/-- C47: a path that leads to a fixed-width field compiles, starts at the named
structure, and leads through nested structures to that field; the generated accessor chain reads it. -/
theorem C47_path {proto : Protocol} {path name : Name} {parts : List Name}
    {root leaf : Structure} {f : FixedField} {is : List Nat} (hs : splitDot path = name :: parts)
    (hr : proto.structsByName.lookup name = some root) (h : Leads root parts leaf f is) :
    ∃ d, Discriminant.fromModel proto path = .ok d ∧ d.root = root ∧ d.leaf = leaf ∧ d.indexList = is ∧
      d.getLeaf = .ok f ∧ ∃ a, d.access = some a ∧ Ends f a := by
  obtain ⟨i, hi, hf⟩ := leads_ne_nil h
  obtain ⟨a, ha, he⟩ := leads_walk h
  refine ⟨⟨root, leaf, i, is⟩, ?_, rfl, rfl, rfl, ?_, a, ha, he⟩
  · simp [Discriminant.fromModel, hs, hr, walk_leads h, hi]
  · simp [Discriminant.getLeaf, hf]

/-- C47: every accepted path leads to a fixed-width field or stops on a nested structure. -/
theorem C47_accepted {proto : Protocol} {path : Name} {d : Discriminant}
    (h : Discriminant.fromModel proto path = .ok d) :
    ∃ name parts, splitDot path = name :: parts ∧ proto.structsByName.lookup name = some d.root ∧
      d.indexList.getLast? = some d.leafIndex ∧
      ((∃ f, Leads d.root parts d.leaf f d.indexList) ∨ Stops d.root parts d.leaf d.indexList) := by
  unfold Discriminant.fromModel at h
  split at h
  · cases h
  · next name parts hs =>
    obtain ⟨root, hr, h⟩ := Res.bind_eq_ok.1 h
    obtain ⟨⟨leaf, is⟩, hw, h⟩ := Res.bind_eq_ok.1 h
    simp only at h
    split at h
    · next i hi => cases h; exact ⟨name, parts, hs, Res.ofOption_eq_ok hr, hi, walk_ok hw⟩
    · cases h

theorem stops_walk {s leaf : Structure} {parts : List Name} {is : List Nat}
    (h : Stops s parts leaf is) : s.walk is = none := by
  induction h with
  | here => rfl
  | @down s r leaf n m rest loc i is hi hf h1 ih =>
    cases is with
    | nil => simp [Structure.walk, hf]
    | cons j js =>
      rw [Structure.walk]
      simp only [hf, ih, Option.map_none]

theorem walk_ne_panic (name : Name) (s : Structure) (parts : List Name) :
    Discriminant.walk name s parts ≠ .panic := by
  induction parts generalizing s with
  | nil => simp [Discriminant.walk]
  | cons n parts ih =>
    unfold Discriminant.walk
    split
    · simp
    · split
      · simp
      · next m r loc hf =>
        cases h : Discriminant.walk name r parts with
        | panic => exact absurd h (ih r)
        | ok q => simp
        | err e => simp
      · simp

/-- C47: exactly the paths that lead to a fixed-width field yield a discriminant that can be read, and
exactly the paths that name a known structure and nothing else panic. -/
theorem C47_path_iff {proto : Protocol} {path name : Name} {parts : List Name}
    (hs : splitDot path = name :: parts) :
    ((∃ d a, Discriminant.fromModel proto path = .ok d ∧ d.access = some a) ↔
      ∃ root leaf f is, proto.structsByName.lookup name = some root ∧ Leads root parts leaf f is) ∧
    (Discriminant.fromModel proto path = .panic ↔
      parts = [] ∧ ∃ root, proto.structsByName.lookup name = some root) := by
  constructor
  · constructor
    · rintro ⟨d, a, h, ha⟩
      obtain ⟨n', parts', hs', hr, -, hl⟩ := C47_accepted h
      rw [hs] at hs'
      cases hs'
      rcases hl with ⟨f, hl⟩ | hl
      · exact ⟨_, _, f, _, hr, hl⟩
      · rw [Discriminant.access, stops_walk hl] at ha
        cases ha
    · rintro ⟨root, leaf, f, is, hr, hl⟩
      obtain ⟨d, h, -, -, -, -, a, ha, -⟩ := C47_path hs hr hl
      exact ⟨d, a, h, ha⟩
  · constructor
    · intro h
      unfold Discriminant.fromModel at h
      rw [hs] at h
      simp only at h
      cases hr : proto.structsByName.lookup name with
      | none => simp [hr] at h
      | some root =>
        simp only [hr, Res.ofOption_some, Res.bind_ok] at h
        cases hw : Discriminant.walk name root parts with
        | panic => exact absurd hw (walk_ne_panic _ _ _)
        | err e => simp [hw] at h
        | ok q =>
          obtain ⟨leaf, is⟩ := q
          rw [hw] at h
          simp only [Res.bind_ok] at h
          split at h
          · cases h
          · next hg =>
            have hnil : is = [] := by simpa using hg
            subst hnil
            rcases walk_ok hw with ⟨f, hl⟩ | hl
            · obtain ⟨i, hi, -⟩ := leads_ne_nil hl
              cases hi
            · cases hl
              exact ⟨rfl, root, rfl⟩
    · rintro ⟨rfl, root, hr⟩
      simp [Discriminant.fromModel, hs, hr, Discriminant.walk]

/-- C47: whatever follows the name of a fixed-width field in a path is ignored. -/
theorem C47_trailing {s leaf : Structure} {parts : List Name} {f : FixedField} {is : List Nat}
    (h : Leads s parts leaf f is) (extra : List Name) : Leads s (parts ++ extra) leaf f is := by
  induction h with
  | here hi hf => exact .here hi hf
  | down hi hf _ ih => exact .down hi hf ih

/-- C47: an undeclared structure and an unknown field of the structure reached are undefined
references; a field that is an array is an invalid discriminant. -/
theorem C47_rejects {proto : Protocol} {path name : Name} {parts : List Name}
    (hs : splitDot path = name :: parts) :
    (proto.structsByName.lookup name = none →
      Discriminant.fromModel proto path = .err (.undefinedReference name)) ∧
    ∀ root pre n rest mid is, proto.structsByName.lookup name = some root → parts = pre ++ n :: rest →
      Stops root pre mid is →
      ((∀ g ∈ mid.fields, g.name ≠ n) → Discriminant.fromModel proto path =
        .err (.undefinedReference (name ++ '.' :: n))) ∧
      (∀ i a, mid.fields.findIdx? (fun f => f.name == n) = some i → mid.fields[i]? = some (.array a) →
        Discriminant.fromModel proto path = .err .invalidUnionDiscriminant) := by
  refine ⟨fun h => by simp [Discriminant.fromModel, hs, h], ?_⟩
  intro root pre n rest mid is hr hp hst
  have key : ∀ e, Discriminant.walk name mid (n :: rest) = .err e →
      Discriminant.walk name root parts = .err e := by
    intro e he
    rw [hp]
    clear hr hp hs
    induction hst with
    | here => exact he
    | down hi hf _ ih => simp [Discriminant.walk, hi, hf, ih he]
  refine ⟨fun hn => ?_, fun i a hi ha => ?_⟩
  · have : Discriminant.walk name mid (n :: rest) = .err (.undefinedReference (name ++ '.' :: n)) := by
      have : mid.fields.findIdx? (fun f => f.name == n) = none := by
        rw [List.findIdx?_eq_none_iff]
        intro g hg
        simpa using hn g hg
      simp [Discriminant.walk, this]
    simp [Discriminant.fromModel, hs, hr, key _ this]
  · have : Discriminant.walk name mid (n :: rest) = .err .invalidUnionDiscriminant := by
      simp [Discriminant.walk, hi, ha]
    simp [Discriminant.fromModel, hs, hr, key _ this]

namespace Ex

/-- One 8-bit field named `a`. -/
def sInner : Structure :=
  .mk 7 "Inner".toList [.fixed ⟨"a".toList, .u8, ⟨0, 0, 1, 8⟩, .none, .little⟩] 1 8

/-- A number and a nested structure. -/
def sOuter : Structure :=
  .mk 8 "Outer".toList [.fixed ⟨"x".toList, .u8, ⟨0, 0, 1, 8⟩, .none, .little⟩,
    .struct "in".toList sInner ⟨1, 0, 1, 8⟩] 2 16

/-- Knows `Outer`. -/
def protoO : Protocol := { proto with structsByName := [("Outer".toList, sOuter)] }

end Ex

/-- C47 as stated is false: a path without a field panics; a path that stops on a nested structure
panics or silently takes another field. -/
theorem C47_full_false :
    (∀ (proto : Protocol) (name : Name) (root : Structure), '.' ∉ name →
      proto.structsByName.lookup name = some root → Discriminant.fromModel proto name = .panic) ∧
    (∃ (proto : Protocol) (v : Model.Union), Union.fromModel proto v = .panic ∧ '.' ∈ v.discriminant) ∧
    ∃ (d : Discriminant), Discriminant.fromModel Ex.protoO "Outer.in".toList = .ok d ∧ d.access = none := by
  refine ⟨fun proto name root hn hr => ?_, ⟨Ex.protoO, ⟨"u".toList, "Outer.in".toList,
    [⟨"c".toList, "1".toList, none⟩]⟩, rfl, by decide⟩, _, rfl, rfl⟩
  have := (C47_split name hn []).1
  simp [Discriminant.fromModel, this, hr, Discriminant.walk]

theorem Ex.leads_a : Leads Ex.sOuter ["in".toList, "a".toList] Ex.sInner
    ⟨"a".toList, .u8, ⟨0, 0, 1, 8⟩, .none, .little⟩ [1, 0] :=
  .down (i := 1) rfl rfl (.here (i := 0) rfl rfl)

example : ∃ d, Discriminant.fromModel Ex.protoO "Outer.in.a".toList = .ok d ∧ d.indexList = [1, 0] ∧
    d.getLeaf = .ok ⟨"a".toList, .u8, ⟨0, 0, 1, 8⟩, .none, .little⟩ :=
  let ⟨d, h1, _, _, h2, h3, _⟩ := C47_path (proto := Ex.protoO) (path := "Outer.in.a".toList) rfl rfl Ex.leads_a
  ⟨d, h1, h2, h3⟩

example : ∃ d a, Discriminant.fromModel Ex.protoO "Outer.in.a".toList = .ok d ∧ d.access = some a :=
  (C47_path_iff rfl).1.2 ⟨_, _, _, _, rfl, Ex.leads_a⟩

example : Discriminant.fromModel Ex.protoO "Outer".toList = .panic :=
  (C47_path_iff (name := "Outer".toList) rfl).2.2 ⟨rfl, _, rfl⟩

example : Leads Ex.sOuter (["in".toList, "a".toList] ++ ["zzz".toList]) Ex.sInner
    ⟨"a".toList, .u8, ⟨0, 0, 1, 8⟩, .none, .little⟩ [1, 0] := C47_trailing Ex.leads_a _

example : Discriminant.fromModel Ex.protoO "Outer.in.z".toList = .err (.undefinedReference "Outer.z".toList) :=
  ((C47_rejects (proto := Ex.protoO) (path := "Outer.in.z".toList) (name := "Outer".toList) rfl).2 _
    ["in".toList] "z".toList [] _ _ rfl rfl (.down (i := 1) rfl rfl .here)).1 (by decide)

example : ∃ d, Discriminant.fromModel Ex.protoO "Outer.in.a".toList = .ok d ∧ d.access ≠ none := by
  refine ⟨_, rfl, ?_⟩
  intro h
  cases h

/-! ## C59: values of union cases -/

theorem digit?_digitChar (d : Fin 10) : digit? (digitChar d) = some d.val := by
  revert d; decide

theorem parseDigits_decimal (ds : List (Fin 10)) (a : Nat) :
    parseDigits a (ds.map digitChar) = some (ds.foldl (fun a d => 10 * a + d.val) a) := by
  induction ds generalizing a with
  | nil => rfl
  | cons d ds ih => simp [parseDigits, digit?_digitChar, ih]

theorem parseNat_decimal {ds : List (Fin 10)} (h : ds ≠ []) :
    parseNat (ds.map digitChar) = some (decimal ds) := by
  cases ds with
  | nil => exact absurd rfl h
  | cons d ds => exact parseDigits_decimal (d :: ds) 0

theorem digitChar_ne (d : Fin 10) : digitChar d ≠ '+' ∧ digitChar d ≠ '-' ∧ digitChar d ≠ '.' := by
  revert d; decide

theorem digit?_eq_some {c : Char} {n : Nat} (h : digit? c = some n) : ∃ d : Fin 10, c = digitChar d ∧ n = d.val := by
  unfold digit? at h
  split at h
  · next hc =>
    cases h
    have h9 : ('9' : Char).toNat = 57 := rfl
    have h0 : ('0' : Char).toNat = 48 := rfl
    rw [h0, h9] at hc
    refine ⟨⟨c.toNat - 48, by omega⟩, ?_, rfl⟩
    unfold digitChar
    rw [h0]
    simp only
    rw [show 48 + (c.toNat - 48) = c.toNat by omega, Char.ofNat_toNat]
  · cases h

theorem parseDigits_eq_some {a n : Nat} {cs : List Char} (h : parseDigits a cs = some n) :
    ∃ ds : List (Fin 10), cs = ds.map digitChar ∧ n = ds.foldl (fun a d => 10 * a + d.val) a := by
  induction cs generalizing a with
  | nil => cases h; exact ⟨[], rfl, rfl⟩
  | cons c cs ih =>
    unfold parseDigits at h
    split at h
    · next d hd =>
      obtain ⟨d', rfl, rfl⟩ := digit?_eq_some hd
      obtain ⟨ds, rfl, rfl⟩ := ih h
      exact ⟨d' :: ds, rfl, rfl⟩
    · cases h

/-- `cs` is a non-empty string of decimal digits with value `n`. -/
def Numeral (cs : Name) (n : Nat) : Prop := ∃ ds : List (Fin 10), ds ≠ [] ∧ cs = ds.map digitChar ∧ n = decimal ds

theorem parseNat_iff {n : Nat} {cs : List Char} : parseNat cs = some n ↔ Numeral cs n := by
  constructor
  · intro h
    cases cs with
    | nil => cases h
    | cons c cs =>
      obtain ⟨ds, h1, h2⟩ := parseDigits_eq_some (a := 0) h
      refine ⟨ds, ?_, h1, h2⟩
      rintro rfl
      simp at h1
  · rintro ⟨ds, h, rfl, rfl⟩
    exact parseNat_decimal h

theorem numeral_head {cs : Name} {n : Nat} (h : Numeral cs n) :
    (∀ r, cs ≠ '+' :: r) ∧ (∀ r, cs ≠ '-' :: r) := by
  obtain ⟨ds, h0, rfl, -⟩ := h
  cases ds with
  | nil => exact absurd rfl h0
  | cons d ds =>
    constructor
    · intro r hr
      exact (digitChar_ne d).1 (List.cons.inj hr).1
    · intro r hr
      exact (digitChar_ne d).2.1 (List.cons.inj hr).1

theorem parseNat_filter {P : Nat → Prop} [DecidablePred P] {α : Type} {g : Nat → α} {cs : List Char} {y : α} :
    (match parseNat cs with
      | some n => if P n then some (g n) else none
      | none => none) = some y ↔ ∃ n, Numeral cs n ∧ P n ∧ y = g n := by
  constructor
  · intro h
    split at h
    · next k hk =>
      split at h
      · next hlt => cases h; exact ⟨k, parseNat_iff.1 hk, hlt, rfl⟩
      · cases h
    · cases h
  · rintro ⟨n, h1, h2, rfl⟩
    rw [parseNat_iff.2 h1]
    simp [h2]

theorem ofOption_iff {ε α : Type} {e : ε} {o : Option α} {a : α} :
    Res.ofOption e o = .ok a ↔ o = some a := by
  cases o <;> simp

/-- C59: a case of a plain unsigned discriminant is a decimal number, with an optional plus sign,
below 2^64: exactly these are accepted, with their value. -/
theorem C59_unsigned (case : Name) (n : Nat) :
    UCase.caseValue .none case = .ok n ↔
      n < 2 ^ 64 ∧ (Numeral case n ∨ ∃ cs, case = '+' :: cs ∧ Numeral cs n) := by
  simp only [UCase.caseValue, ofOption_iff]
  unfold parseUsize
  split
  · next cs =>
    simp only
    refine Iff.trans (parseNat_filter (g := fun n => n) (P := fun n => n < 2 ^ 64)) ?_
    constructor
    · rintro ⟨k, h1, h2, rfl⟩; exact ⟨h2, .inr ⟨cs, rfl, h1⟩⟩
    · rintro ⟨h2, h1 | ⟨cs', h, h1⟩⟩
      · exact absurd rfl ((numeral_head h1).1 cs)
      · cases h; exact ⟨n, h1, h2, rfl⟩
  · next h =>
    simp only
    refine Iff.trans (parseNat_filter (g := fun n => n) (P := fun n => n < 2 ^ 64)) ?_
    constructor
    · rintro ⟨k, h1, h2, rfl⟩; exact ⟨h2, .inl h1⟩
    · rintro ⟨h2, h1 | ⟨cs', rfl, h1⟩⟩
      · exact ⟨n, h1, h2, rfl⟩
      · exact absurd rfl (h cs')

example : UCase.caseValue .none "42".toList = .ok 42 :=
  (C59_unsigned _ _).2 ⟨by decide, .inl ⟨[4, 2], by decide, rfl, rfl⟩⟩

/-- The number `i` denotes on a 64-bit machine word. -/
def wordOf (i : Int) : Nat := (i % 2 ^ 64).toNat

/-- C59: a case of a signed or boolean discriminant is a decimal number with an optional sign, from
`-2^63` to `2^63 - 1`, and its value is the machine word of that number. -/
theorem C59_signed (m : Nat) (case : Name) (n : Nat) {view : View}
    (hv : view = .transmute ∨ view = .signedCast m) :
    UCase.caseValue view case = .ok n ↔
      (∃ k, k < 2 ^ 63 ∧ n = k ∧ (Numeral case k ∨ ∃ cs, case = '+' :: cs ∧ Numeral cs k)) ∨
      (∃ k cs, k ≤ 2 ^ 63 ∧ case = '-' :: cs ∧ Numeral cs k ∧ n = wordOf (-(k : Int))) := by
  have hpos : ∀ k : Nat, k < 2 ^ 63 → isizeAsUsize (k : Int) = k := by
    intro k hk
    unfold isizeAsUsize
    rw [Int.emod_eq_of_lt (by omega) (by omega)]
    simp
  have h0 : UCase.caseValue view case = .ok n ↔ ∃ i, parseIsize case = some i ∧ isizeAsUsize i = n := by
    rcases hv with rfl | rfl <;> simp only [UCase.caseValue, ofOption_iff, Option.map_eq_some_iff]
  rw [h0]
  have hneg : ∀ cs i, (match parseNat cs with
      | some n => if n ≤ 2 ^ 63 then some (-(n : Int)) else none
      | none => none) = some i ↔ ∃ n : Nat, Numeral cs n ∧ n ≤ 2 ^ 63 ∧ i = -(n : Int) :=
    fun cs i => parseNat_filter (g := fun n : Nat => (-(n : Int))) (P := fun n => n ≤ 2 ^ 63)
  have hnn : ∀ cs i, (match parseNat cs with
      | some n => if n < 2 ^ 63 then some (n : Int) else none
      | none => none) = some i ↔ ∃ n : Nat, Numeral cs n ∧ n < 2 ^ 63 ∧ i = (n : Int) :=
    fun cs i => parseNat_filter (g := fun n : Nat => (n : Int)) (P := fun n => n < 2 ^ 63)
  unfold parseIsize
  split
  · next cs =>
    constructor
    · rintro ⟨i, hi, rfl⟩
      obtain ⟨k, h1, h2, rfl⟩ := (hneg _ _).1 hi
      exact .inr ⟨k, cs, h2, rfl, h1, rfl⟩
    · rintro (⟨k, h2, rfl, h1 | ⟨cs', h, h1⟩⟩ | ⟨k, cs', h2, h, h1, rfl⟩)
      · exact absurd rfl ((numeral_head h1).2 cs)
      · cases h
      · cases h; exact ⟨_, (hneg _ _).2 ⟨k, h1, h2, rfl⟩, rfl⟩
  · next cs =>
    constructor
    · rintro ⟨i, hi, rfl⟩
      obtain ⟨k, h1, h2, rfl⟩ := (hnn _ _).1 hi
      exact .inl ⟨k, h2, hpos k h2, .inr ⟨cs, rfl, h1⟩⟩
    · rintro (⟨k, h2, rfl, h1 | ⟨cs', h, h1⟩⟩ | ⟨k, cs', h2, h, h1, rfl⟩)
      · exact absurd rfl ((numeral_head h1).1 cs)
      · cases h; exact ⟨_, (hnn _ _).2 ⟨n, h1, h2, rfl⟩, hpos n h2⟩
      · cases h
  · next h1' h2' =>
    constructor
    · rintro ⟨i, hi, rfl⟩
      obtain ⟨k, h1, h2, rfl⟩ := (hnn _ _).1 hi
      exact .inl ⟨k, h2, hpos k h2, .inl h1⟩
    · rintro (⟨k, h2, rfl, h1 | ⟨cs', rfl, h1⟩⟩ | ⟨k, cs', h2, rfl, h1, rfl⟩)
      · exact ⟨_, (hnn _ _).2 ⟨n, h1, h2, rfl⟩, hpos n h2⟩
      · exact absurd rfl (h2' cs')
      · exact absurd rfl (h1' cs')

example : UCase.caseValue .transmute "-3".toList = .ok (2 ^ 64 - 3) :=
  (C59_signed 0 _ _ (.inl rfl)).2 (.inr ⟨3, "3".toList, by decide, rfl, ⟨[3], by decide, rfl, rfl⟩, rfl⟩)

/-- C59: a case of an enum discriminant is the name of one of its variants and has its value; a float
field cannot be a discriminant; anything else is an invalid case, reported with its text. -/
theorem C59_enum (case : Name) :
    (∀ e : Enum, UCase.caseValue (.enum e) case =
      match e.variants.lookup case with
      | some n => .ok n
      | none => .err (.invalidUnionCase case)) ∧
    (∀ a b c d, UCase.caseValue (.float a b c d) case = .err .floatInUnionDiscriminant) ∧
    (∀ view, (∀ a b c d, view ≠ .float a b c d) → (∃ n, UCase.caseValue view case = .ok n) ∨
      UCase.caseValue view case = .err (.invalidUnionCase case)) := by
  have h : ∀ o : Option Nat, (∃ n, Res.ofOption (CError.invalidUnionCase case) o = .ok n) ∨
      Res.ofOption (CError.invalidUnionCase case) o = .err (.invalidUnionCase case) := by
    intro o
    cases o with
    | none => exact .inr rfl
    | some n => exact .inl ⟨n, rfl⟩
  refine ⟨fun e => ?_, fun _ _ _ _ => rfl, fun view hv => ?_⟩
  · unfold UCase.caseValue
    cases hl : e.variants.lookup case <;> simp [hl]
  · cases view with
    | float a b c d => exact absurd rfl (hv a b c d)
    | _ => exact h _

example : UCase.caseValue (.enum ⟨['e'], 2, [("A".toList, 2)]⟩) "A".toList = .ok 2 :=
  (C59_enum "A".toList).1 ⟨['e'], 2, [("A".toList, 2)]⟩

/-- C59 as stated is false: a negative case of a discriminant narrower than 64 bits has a value no
such field can hold, so it can never be selected. -/
theorem C59_negative_unreachable {k : Nat} (h0 : 0 < k) (hk : k ≤ 2 ^ 63) {cs : Name} (h : Numeral cs k) :
    ∃ n, UCase.caseValue .transmute ('-' :: cs) = .ok n ∧ 2 ^ 63 ≤ n := by
  refine ⟨wordOf (-(k : Int)), ?_, ?_⟩
  · rw [C59_signed 0 _ _ (.inl rfl)]
    exact .inr ⟨k, cs, hk, rfl, h, rfl⟩
  · unfold wordOf
    omega

example : ∃ n, UCase.caseValue .transmute "-3".toList = .ok n ∧ 2 ^ 63 ≤ n :=
  C59_negative_unreachable (k := 3) (cs := "3".toList) (by decide) (by decide) ⟨[3], by decide, rfl, rfl⟩

/-- C59, exactly: the value stored for the number `i` of a signed case is one that a key field of `w`
bits can hold iff `i` is not negative or the field has 64 bits, and then it is the one that reads as
`i`. -/
theorem C59_reachable {w : Nat} (h1 : 1 ≤ w) (h2 : w ≤ 64) {i : Int} (hi : Spec.SignedRange w i) :
    ((∃ raw, raw < 2 ^ w ∧ raw = wordOf i) ↔ 0 ≤ i ∨ w = 64) ∧
    (0 ≤ i ∨ w = 64 → Spec.twosComplement w (wordOf i) = i ∧ Spec.pattern w i = wordOf i) := by
  obtain ⟨hlo, hhi⟩ := hi
  have hle : (2 : Nat) ^ w ≤ 2 ^ 64 := Nat.pow_le_pow_right (by omega) (by omega)
  have hlt : w < 64 → (2 : Nat) ^ w ≤ 2 ^ 63 := fun h => Nat.pow_le_pow_right (by omega) (by omega)
  have hp := Nat.two_pow_pos w
  have hword : 0 ≤ i ∨ w = 64 → Spec.pattern w i = wordOf i := by
    intro h
    unfold Spec.pattern wordOf
    rcases h with h | rfl
    · rw [Int.emod_eq_of_lt h (by omega), Int.emod_eq_of_lt h (by omega)]
    · rfl
  refine ⟨⟨?_, ?_⟩, fun h => ⟨?_, hword h⟩⟩
  · rintro ⟨raw, hr, rfl⟩
    refine Classical.byContradiction fun hn => ?_
    have := hlt (by omega)
    unfold wordOf at hr
    omega
  · intro h
    refine ⟨_, ?_, rfl⟩
    rw [← hword h]
    unfold Spec.pattern
    generalize (2 ^ w : Nat) = m at *
    have := Int.emod_lt_of_pos i (show (0 : Int) < m by omega)
    have := Int.emod_nonneg i (show (m : Int) ≠ 0 by omega)
    omega
  · rw [← hword h]
    exact Spec.twosComplement_pattern ⟨hlo, hhi⟩

example : Spec.SignedRange 8 (-1) ∧ wordOf (-1) = 2 ^ 64 - 1 ∧ Spec.pattern 8 (-1) = 255 := by
  refine ⟨⟨by decide, by decide⟩, by decide, by decide⟩

example : UCase.caseValue .none "42".toList = .ok 42 ∧ UCase.caseValue .none "-1".toList ≠ .ok 1 ∧
    UCase.caseValue .transmute "-1".toList = .ok (2 ^ 64 - 1) := by
  refine ⟨by rfl, by decide, by rfl⟩

/-- C59: the cases of a compiled union, in order: name, value and content as declared. -/
theorem C59_cases {proto : Protocol} {d : Discriminant} {f : FixedField} (hf : d.getLeaf = .ok f)
    {vs : List Model.UCase} {ks : List UCase} :
    Union.casesFromModel proto d vs = .ok ks ↔ ks.length = vs.length ∧
      ∀ i (hk : i < ks.length) (hv : i < vs.length),
        ks[i].name = vs[i].name ∧ UCase.caseValue f.view vs[i].case = .ok ks[i].case ∧
        ((vs[i].itemType = none ∧ ks[i].itemType = none) ∨
         ∃ n r, vs[i].itemType = some n ∧ Referenced.lookup proto n = some r ∧ ks[i].itemType = some r) := by
  have hone : ∀ (v : Model.UCase) (k : UCase), UCase.fromModel proto f v = .ok k ↔
      k.name = v.name ∧ UCase.caseValue f.view v.case = .ok k.case ∧
      ((v.itemType = none ∧ k.itemType = none) ∨
         ∃ n r, v.itemType = some n ∧ Referenced.lookup proto n = some r ∧ k.itemType = some r) := by
    intro v k
    obtain ⟨kn, kc, kt⟩ := k
    simp only [UCase.name, UCase.case, UCase.itemType]
    unfold UCase.fromModel
    constructor
    · intro h
      obtain ⟨c, hc, h⟩ := Res.bind_eq_ok.1 h
      obtain ⟨t, ht, h⟩ := Res.bind_eq_ok.1 h
      cases h
      refine ⟨rfl, hc, ?_⟩
      cases hn : v.itemType with
      | none => rw [hn] at ht; cases ht; exact .inl ⟨rfl, rfl⟩
      | some n =>
        rw [hn] at ht
        obtain ⟨r', hr', ht⟩ := Res.bind_eq_ok.1 ht
        cases ht
        exact .inr ⟨n, r', rfl, Res.ofOption_eq_ok hr', rfl⟩
    · rintro ⟨rfl, hc, ⟨h1, h2⟩ | ⟨n, r, h1, h2, h3⟩⟩
      · rw [hc, h1, h2]; rfl
      · rw [hc, h1, h3]
        simp [UCase.content, h2]
  induction vs generalizing ks with
  | nil =>
    constructor
    · intro h; cases h; simp
    · rintro ⟨h, _⟩
      have := List.length_eq_zero_iff.1 h
      subst this
      rfl
  | cons v vs ih =>
    unfold Union.casesFromModel
    rw [hf, Res.bind_ok]
    constructor
    · intro h
      obtain ⟨k, hk, h⟩ := Res.bind_eq_ok.1 h
      obtain ⟨ks', hks, h⟩ := Res.bind_eq_ok.1 h
      cases h
      obtain ⟨hl, hi⟩ := ih.1 hks
      refine ⟨by simp [hl], fun i h1 h2 => ?_⟩
      cases i with
      | zero => exact (hone v k).1 hk
      | succ i => exact hi i (by simpa using h1) (by simpa using h2)
    · rintro ⟨hl, hi⟩
      cases ks with
      | nil => simp at hl
      | cons k ks =>
        have hk := (hone v k).2 (hi 0 (by simp) (by simp))
        have hks := ih.2 ⟨by simpa using hl, fun i h1 h2 =>
          hi (i + 1) (by simpa using h1) (by simpa using h2)⟩
        rw [hk, Res.bind_ok, hks]
        rfl

example : ∃ ks, Union.casesFromModel Ex.proto Ex.keyDisc [⟨"N".toList, "0".toList, none⟩,
      ⟨"K".toList, "7".toList, some "Key".toList⟩] = .ok ks ∧
    ks = [.mk "N".toList 0 none, .mk "K".toList 7 (some (.struct Ex.keyS))] := by
  refine ⟨_, (C59_cases (proto := Ex.proto) (d := Ex.keyDisc)
    (f := { name := "kind".toList, ty := .u8, loc := ⟨0, 0, 1, 8⟩, view := .none, endian := .little }) rfl).2
    ⟨rfl, ?_⟩, rfl⟩
  intro i hk hv
  rcases i with _ | _ | i
  · exact ⟨rfl, rfl, .inl ⟨rfl, rfl⟩⟩
  · exact ⟨rfl, rfl, .inr ⟨_, _, rfl, rfl, rfl⟩⟩
  · simp at hk; omega

/-! ## C51 -/

/-- C51: what a message field of a structure type becomes. -/
theorem C51_field {proto : Protocol} {emb : List Nat} {before : List MField} {n t : Name}
    {o : Option Bool} {s : Structure} (hs : proto.structsByName.lookup t = some s) :
    MField.fromModel proto emb before ⟨n, .item t, o⟩ =
      .ok (.mk n (match s.asScalar with
                  | some ty => .fixed ty
                  | none => .ref (.struct s)) (o.getD false) ⟨false, false⟩ proto.endianness, emb) := by
  unfold MField.fromModel
  simp only [Referenced.lookup, hs, Res.ofOption_some, Res.bind_ok]
  cases s.asScalar <;> rfl

example : MField.fromModel Ex.proto [] [] ⟨"k".toList, .item "Key".toList, some true⟩ =
    .ok (.mk "k".toList (.ref (.struct Ex.keyS)) true ⟨false, false⟩ .little, []) :=
  C51_field (s := Ex.keyS) rfl

/-- C51: if the number standing for a one-field structure is as wide as the structure, a message field whose type is a structure occupies exactly the structure's byte size on the wire, for
every value it can hold. -/
theorem C51_size {proto : Protocol} {emb emb' : List Nat} {before : List MField} {n t : Name}
    {s : Structure} {f : MField} (hs : proto.structsByName.lookup t = some s)
    (h : MField.fromModel proto emb before ⟨n, .item t, none⟩ = .ok (f, emb'))
    (hw : ∀ ty, s.asScalar = some ty → ty.byteSize = s.byteSize)
    {c : Ctx} {here : Bool} {env : Env} {v : Value} (hv : f.Repr c here env v) :
    (f.wire v).length = s.byteSize := by
  rw [C51_field hs] at h
  cases h
  cases ha : s.asScalar with
  | none =>
    simp only [ha] at hv ⊢
    simp only [MField.Repr, Option.getD_none, Bool.false_eq_true, if_false, MFieldTy.Repr,
      Referenced.Repr] at hv
    obtain ⟨b, rfl, hb⟩ := hv
    simp [MField.wire, MFieldTy.wire, Referenced.wire, hb]
  | some ty =>
    simp only [ha] at hv ⊢
    simp only [MField.Repr, Option.getD_none, Bool.false_eq_true, if_false, MFieldTy.Repr] at hv
    obtain ⟨k, rfl, _⟩ := hv
    simp [MField.wire, MFieldTy.wire, hw ty ha]

example (v : Value) (h : (MField.mk "k".toList (.ref (.struct Ex.keyS)) false ⟨false, false⟩ .little).Repr
    Ex.ctx false [] v) :
    (MField.wire (.mk "k".toList (.ref (.struct Ex.keyS)) false ⟨false, false⟩ .little) v).length = 2 :=
  C51_size (proto := Ex.proto) (emb := []) (emb' := []) (before := []) (n := "k".toList)
    (t := "Key".toList) (s := Ex.keyS) rfl rfl (by intro ty h; cases h) h

/-- The declared types for which a one-field structure and the number standing for it have the same
size. -/
def SameSize : Model.FieldTy → Prop
  | .boolean n => n = 8
  | .unsigned n => n ∈ [8, 16, 32, 64]
  | .signed _ => True
  | .float _ => True
  | .struct _ => False

theorem signed_transmute {p : Profile} {enums : List (Name × Enum)} {k : Nat}
    {vw : Option Model.FieldView} {v : View} (h : View.fromModel p enums .signed k vw = .ok v)
    (ht : v.isTransmute = true) : k = 8 ∨ k = 16 ∨ k = 32 ∨ k = 64 := by
  cases vw with
  | some w => cases w <;> simp [View.fromModel] at h
  | none =>
    simp only [View.fromModel, reduceCtorEq, false_and, if_false, true_and] at h
    split at h
    · obtain ⟨_, _, h⟩ := Res.bind_eq_ok.1 h
      obtain ⟨_, _, h⟩ := Res.bind_eq_ok.1 h
      obtain ⟨_, _, h⟩ := Res.bind_eq_ok.1 h
      cases h
      simp [View.isTransmute] at ht
    · omega

theorem float_transmute {p : Profile} {enums : List (Name × Enum)} {k : Nat}
    {vw : Option Model.FieldView} {v : View} (h : View.fromModel p enums .float k vw = .ok v)
    (ht : v.isTransmute = true) : k = 32 ∨ k = 64 := by
  cases vw with
  | some w =>
    cases w with
    | enum n => simp [View.fromModel] at h
    | floatRange a b =>
      simp only [View.fromModel, ne_eq, not_true_eq_false, if_false] at h
      obtain ⟨_, _, h⟩ := Res.bind_eq_ok.1 h
      obtain ⟨_, _, h⟩ := Res.bind_eq_ok.1 h
      cases h
      simp [View.isTransmute] at ht
    | floatMultiplier m =>
      simp only [View.fromModel, ne_eq, not_true_eq_false, if_false] at h
      cases h
      simp [View.isTransmute] at ht
  | none =>
    simp only [View.fromModel, true_and] at h
    split at h
    · cases h
    · omega

/-- C51: exactly which one-field structures keep their size when a message field is made a plain
number of them. -/
theorem C51_exact {p : Profile} {structs : List (Name × Structure)} {enums : List (Name × Enum)}
    {e : Endian} {id : Nat} {name : Name} {d : Model.SField} {s : Structure}
    (h : Structure.fromModel p structs enums e id ⟨name, [d]⟩ = .ok s)
    (hp : p = .checked ∨ declTotal structs [d] < 2 ^ 64) {ty : FixedTy} (ha : s.asScalar = some ty) :
    ty.byteSize = s.byteSize ↔ d.arrayLen ≠ some 0 ∧ SameSize d.info := by
  obtain ⟨_, hlen, hbits, hbytes, hf⟩ := C08_layout h hp
  obtain ⟨hdesc, _, _, _, hw, _⟩ := hf 0 (by rw [hlen]; simp) (by simp)
  unfold Structure.asScalar at ha
  split at ha
  · next f hfs =>
    split at ha
    · next hc =>
      cases ha
      simp only [hfs, List.getElem_cons_zero, Describes] at hdesc
      simp only [hfs, List.getElem_cons_zero, SField.loc] at hw
      obtain ⟨_, hal, hty, _, bits, hb, hview⟩ := hdesc
      have htot : s.bitSize = declWidth structs d := by
        rw [hbits]; simp [declTotal]
      have h8 : declWidth structs d % 8 = 0 := by rw [← hw]; exact hc.2
      rw [hbytes, htot]
      have hel := C08_element_type _ _ hty
      have har : d.arrayLen = some 0 ∨ d.arrayLen.getD 1 = 1 := by
        cases hd : d.arrayLen with
        | none => exact .inr rfl
        | some k =>
          rw [hd] at hal
          simp only [Option.getD_some] at hal ⊢
          have : k = 0 ∨ k = 1 := by omega
          rcases this with rfl | rfl
          · exact .inl rfl
          · exact .inr rfl
      rcases har with har | har
      · have hz : declWidth structs d = 0 := by
          unfold declWidth
          cases hi : d.info with
          | struct t => rw [hi] at hb; cases hb
          | signed k => simp [har]
          | unsigned k => simp [har]
          | float k => simp [har]
          | boolean k => simp [har]
        rw [hz]
        have : 0 < f.ty.byteSize := by cases f.ty <;> simp [FixedTy.byteSize]
        constructor
        · intro h; omega
        · rintro ⟨h, _⟩; exact absurd har h
      · have hne : d.arrayLen ≠ some 0 := by
          intro h; rw [h] at har; cases har
        simp only [ne_eq, hne, not_false_eq_true, true_and]
        cases hi : d.info with
        | struct t => rw [hi] at hb; cases hb
        | boolean k =>
          rw [hi] at hel
          simp only [ElementType] at hel
          have hdw : declWidth structs d = k := by simp [declWidth, hi, har]
          rw [hdw] at h8 ⊢
          simp only [SameSize, hel, FixedTy.byteSize]
          omega
        | unsigned k =>
          rw [hi] at hel
          have hdw : declWidth structs d = k := by simp [declWidth, hi, har]
          rw [hdw] at h8 ⊢
          obtain ⟨hm, h0, hle, hmin⟩ := hel
          simp only [SameSize]
          simp only [List.mem_cons, List.not_mem_nil, or_false] at hm ⊢
          rcases hm with hm | hm | hm | hm <;> rw [hm] at hle hmin ⊢ <;>
            simp [FixedTy.byteSize] at hle hmin ⊢ <;> omega
        | signed k =>
          rw [hi] at hel hb hview
          have hbk : k = bits := by simpa [Model.FieldTy.bitSize?] using hb
          subst hbk
          have hdw : declWidth structs d = k := by simp [declWidth, hi, har]
          rw [hdw] at h8 ⊢
          obtain ⟨hm, h0, hle, hmin⟩ := hel
          have hk := signed_transmute hview hc.1
          simp only [SameSize, iff_true]
          simp only [List.mem_cons, List.not_mem_nil, or_false] at hm
          rcases hm with hm | hm | hm | hm <;> rw [hm] at hle hmin ⊢ <;>
            simp [FixedTy.byteSize] at hle hmin ⊢ <;> omega
        | float k =>
          rw [hi] at hel hb hview
          have hbk : k = bits := by simpa [Model.FieldTy.bitSize?] using hb
          subst hbk
          have hdw : declWidth structs d = k := by simp [declWidth, hi, har]
          rw [hdw] at h8 ⊢
          obtain ⟨h0, hle, h32, h64⟩ := hel
          have hk := float_transmute hview hc.1
          simp only [SameSize, iff_true]
          rcases hk with rfl | rfl
          · rw [h32.2 (by simp)]; rfl
          · rw [h64.2 (by simp)]; rfl
    · cases ha
  · cases ha

/-- A declared field that, alone in its structure, turns message fields of that structure into plain
numbers: no view, not an array of several items, whole bytes, and a plain integer, boolean or float
width. -/
def Inlined (d : Model.SField) : Prop :=
  d.view = none ∧ (d.arrayLen = none ∨ d.arrayLen = some 0 ∨ d.arrayLen = some 1) ∧
  match d.info with
  | .boolean n => n * d.arrayLen.getD 1 % 8 = 0
  | .unsigned n => n * d.arrayLen.getD 1 % 8 = 0
  | .signed n => n ∈ [8, 16, 32, 64]
  | .float n => n ∈ [32, 64]
  | .struct _ => False

/-- C51: message fields of a compiled structure are plain numbers exactly when the structure has one
field and that field is of the listed kinds. -/
theorem C51_inlined {p : Profile} {structs : List (Name × Structure)} {enums : List (Name × Enum)}
    {e : Endian} {id : Nat} {v : Model.Structure} {s : Structure}
    (h : Structure.fromModel p structs enums e id v = .ok s)
    (hp : p = .checked ∨ declTotal structs v.fields < 2 ^ 64) :
    (∃ ty, s.asScalar = some ty) ↔ ∃ d, v.fields = [d] ∧ Inlined d := by
  obtain ⟨_, hlen, hbits, hbytes, hf⟩ := C08_layout h hp
  have one : ∀ d, v.fields = [d] → ((∃ ty, s.asScalar = some ty) ↔ Inlined d) := by
    intro d hd
    rw [hd] at hlen
    obtain ⟨g, hg⟩ : ∃ g, s.fields = [g] := by
      cases hs : s.fields with
      | nil => rw [hs] at hlen; cases hlen
      | cons g gs =>
        rw [hs] at hlen
        cases gs with
        | nil => exact ⟨g, rfl⟩
        | cons => simp at hlen
    obtain ⟨hdesc, _, _, _, hw, _⟩ := hf 0 (by rw [hg]; simp) (by rw [hd]; simp)
    simp only [hg, hd, List.getElem_cons_zero] at hdesc hw
    cases g with
    | struct n r l =>
      obtain ⟨_, t, ht, _⟩ := hdesc
      simp [Structure.asScalar, hg, Inlined, ht]
    | array a =>
      obtain ⟨_, ha, h1, _⟩ := hdesc
      simp only [Structure.asScalar, hg, reduceCtorEq, exists_false, false_iff]
      rintro ⟨_, h | h | h, _⟩ <;> rw [ha] at h <;> simp only [reduceCtorEq, Option.some.injEq] at h <;> omega
    | fixed f =>
      obtain ⟨_, hal, hty, _, bits, hb, hview⟩ := hdesc
      simp only [SField.loc] at hw
      have har : d.arrayLen = none ∨ d.arrayLen = some 0 ∨ d.arrayLen = some 1 := by
        cases hd : d.arrayLen with
        | none => exact .inl rfl
        | some k =>
          rw [hd] at hal
          simp only [Option.getD_some] at hal
          have : k = 0 ∨ k = 1 := by omega
          rcases this with rfl | rfl
          · exact .inr (.inl rfl)
          · exact .inr (.inr rfl)
      have hscal : (∃ ty, s.asScalar = some ty) ↔
          f.view.isTransmute = true ∧ declWidth structs d % 8 = 0 := by
        simp only [Structure.asScalar, hg, ← hw]
        by_cases hc : f.view.isTransmute = true ∧ f.loc.bitSize % 8 = 0
        · simp [hc]
        · simp [hc]
      rw [hscal]
      unfold Inlined declWidth
      simp only [har, true_and]
      cases hi : d.info with
      | struct t => rw [hi] at hb; cases hb
      | boolean k =>
        rw [hi] at hb hview
        cases hvw : d.view with
        | some w => rw [hvw] at hview; cases w <;> simp [View.fromModel, Model.FieldTy.simple] at hview
        | none =>
          rw [hvw] at hview
          simp only [View.fromModel, Model.FieldTy.simple, reduceCtorEq, false_and, if_false,
            Res.pure_eq, Res.ok.injEq] at hview
          simp [← hview, View.isTransmute]
      | unsigned k =>
        rw [hi] at hb hview
        cases hvw : d.view with
        | some w =>
          rw [hvw] at hview
          cases w with
          | enum n =>
            simp only [View.fromModel, Model.FieldTy.simple, ne_eq, not_true, if_false] at hview
            obtain ⟨r, _, hview⟩ := Res.bind_eq_ok.1 hview
            rw [← Res.ok.inj hview]
            simp [View.isTransmute]
          | floatRange a b => simp [View.fromModel, Model.FieldTy.simple] at hview
          | floatMultiplier m => simp [View.fromModel, Model.FieldTy.simple] at hview
        | none =>
          rw [hvw] at hview
          simp only [View.fromModel, Model.FieldTy.simple, reduceCtorEq, false_and, if_false, if_true,
            Res.pure_eq, Res.ok.injEq] at hview
          simp [← hview, View.isTransmute]
      | signed k =>
        rw [hi] at hb hview
        have hbk : k = bits := by simpa [Model.FieldTy.bitSize?] using hb
        subst hbk
        simp only [Model.FieldTy.simple] at hview
        cases hvw : d.view with
        | some w => rw [hvw] at hview; cases w <;> simp [View.fromModel] at hview
        | none =>
          rw [hvw] at hview
          constructor
          · rintro ⟨ht, _⟩
            have := signed_transmute hview ht
            simpa using this
          · rintro ⟨_, hk⟩
            simp only [List.mem_cons, List.not_mem_nil, or_false] at hk
            simp only [View.fromModel, reduceCtorEq, false_and, if_false] at hview
            rw [if_neg (by omega)] at hview
            simp only [Res.pure_eq, Res.ok.injEq] at hview
            refine ⟨by rw [← hview]; rfl, ?_⟩
            rw [Nat.mul_mod]
            have : k % 8 = 0 := by omega
            simp [this]
      | float k =>
        rw [hi] at hb hview
        have hbk : k = bits := by simpa [Model.FieldTy.bitSize?] using hb
        subst hbk
        simp only [Model.FieldTy.simple] at hview
        cases hvw : d.view with
        | some w =>
          have : f.view.isTransmute = false := by
            rw [hvw] at hview
            cases w with
            | enum n => simp [View.fromModel] at hview
            | floatRange a b =>
              simp only [View.fromModel, ne_eq, not_true_eq_false, if_false] at hview
              obtain ⟨_, _, hview⟩ := Res.bind_eq_ok.1 hview
              obtain ⟨_, _, hview⟩ := Res.bind_eq_ok.1 hview
              rw [← Res.ok.inj hview]
              rfl
            | floatMultiplier m =>
              simp only [View.fromModel, ne_eq, not_true_eq_false, if_false] at hview
              rw [← Res.ok.inj hview]
              rfl
          simp [this]
        | none =>
          rw [hvw] at hview
          constructor
          · rintro ⟨ht, _⟩
            have := float_transmute hview ht
            simpa using this
          · rintro ⟨_, hk⟩
            simp only [List.mem_cons, List.not_mem_nil, or_false] at hk
            simp only [View.fromModel, true_and, reduceCtorEq, false_and, if_false] at hview
            rw [if_neg (by omega)] at hview
            simp only [Res.pure_eq, Res.ok.injEq] at hview
            refine ⟨by rw [← hview]; rfl, ?_⟩
            rw [Nat.mul_mod]
            have : k % 8 = 0 := by omega
            simp [this]
  constructor
  · rintro ⟨ty, ht⟩
    have : s.fields.length = 1 := by
      unfold Structure.asScalar at ht
      split at ht
      · next hs => rw [hs]; rfl
      · cases ht
    obtain ⟨d, hd⟩ : ∃ d, v.fields = [d] := by
      rw [this] at hlen
      cases hv : v.fields with
      | nil => rw [hv] at hlen; cases hlen
      | cons g gs =>
        rw [hv] at hlen
        cases gs with
        | nil => exact ⟨g, rfl⟩
        | cons => simp at hlen
    exact ⟨d, hd, (one d hd).1 ⟨ty, ht⟩⟩
  · rintro ⟨d, hd, hi⟩
    exact (one d hd).2 hi

example : ∃ s, Structure.fromModel .checked [] [] .little 0 ⟨['s'], [⟨['a'], .unsigned 24, none, none⟩]⟩ = .ok s ∧
    ∃ ty, s.asScalar = some ty :=
  ⟨_, rfl, (C51_inlined (p := .checked) (structs := []) (enums := []) (e := .little) (id := 0)
    (v := ⟨['s'], [⟨['a'], .unsigned 24, none, none⟩]⟩) rfl (.inl rfl)).2
      ⟨_, rfl, by simp [Inlined]⟩⟩

/-- C51: a message field of a compiled structure type occupies the structure's byte size on the wire,
for every value, exactly when the structure is not one of the inlined ones that change size. -/
theorem C51_size_iff {p : Profile} {structs : List (Name × Structure)} {enums : List (Name × Enum)}
    {e : Endian} {id : Nat} {d : Model.Structure} {s : Structure}
    (hc : Structure.fromModel p structs enums e id d = .ok s)
    (hp : p = .checked ∨ declTotal structs d.fields < 2 ^ 64)
    {proto : Protocol} {emb emb' : List Nat} {before : List MField} {n t : Name}
    {f : MField} (hs : proto.structsByName.lookup t = some s)
    (h : MField.fromModel proto emb before ⟨n, .item t, none⟩ = .ok (f, emb')) :
    (∀ (c : Ctx) (here : Bool) (env : Env) (v : Value), f.Repr c here env v →
      (f.wire v).length = s.byteSize) ↔
    ∀ x, d.fields = [x] → Inlined x → x.arrayLen ≠ some 0 ∧ SameSize x.info := by
  constructor
  · intro hall x hx hi
    obtain ⟨ty, hty⟩ := (C51_inlined hc hp).2 ⟨x, hx, hi⟩
    have hd : d = ⟨d.name, [x]⟩ := by cases d; cases hx; rfl
    rw [hd] at hc hp
    refine (C51_exact hc hp hty).1 ?_
    rw [C51_field hs, hty] at h
    cases h
    have := hall ⟨.checked, fun _ => false⟩ false [] (.num 0) (by
      simp [MField.Repr, MFieldTy.Repr, Nat.pow_pos])
    simpa [MField.wire, MFieldTy.wire] using this
  · intro hall c here env v hv
    refine C51_size hs h ?_ hv
    intro ty hty
    obtain ⟨x, hx, hi⟩ := (C51_inlined hc hp).1 ⟨ty, hty⟩
    have hd : d = ⟨d.name, [x]⟩ := by cases d; cases hx; rfl
    have h2 := hall x hx hi
    rw [hd] at hc hp
    exact (C51_exact hc hp hty).2 h2

example : ∃ s, Structure.fromModel .checked [] [] .little 0 ⟨['s'], [⟨['a'], .unsigned 24, none, none⟩]⟩ = .ok s ∧
    ∃ f emb', MField.fromModel { Ex.proto with structsByName := [(['s'], s)] } [] [] ⟨['f'], .item ['s'], none⟩ =
      .ok (f, emb') ∧ ¬ ∀ (c : Ctx) (here : Bool) (env : Env) (v : Value), f.Repr c here env v →
        (f.wire v).length = s.byteSize := by
  refine ⟨_, rfl, _, _, rfl, fun h => ?_⟩
  have := (C51_size_iff (p := .checked) (structs := []) (enums := []) (e := .little) (id := 0)
    (d := ⟨['s'], [⟨['a'], .unsigned 24, none, none⟩]⟩) rfl (.inl rfl)
    (proto := { Ex.proto with structsByName := [(['s'], _)] }) (emb := []) (before := []) (n := ['f'])
    (t := ['s']) rfl rfl).1 h _ rfl (by simp [Inlined])
  exact absurd this.2 (by simp [SameSize])

/-- C51 as stated is false: a structure of one 24-bit number takes 3 bytes, a message field of that type
4; and a structure of one 16-bit boolean takes 2 bytes, the field 1. -/
theorem C51_full_false :
    (∃ s f, Structure.fromModel .checked [] [] .little 0 ⟨['s'], [⟨['a'], .unsigned 24, none, none⟩]⟩ = .ok s ∧
      s.byteSize = 3 ∧
      MField.fromModel { Ex.proto with structsByName := [(['s'], s)] } [] [] ⟨['f'], .item ['s'], none⟩ =
        .ok (f, []) ∧
      f.Repr Ex.ctx false [] (.num 1) ∧ (f.wire (.num 1)).length = 4) ∧
    (∃ s f, Structure.fromModel .checked [] [] .little 0 ⟨['s'], [⟨['a'], .boolean 16, none, none⟩]⟩ = .ok s ∧
      s.byteSize = 2 ∧
      MField.fromModel { Ex.proto with structsByName := [(['s'], s)] } [] [] ⟨['f'], .item ['s'], none⟩ =
        .ok (f, []) ∧
      f.Repr Ex.ctx false [] (.num 1) ∧ (f.wire (.num 1)).length = 1) := by
  refine ⟨⟨.mk 0 ['s'] [.fixed ⟨['a'], .u32, ⟨0, 0, 3, 24⟩, .none, .little⟩] 3 24,
      .mk ['f'] (.fixed .u32) false ⟨false, false⟩ .little, by rfl, rfl, by rfl, ?_, by rfl⟩,
    ⟨.mk 0 ['s'] [.fixed ⟨['a'], .bool, ⟨0, 0, 2, 16⟩, .transmute, .little⟩] 2 16,
      .mk ['f'] (.fixed .bool) false ⟨false, false⟩ .little, by rfl, rfl, by rfl, ?_, by rfl⟩⟩ <;>
  · simp [MField.Repr, MFieldTy.Repr, FixedTy.byteSize]

example : ∃ s, Structure.fromModel .checked [] [] .little 0 ⟨['s'], [⟨['a'], .unsigned 32, none, none⟩]⟩ =
    .ok s ∧ s.asScalar = some .u32 ∧ s.byteSize = 4 := ⟨_, by rfl, rfl, rfl⟩

example : Inlined ⟨['a'], .unsigned 24, none, none⟩ ∧ ¬ SameSize (.unsigned 24) ∧
    ¬ Inlined ⟨['a'], .signed 24, none, none⟩ := by
  refine ⟨?_, ?_, ?_⟩ <;> simp [Inlined, SameSize]

end Proto.Props
