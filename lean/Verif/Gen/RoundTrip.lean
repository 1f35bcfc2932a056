import Verif.Gen.MessageLemmas

/-!
# Decoding what was encoded
-/

namespace Proto

theorem Discriminant.read_append {p : Profile} {d : Discriminant} {env : Env} {on : Name} {n : Nat}
    (h : d.read p env on = .ok n) (ext : Env) : d.read p (env ++ ext) on = .ok n := by
  unfold Discriminant.read at h ⊢
  rw [List.lookup_append]
  cases hl : env.lookup on with
  | none => rw [hl] at h; cases h
  | some v => rw [hl] at h; exact h

theorem Parser.blocks_of {f : Parser α} {w : α → Bytes} (items : List α)
    (h : ∀ v ∈ items, ∀ t, f (w v ++ t) = .ok ⟨(w v).length, v⟩) :
    f.Blocks items (items.flatMap w) := by
  induction items with
  | nil => exact .nil
  | cons v vs ih => exact .cons (h v (by simp)) (ih (fun x hx => h x (by simp [hx])))

/-- `w` encodes `v` successfully and `f` decodes it, whatever follows if `delim`, alone if `tail`. -/
def RT (f : Parser Value) (w : Out) (v : Value) (delim tail : Prop) : Prop :=
  w.res = .ok () ∧ (delim → ∀ t, f (w.bytes ++ t) = .ok ⟨w.bytes.length, v⟩) ∧
    (tail → f w.bytes = .ok ⟨w.bytes.length, v⟩)

theorem RT.of_all {f : Parser Value} {w : Out} {v : Value} {d t : Prop} (h : w.res = .ok ())
    (hf : ∀ t, f (w.bytes ++ t) = .ok ⟨w.bytes.length, v⟩) : RT f w v d t :=
  ⟨h, fun _ => hf, fun _ => by simpa using hf []⟩

/-- Round trip of a field type. -/
def MFieldTy.RoundTrips (c : Ctx) (t : MFieldTy) : Prop :=
  ∀ emb e env ext v, t.Repr c emb env v →
    RT (t.parse c emb e env) (t.write c e (env ++ ext) v) v (t.delimited c.emb emb = true)
      (t.tailGreedy c.emb emb = true)

/-- Round trip of a message. -/
def Message.RoundTrips (c : Ctx) (m : Message) : Prop :=
  ∀ v, m.Repr c v → RT (m.parse c) (m.write c v) v (m.delimited c.emb = true)
    (m.tailGreedy c.emb = true)

theorem UCase.listTailGreedy_mem {emb : Nat → Bool} {cs : List UCase}
    (h : UCase.listTailGreedy emb cs = true) :
    ∀ k ∈ cs, ∀ r, k.itemType = some r → r.tailGreedy emb = true := by
  induction cs with
  | nil => simp
  | cons k cs ih =>
    obtain ⟨n, v, t⟩ := k
    cases t with
    | none =>
      simp only [UCase.listTailGreedy] at h
      intro k hk r hr
      rcases List.mem_cons.mp hk with rfl | hk
      · simp [UCase.itemType] at hr
      · exact ih h k hk r hr
    | some r0 =>
      simp only [UCase.listTailGreedy, Bool.and_eq_true] at h
      intro k hk r hr
      rcases List.mem_cons.mp hk with rfl | hk
      · simp only [UCase.itemType, Option.some.injEq] at hr
        exact hr ▸ h.1
      · exact ih h.2 k hk r hr

theorem Union.cases_rt {c : Ctx} {cs : List UCase}
    (h : ∀ k ∈ cs, ∀ r, k.itemType = some r → MFieldTy.RoundTrips c (.ref r)) {i d : Nat} {x : Value}
    (hr : UCase.ReprCase c cs i d x) (i0 : Nat) :
    RT (Union.parseCases c cs i0 d) (Union.writeCases c cs i d x) (.union (i0 + i) x)
      (∀ k ∈ cs, ∀ r, k.itemType = some r → r.delimited c.emb = true)
      (∀ k ∈ cs, ∀ r, k.itemType = some r → r.tailGreedy c.emb = true) := by
  induction cs generalizing i i0 with
  | nil => simp only [UCase.ReprCase] at hr
  | cons k cs ih =>
    obtain ⟨n, case, t⟩ := k
    by_cases hi : i = 0
    · subst hi
      cases t with
      | none =>
        simp only [UCase.ReprCase, if_true] at hr
        obtain ⟨hcase, hx⟩ := hr
        subst hcase hx
        simp only [Union.writeCases, Union.parseCases, if_true]
        exact RT.of_all rfl (fun t => rfl)
      | some r =>
        simp only [UCase.ReprCase, if_true] at hr
        obtain ⟨hcase, hx⟩ := hr
        subst hcase
        simp only [Union.writeCases, Union.parseCases, if_true]
        have h' := h (.mk n d (some r)) (by simp) r rfl false .little [] [] x
          (by simpa only [MFieldTy.Repr] using hx)
        simp only [MFieldTy.parse, MFieldTy.write, MFieldTy.delimited, MFieldTy.tailGreedy] at h'
        refine ⟨h'.1, fun hd t => ?_, fun ht => ?_⟩
        · exact Parser.map_eq_ok.mpr ⟨x, h'.2.1 (hd (.mk n d (some r)) (by simp) r rfl) t, rfl⟩
        · exact Parser.map_eq_ok.mpr ⟨x, h'.2.2 (ht (.mk n d (some r)) (by simp) r rfl), rfl⟩
    · have hr' : d ≠ case ∧ UCase.ReprCase c cs (i - 1) d x := by
        cases t <;> simpa only [UCase.ReprCase, if_neg hi] using hr
      clear hr
      obtain ⟨hne, hr⟩ := hr'
      have ih' := ih (fun k hk => h k (by simp [hk])) hr (i0 + 1)
      rw [show i0 + 1 + (i - 1) = i0 + i by omega] at ih'
      have hw : Union.writeCases c (.mk n case t :: cs) i d x = Union.writeCases c cs (i - 1) d x := by
        cases t <;> simp only [Union.writeCases, if_neg hi]
      have hp : Union.parseCases c (.mk n case t :: cs) i0 d = Union.parseCases c cs (i0 + 1) d := by
        cases t <;> simp only [Union.parseCases, if_neg hne]
      rw [hw, hp]
      exact ⟨ih'.1, fun hd => ih'.2.1 (fun k hk => hd k (by simp [hk])),
        fun ht => ih'.2.2 (fun k hk => ht k (by simp [hk]))⟩

theorem Union.writeCases_empty {c : Ctx} {cs : List UCase}
    (h : ∀ k ∈ cs, k.itemType = none) {i d : Nat} {x : Value} (hr : UCase.ReprCase c cs i d x) :
    Union.writeCases c cs i d x = .done := by
  induction cs generalizing i with
  | nil => simp only [UCase.ReprCase] at hr
  | cons k cs ih =>
    obtain ⟨n, case, t⟩ := k
    have : t = none := h (.mk n case t) (by simp)
    subst this
    simp only [UCase.ReprCase] at hr
    simp only [Union.writeCases]
    split
    · rfl
    · next hi =>
      rw [if_neg hi] at hr
      exact ih (fun k hk => h k (by simp [hk])) hr.2

theorem MField.rt {c : Ctx} {emb : Bool} {f : MField} (h : f.ty.RoundTrips c) {env ext : Env}
    {v : Value} (hr : f.Repr c emb env v) :
    RT (f.parse c emb env) (f.write c (env ++ ext) v) v (f.ty.delimited c.emb emb = true)
      (f.ty.tailGreedy c.emb emb = true) := by
  obtain ⟨n, ty, o, sz, e⟩ := f
  simp only [MField.ty] at h ⊢
  simp only [MField.Repr] at hr
  simp only [MField.parse, MField.write]
  cases o with
  | false => exact h emb e env ext v hr
  | true =>
    simp only [if_true] at hr ⊢
    rcases hr with rfl | ⟨x, rfl, hr⟩
    · simp only
      refine RT.of_all rfl (fun t => ?_)
      exact Parser.map_eq_ok.mpr ⟨none, Optional.fromSlice_none t, rfl⟩
    · obtain ⟨h1, h2, h3⟩ := h emb e env ext x hr
      have hb : (Optional.writeTo (ty.write c e (env ++ ext)) (some x)).bytes =
          1 :: (ty.write c e (env ++ ext) x).bytes := by
        unfold Optional.writeTo
        rw [Out.andThen_bytes rfl, Out.write_bytes]; rfl
      refine ⟨h1, fun hd t => ?_, fun ht => ?_⟩
      · refine Parser.map_eq_ok.mpr ⟨some x, ?_, rfl⟩
        simp only
        rw [hb, List.cons_append, Optional.fromSlice_some (by decide) (h2 hd t)]
        simp
      · refine Parser.map_eq_ok.mpr ⟨some x, ?_, rfl⟩
        simp only
        rw [hb, Optional.fromSlice_some (by decide) (h3 ht)]
        simp

theorem MField.list_rt {c : Ctx} {emb : Bool} {fs : List MField} (h : ∀ f ∈ fs, f.ty.RoundTrips c)
    {env vs : Env} (hr : MField.ListRepr c emb fs env vs) :
    (MField.writeList c fs (env ++ vs) vs).res = .ok () ∧
    (MField.listDelimited c.emb emb fs = true → ∀ t,
      runFields (MField.parse c emb) fs env ((MField.writeList c fs (env ++ vs) vs).bytes ++ t) =
        .ok ((MField.writeList c fs (env ++ vs) vs).bytes.length, env ++ vs)) ∧
    (MField.listTailGreedy c.emb emb fs = true →
      runFields (MField.parse c emb) fs env (MField.writeList c fs (env ++ vs) vs).bytes =
        .ok ((MField.writeList c fs (env ++ vs) vs).bytes.length, env ++ vs)) := by
  induction fs generalizing env vs with
  | nil =>
    simp only [MField.ListRepr] at hr
    subst hr
    simp only [MField.writeList]
    refine ⟨rfl, fun _ t => ?_, fun _ => ?_⟩ <;> simp [runFields, Out.done, Out.bytes]
  | cons f fs ih =>
    simp only [MField.ListRepr] at hr
    obtain ⟨v, rest, rfl, hv, hrest⟩ := hr
    obtain ⟨h1, h2, h3⟩ := MField.rt (h f (by simp)) (ext := (f.name, v) :: rest) hv
    obtain ⟨g1, g2, g3⟩ := ih (fun g hg => h g (by simp [hg])) hrest
    have he : env ++ [(f.name, v)] ++ rest = env ++ (f.name, v) :: rest := by simp
    rw [he] at g1 g2 g3
    have hb : (MField.writeList c (f :: fs) (env ++ (f.name, v) :: rest) ((f.name, v) :: rest)).bytes =
        (f.write c (env ++ (f.name, v) :: rest) v).bytes ++
          (MField.writeList c fs (env ++ (f.name, v) :: rest) rest).bytes := by
      simp only [MField.writeList]
      exact Out.andThen_bytes h1
    have hres : (MField.writeList c (f :: fs) (env ++ (f.name, v) :: rest) ((f.name, v) :: rest)).res =
        .ok () := by
      simp only [MField.writeList]
      exact Out.andThen_res_eq_ok.mpr ⟨h1, g1⟩
    refine ⟨hres, fun hd t => ?_, fun ht => ?_⟩
    · obtain ⟨n, ty, o, sz, e⟩ := f
      simp only [MField.listDelimited, Bool.and_eq_true] at hd
      rw [hb]
      refine runFields_cons_ok.mpr ⟨_, v, _, ?_, ?_, by rw [List.length_append]⟩
      · rw [List.append_assoc]; exact h2 hd.1 _
      · rw [List.append_assoc, List.drop_left]
        exact g2 hd.2 t
    · obtain ⟨n, ty, o, sz, e⟩ := f
      rw [hb]
      cases fs with
      | nil =>
        simp only [MField.listTailGreedy] at ht
        simp only [MField.ListRepr] at hrest
        subst hrest
        have : (MField.writeList c [] (env ++ [(MField.name (.mk n ty o sz e), v)]) []).bytes = [] := by
          simp [MField.writeList, Out.done, Out.bytes]
        rw [this, List.append_nil]
        refine runFields_cons_ok.mpr ⟨_, v, 0, h3 ht, ?_, by omega⟩
        simp [runFields]
      | cons f2 fs2 =>
        simp only [MField.listTailGreedy, Bool.and_eq_true] at ht
        refine runFields_cons_ok.mpr ⟨_, v, _, h2 ht.1 _, ?_, by rw [List.length_append]⟩
        rw [List.drop_left]
        exact g3 ht.2

theorem Lst.fromSlice_blocks {f : Parser α} (hc : f.Cut) {vs : List α} {l : Seq Bytes}
    (hb : f.Blocks vs l.data) (hl : vs.length = l.len) {e : Endian} {sz : Nat} (hn : l.len < 256 ^ sz)
    (t : Bytes) : Lst.fromSlice e sz f ((l.writeTo e sz).bytes ++ t) =
      .ok ⟨(l.writeTo e sz).bytes.length, l⟩ := by
  have hw : (wireInt e sz l.len).length = sz := by simp
  rw [Seq.writeTo_bytes]
  refine (Lst.fromSlice_eq_ok hc).mpr ⟨l.data.length, by simp, ?_, ?_, ?_, ?_⟩
  · rw [List.append_assoc, List.take_append_of_le_length (by omega), List.take_of_length_le (by omega),
      intOfWire_wireInt, Nat.mod_eq_of_lt hn]
  · rw [List.append_assoc, List.drop_append_of_le_length (by omega), List.drop_of_length_le (by omega),
      List.nil_append, ← hl]
    exact Lst.scanR_blocks hb t
  · rw [List.length_append]; omega
  · rw [List.append_assoc, List.drop_append_of_le_length (by omega), List.drop_of_length_le (by omega),
      List.nil_append]
    exact List.take_left.symm

theorem roundTripInd (c : Ctx) : SchemaInd (Message.RoundTrips c) (MFieldTy.RoundTrips c) where
  fixed ty emb e env ext v hr := by
    simp only [MFieldTy.Repr] at hr
    obtain ⟨n, rfl, hn⟩ := hr
    simp only [MFieldTy.parse, MFieldTy.write]
    refine RT.of_all rfl (fun t => Parser.map_eq_ok.mpr ⟨n, ?_, rfl⟩)
    rw [Scalar.writeTo_bytes, Scalar.fromSlice_wire e hn]; simp
  struct s emb e env ext v hr := by
    simp only [MFieldTy.Repr, Referenced.Repr] at hr
    obtain ⟨b, rfl, hb⟩ := hr
    simp only [MFieldTy.parse, MFieldTy.write, Referenced.parse, Referenced.write]
    rw [Structure.write_eq hb]
    refine RT.of_all rfl (fun t => ?_)
    rw [Out.write_bytes]
    refine Structure.parse_eq_ok.mpr ⟨by simp; omega, hb, ?_⟩
    rw [← hb]; simp
  message m h emb e env ext v hr := by
    simp only [MFieldTy.Repr, Referenced.Repr] at hr
    simp only [MFieldTy.parse, MFieldTy.write, Referenced.parse, Referenced.write,
      MFieldTy.delimited, Referenced.delimited, MFieldTy.tailGreedy, Referenced.tailGreedy]
    exact h v hr
  nul emb e env ext v hr := by
    simp only [MFieldTy.Repr] at hr
    obtain ⟨s, rfl, hs, h0⟩ := hr
    simp only [MFieldTy.parse, MFieldTy.write]
    refine RT.of_all rfl (fun t => Parser.map_eq_ok.mpr ⟨s, ?_, rfl⟩)
    rw [NullTerminated.writeTo_bytes]
    exact NullTerminated.fromSlice_eq_ok.mpr
      ⟨t, by simp, h0, (validUtf8_iff s).mpr hs, by simp⟩
  varchar ty emb e env ext v hr := by
    simp only [MFieldTy.Repr] at hr
    obtain ⟨s, rfl, hs, h1, h2⟩ := hr
    simp only [MFieldTy.parse, MFieldTy.write]
    refine RT.of_all rfl (fun t => Parser.map_eq_ok.mpr ⟨s, ?_, rfl⟩)
    rw [Varchar.writeTo_bytes]
    exact (Varchar.fromSlice_eq_ok (by cases ty <;> decide)).mpr
      ⟨(validUtf8_iff s).mpr hs, by simp, h1, h2, t, rfl⟩
  array ty s emb e env ext v hr := by
    simp only [MFieldTy.Repr] at hr
    obtain ⟨l, rfl, h1, h2, h3⟩ := hr
    simp only [MFieldTy.parse, MFieldTy.write]
    refine RT.of_all rfl (fun t => Parser.map_eq_ok.mpr ⟨l, ?_, rfl⟩)
    have hw : (wireInt e ty.byteSize l.len).length = ty.byteSize := by simp
    rw [Seq.writeTo_bytes]
    refine Arr.fromSlice_eq_ok.mpr ⟨l.len * s.byteSize, by simp, ?_, ?_, ?_, by simp, ?_, ?_⟩
    · rw [List.append_assoc, List.take_append_of_le_length (by omega),
        List.take_of_length_le (by omega), intOfWire_wireInt, Nat.mod_eq_of_lt h1]
    · exact mulU_ok c.p (by unfold usizeBits; omega)
    · rw [List.length_append, hw, h2]; exact addU_ok c.p (by unfold usizeBits; omega)
    · rw [List.length_append]; omega
    · rw [List.append_assoc, List.drop_append_of_le_length (by omega),
        List.drop_of_length_le (by omega), List.nil_append, List.length_append, hw,
        Nat.add_sub_cancel_left]
      exact List.take_left.symm
  union n d cs sz on i h emb e env ext v hr := by
    simp only [MFieldTy.Repr, Union.Repr] at hr
    obtain ⟨i, x, dv, rfl, hd, hr⟩ := hr
    simp only [MFieldTy.parse, MFieldTy.write, Union.parse, Union.write, MFieldTy.delimited,
      Union.delimited, MFieldTy.tailGreedy, Union.tailGreedy]
    have hcs := Union.cases_rt h hr 0
    rw [Nat.zero_add] at hcs
    simp only [hd, Res.bind_ok]
    by_cases hany : cs.any (fun k => k.itemType.isSome) = true
    · rw [if_pos hany]
      simp only [Discriminant.read_append hd ext]
      exact ⟨hcs.1, fun hdel => hcs.2.1 (UCase.listDelimited_mem hdel),
        fun htg => hcs.2.2 (UCase.listTailGreedy_mem htg)⟩
    · rw [if_neg hany]
      have hnone : ∀ k ∈ cs, k.itemType = none := by
        intro k hk
        cases hk' : k.itemType with
        | none => rfl
        | some r => exact absurd (List.any_eq_true.mpr ⟨k, hk, by simp [hk']⟩) hany
      rw [Union.writeCases_empty hnone hr] at hcs
      exact ⟨hcs.1, fun hdel => hcs.2.1 (UCase.listDelimited_mem hdel),
        fun htg => hcs.2.2 (UCase.listTailGreedy_mem htg)⟩
  list ty m h emb e env ext v hr := by
    simp only [MFieldTy.Repr] at hr
    obtain ⟨l, rfl, h1, h2⟩ := hr
    simp only [MFieldTy.parse, MFieldTy.write, MFieldTy.delimited, MFieldTy.tailGreedy]
    cases emb with
    | false =>
      refine ⟨rfl, fun hd => by simp at hd, fun _ => ?_⟩
      simp only [Bool.false_eq_true, if_false]
      refine Parser.map_eq_ok.mpr ⟨l, ?_, rfl⟩
      have hw : (wireInt e ty.byteSize l.len).length = ty.byteSize := by simp
      rw [Seq.writeTo_bytes]
      refine Lst.unsized_eq_ok.mpr ⟨by simp, rfl, ?_⟩
      rw [List.take_append_of_le_length (by omega), List.take_of_length_le (by omega),
        intOfWire_wireInt, Nat.mod_eq_of_lt h1, List.drop_append_of_le_length (by omega),
        List.drop_of_length_le (by omega), List.nil_append]
    | true =>
      obtain ⟨items, hlen, hrep, hdata⟩ := h2 rfl
      simp only [Bool.true_and, Bool.not_true, Bool.false_or, if_true]
      have key : m.delimited c.emb = true → ∀ t, Lst.fromSlice e ty.byteSize (m.parse c)
          ((l.writeTo e ty.byteSize).bytes ++ t) = .ok ⟨(l.writeTo e ty.byteSize).bytes.length, l⟩ := by
        intro hd
        refine Lst.fromSlice_blocks (Message.cut c m) (vs := items) ?_ hlen h1
        rw [hdata]
        exact Parser.blocks_of items (fun x hx t => (h x (hrep x hx)).2.1 hd t)
      refine ⟨rfl, fun hd t => Parser.map_eq_ok.mpr ⟨l, key hd t, rfl⟩, fun hd => ?_⟩
      have := key hd []
      rw [List.append_nil] at this
      exact Parser.map_eq_ok.mpr ⟨l, this, rfl⟩
  payload emb e env ext v hr := by
    simp only [MFieldTy.Repr] at hr
    obtain ⟨b, rfl⟩ := hr
    simp only [MFieldTy.parse, MFieldTy.write, MFieldTy.delimited]
    refine ⟨rfl, fun hd => by simp at hd, fun _ => Parser.map_eq_ok.mpr ⟨b, ?_, rfl⟩⟩
    simp [Buffer.writeTo, Buffer.fromSlice, Out.write_bytes]
  msg id n fs sz h v hr := by
    simp only [Message.Repr] at hr
    obtain ⟨vs, rfl, hr⟩ := hr
    obtain ⟨h1, h2, h3⟩ := MField.list_rt h hr
    rw [List.nil_append] at h1 h2 h3
    simp only [Message.write, Message.delimited, Message.tailGreedy]
    exact ⟨h1, fun hd t => Message.parse_eq_ok.mpr ⟨vs, rfl, h2 hd t⟩,
      fun ht => Message.parse_eq_ok.mpr ⟨vs, rfl, h3 ht⟩⟩

theorem Message.roundTrips (c : Ctx) (m : Message) : m.RoundTrips c := (roundTripInd c).all m

end Proto
