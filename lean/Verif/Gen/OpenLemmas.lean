import Verif.Gen.RoundTrip

/-!
# Decoding values whose encoding takes whatever follows
-/

namespace Proto

/-- Encoded by `w`, the value `v` is decoded by `f` whatever follows if it is not open; if it is, `f`
takes everything that follows, and answers `v` exactly if nothing does. -/
def Ends (f : Parser Value) (w : Out) (v : Value) (opened : Prop) : Prop :=
  (¬ opened → ∀ t, f (w.bytes ++ t) = .ok ⟨w.bytes.length, v⟩) ∧
  (opened → ∀ t, ∃ v', f (w.bytes ++ t) = .ok ⟨w.bytes.length + t.length, v'⟩ ∧ (v' = v ↔ t = []))

theorem Ends.of_all {f : Parser Value} {w : Out} {v : Value}
    (hf : ∀ t, f (w.bytes ++ t) = .ok ⟨w.bytes.length, v⟩) : Ends f w v False :=
  ⟨fun _ => hf, False.elim⟩

/-- Ends of a field type. -/
def MFieldTy.EndsLaw (c : Ctx) (t : MFieldTy) : Prop :=
  ∀ emb e env ext v, t.Repr c emb env v → t.tailGreedy c.emb emb = true →
    Ends (t.parse c emb e env) (t.write c e (env ++ ext) v) v (t.Open c.emb emb v)

/-- Ends of a message. -/
def Message.EndsLaw (c : Ctx) (m : Message) : Prop :=
  ∀ v, m.Repr c v → m.tailGreedy c.emb = true → Ends (m.parse c) (m.write c v) v (m.Open c.emb v)

theorem Union.cases_ends {c : Ctx} {cs : List UCase}
    (h : ∀ k ∈ cs, ∀ r, k.itemType = some r → MFieldTy.EndsLaw c (.ref r)) {i d : Nat} {x : Value}
    (hr : UCase.ReprCase c cs i d x) (i0 : Nat)
    (ht : ∀ k ∈ cs, ∀ r, k.itemType = some r → r.tailGreedy c.emb = true) :
    Ends (Union.parseCases c cs i0 d) (Union.writeCases c cs i d x) (.union (i0 + i) x)
      (UCase.OpenAt c.emb cs i x) := by
  induction cs generalizing i i0 with
  | nil => simp only [UCase.ReprCase] at hr
  | cons k cs ih =>
    obtain ⟨n, case, t⟩ := k
    by_cases hi : i = 0
    · subst hi
      cases t with
      | none =>
        simp only [UCase.ReprCase, if_true] at hr
        obtain ⟨hcase, hx⟩ := hr
        subst hcase hx
        simp only [Union.writeCases, Union.parseCases, if_true, UCase.OpenAt, ne_eq, not_true, false_and]
        exact Ends.of_all (fun t => rfl)
      | some r =>
        simp only [UCase.ReprCase, if_true] at hr
        obtain ⟨hcase, hx⟩ := hr
        subst hcase
        simp only [Union.writeCases, Union.parseCases, if_true, UCase.OpenAt, ne_eq, not_true, false_and,
          or_false, true_and]
        have h' := h (.mk n d (some r)) (by simp) r rfl false .little [] [] x
          (by simpa only [MFieldTy.Repr] using hx)
          (by simpa only [MFieldTy.tailGreedy] using ht (.mk n d (some r)) (by simp) r rfl)
        simp only [MFieldTy.parse, MFieldTy.write, MFieldTy.Open] at h'
        refine ⟨fun ho t => Parser.map_eq_ok.mpr ⟨x, h'.1 ho t, rfl⟩, fun ho t => ?_⟩
        obtain ⟨v', h1, h2⟩ := h'.2 ho t
        refine ⟨.union i0 v', Parser.map_eq_ok.mpr ⟨v', h1, rfl⟩, ?_⟩
        rw [← h2]; simp
    · have hr' : d ≠ case ∧ UCase.ReprCase c cs (i - 1) d x := by
        cases t <;> simpa only [UCase.ReprCase, if_neg hi] using hr
      clear hr
      obtain ⟨hne, hr⟩ := hr'
      have ih' := ih (fun k hk => h k (by simp [hk])) hr (i0 + 1) (fun k hk => ht k (by simp [hk]))
      rw [show i0 + 1 + (i - 1) = i0 + i by omega] at ih'
      have hw : Union.writeCases c (.mk n case t :: cs) i d x = Union.writeCases c cs (i - 1) d x := by
        cases t <;> simp only [Union.writeCases, if_neg hi]
      have hp : Union.parseCases c (.mk n case t :: cs) i0 d = Union.parseCases c cs (i0 + 1) d := by
        cases t <;> simp only [Union.parseCases, if_neg hne]
      have ho : UCase.OpenAt c.emb (.mk n case t :: cs) i x = UCase.OpenAt c.emb cs (i - 1) x := by
        cases t <;> simp [UCase.OpenAt, hi]
      rw [hw, hp, ho]
      exact ih'

theorem MField.ends {c : Ctx} {emb : Bool} {f : MField} (h : f.ty.EndsLaw c) {env ext : Env}
    {v : Value} (hr : f.Repr c emb env v) (ht : f.ty.tailGreedy c.emb emb = true) :
    Ends (f.parse c emb env) (f.write c (env ++ ext) v) v (f.Open c.emb emb v) := by
  obtain ⟨n, ty, o, sz, e⟩ := f
  simp only [MField.ty] at h ht
  simp only [MField.Repr] at hr
  simp only [MField.parse, MField.write, MField.Open]
  cases o with
  | false => exact h emb e env ext v hr ht
  | true =>
    simp only [if_true] at hr ⊢
    rcases hr with rfl | ⟨x, rfl, hr⟩
    · simp only
      refine Ends.of_all (fun t => ?_)
      exact Parser.map_eq_ok.mpr ⟨none, Optional.fromSlice_none t, rfl⟩
    · obtain ⟨h2, h3⟩ := h emb e env ext x hr ht
      have hb : (Optional.writeTo (ty.write c e (env ++ ext)) (some x)).bytes =
          1 :: (ty.write c e (env ++ ext) x).bytes := by
        unfold Optional.writeTo
        rw [Out.andThen_bytes rfl, Out.write_bytes]; rfl
      refine ⟨fun ho t => ?_, fun ho t => ?_⟩
      · refine Parser.map_eq_ok.mpr ⟨some x, ?_, rfl⟩
        simp only
        rw [hb, List.cons_append, Optional.fromSlice_some (by decide) (h2 ho t)]
        simp
      · obtain ⟨v', h4, h5⟩ := h3 ho t
        refine ⟨.some v', Parser.map_eq_ok.mpr ⟨some v', ?_, rfl⟩, by rw [← h5]; simp⟩
        simp only
        rw [hb, List.cons_append, Optional.fromSlice_some (by decide) h4]
        simp only [List.length_cons, Res.ok.injEq, Msg.mk.injEq, and_true]
        omega

theorem MField.list_ends {c : Ctx} {emb : Bool} {fs : List MField} (h : ∀ f ∈ fs, f.ty.EndsLaw c)
    {env vs : Env} (hr : MField.ListRepr c emb fs env vs)
    (ht : MField.listTailGreedy c.emb emb fs = true) :
    (¬ MField.ListOpen c.emb emb fs vs → ∀ t,
      runFields (MField.parse c emb) fs env ((MField.writeList c fs (env ++ vs) vs).bytes ++ t) =
        .ok ((MField.writeList c fs (env ++ vs) vs).bytes.length, env ++ vs)) ∧
    (MField.ListOpen c.emb emb fs vs → ∀ t, ∃ vs',
      runFields (MField.parse c emb) fs env ((MField.writeList c fs (env ++ vs) vs).bytes ++ t) =
        .ok ((MField.writeList c fs (env ++ vs) vs).bytes.length + t.length, env ++ vs') ∧
      (vs' = vs ↔ t = [])) := by
  induction fs generalizing env vs with
  | nil =>
    simp only [MField.ListRepr] at hr
    subst hr
    simp only [MField.writeList, MField.ListOpen]
    refine ⟨fun _ t => ?_, False.elim⟩
    simp [runFields, Out.done, Out.bytes]
  | cons f fs ih =>
    simp only [MField.ListRepr] at hr
    obtain ⟨v, rest, rfl, hv, hrest⟩ := hr
    obtain ⟨h1, h2, -⟩ := MField.rt ((roundTripInd c).ty f.ty) (ext := (f.name, v) :: rest) hv
    have he : env ++ [(f.name, v)] ++ rest = env ++ (f.name, v) :: rest := by simp
    have hb : (MField.writeList c (f :: fs) (env ++ (f.name, v) :: rest) ((f.name, v) :: rest)).bytes =
        (f.write c (env ++ (f.name, v) :: rest) v).bytes ++
          (MField.writeList c fs (env ++ (f.name, v) :: rest) rest).bytes := by
      simp only [MField.writeList]
      exact Out.andThen_bytes h1
    cases fs with
    | nil =>
      have ht' : f.ty.tailGreedy c.emb emb = true := by
        obtain ⟨n, ty, o, sz, e⟩ := f
        simpa only [MField.listTailGreedy, MField.ty] using ht
      simp only [MField.ListRepr] at hrest
      subst hrest
      have hn : (MField.writeList c [] (env ++ [(f.name, v)]) []).bytes = [] := by
        simp [MField.writeList, Out.done, Out.bytes]
      obtain ⟨h4, h5⟩ := MField.ends (h f (by simp)) (ext := [(f.name, v)]) hv ht'
      rw [hb, hn, List.append_nil]
      simp only [MField.ListOpen]
      refine ⟨fun ho t => ?_, fun ho t => ?_⟩
      · exact runFields_cons_ok.mpr ⟨_, v, 0, h4 ho t, by simp [runFields], by omega⟩
      · obtain ⟨v', h6, h7⟩ := h5 ho t
        refine ⟨[(f.name, v')], runFields_cons_ok.mpr ⟨_, v', 0, h6, by simp [runFields], by omega⟩,
          ?_⟩
        rw [← h7]; simp
    | cons f2 fs2 =>
      have ht' : f.ty.delimited c.emb emb = true ∧ MField.listTailGreedy c.emb emb (f2 :: fs2) = true := by
        obtain ⟨n, ty, o, sz, e⟩ := f
        simpa only [MField.listTailGreedy, Bool.and_eq_true, MField.ty] using ht
      obtain ⟨g1, g2⟩ := ih (fun g hg => h g (by simp [hg])) hrest ht'.2
      rw [he] at g1 g2
      rw [hb]
      have hopen : MField.ListOpen c.emb emb (f :: f2 :: fs2) ((f.name, v) :: rest) =
          MField.ListOpen c.emb emb (f2 :: fs2) rest := by
        simp only [MField.ListOpen]
      rw [hopen]
      refine ⟨fun ho t => ?_, fun ho t => ?_⟩
      · refine runFields_cons_ok.mpr ⟨_, v, _, ?_, ?_, by rw [List.length_append]⟩
        · rw [List.append_assoc]; exact h2 ht'.1 _
        · rw [List.append_assoc, List.drop_left]
          exact g1 ho t
      · obtain ⟨vs', g3, g4⟩ := g2 ho t
        refine ⟨(f.name, v) :: vs', runFields_cons_ok.mpr
          ⟨(f.write c (env ++ (f.name, v) :: rest) v).bytes.length, v,
            (MField.writeList c (f2 :: fs2) (env ++ (f.name, v) :: rest) rest).bytes.length + t.length,
            ?_, ?_, ?_⟩, ?_⟩
        · rw [List.append_assoc]; exact h2 ht'.1 _
        · rw [List.append_assoc, List.drop_left, g3]
          simp
        · rw [List.length_append]; omega
        · rw [← g4]; simp

theorem endsInd (c : Ctx) : SchemaInd (Message.EndsLaw c) (MFieldTy.EndsLaw c) where
  fixed ty emb e env ext v hr _ := by
    refine Ends.of_all (((roundTripInd c).ty _ emb e env ext v hr).2.1 ?_)
    simp [MFieldTy.delimited]
  struct s emb e env ext v hr _ := by
    simp only [MFieldTy.Open, Referenced.Open]
    refine Ends.of_all (((roundTripInd c).ty _ emb e env ext v hr).2.1 ?_)
    simp [MFieldTy.delimited, Referenced.delimited]
  message m h emb e env ext v hr ht := by
    simp only [MFieldTy.Repr, Referenced.Repr] at hr
    simp only [MFieldTy.tailGreedy, Referenced.tailGreedy] at ht
    simp only [MFieldTy.parse, MFieldTy.write, Referenced.parse, Referenced.write, MFieldTy.Open,
      Referenced.Open]
    exact h v hr ht
  nul emb e env ext v hr _ := by
    refine Ends.of_all (((roundTripInd c).ty _ emb e env ext v hr).2.1 ?_)
    simp [MFieldTy.delimited]
  varchar ty emb e env ext v hr _ := by
    refine Ends.of_all (((roundTripInd c).ty _ emb e env ext v hr).2.1 ?_)
    simp [MFieldTy.delimited]
  array ty s emb e env ext v hr _ := by
    refine Ends.of_all (((roundTripInd c).ty _ emb e env ext v hr).2.1 ?_)
    simp [MFieldTy.delimited]
  union n d cs sz on i h emb e env ext v hr ht := by
    simp only [MFieldTy.Repr, Union.Repr] at hr
    obtain ⟨i, x, dv, rfl, hd, hr⟩ := hr
    simp only [MFieldTy.tailGreedy, Union.tailGreedy] at ht
    simp only [MFieldTy.parse, MFieldTy.write, Union.parse, Union.write, MFieldTy.Open, Union.Open]
    have hcs := Union.cases_ends h hr 0 (UCase.listTailGreedy_mem ht)
    rw [Nat.zero_add] at hcs
    simp only [hd, Res.bind_ok]
    by_cases hany : cs.any (fun k => k.itemType.isSome) = true
    · rw [if_pos hany]
      simp only [Discriminant.read_append hd ext]
      exact hcs
    · rw [if_neg hany]
      have hnone : ∀ k ∈ cs, k.itemType = none := by
        intro k hk
        cases hk' : k.itemType with
        | none => rfl
        | some r => exact absurd (List.any_eq_true.mpr ⟨k, hk, by simp [hk']⟩) hany
      rw [Union.writeCases_empty hnone hr] at hcs
      exact hcs
  list ty m h emb e env ext v hr ht := by
    cases emb with
    | true =>
      simp only [MFieldTy.tailGreedy, Bool.not_true, Bool.false_or] at ht
      have := ((roundTripInd c).ty _ true e env ext v hr).2.1 (by simp [MFieldTy.delimited, ht])
      simp only [MFieldTy.Open, Bool.true_eq_false]
      exact Ends.of_all this
    | false =>
      simp only [MFieldTy.Repr] at hr
      obtain ⟨l, rfl, h1, -⟩ := hr
      simp only [MFieldTy.parse, MFieldTy.write, MFieldTy.Open, Bool.false_eq_true, if_false]
      refine ⟨fun ho => absurd trivial ho, fun _ t => ?_⟩
      have hinj : Value.seq ⟨l.data ++ t, l.len⟩ = Value.seq l ↔ t = [] := by
        rw [Value.seq.injEq]
        obtain ⟨d, n⟩ := l
        simp
      refine ⟨.seq ⟨l.data ++ t, l.len⟩, Parser.map_eq_ok.mpr ⟨_, ?_, rfl⟩, hinj⟩
      have hw : (wireInt e ty.byteSize l.len).length = ty.byteSize := by simp
      rw [Seq.writeTo_bytes]
      refine Lst.unsized_eq_ok.mpr ⟨by simp, by simp; omega, ?_⟩
      rw [List.append_assoc, List.take_append_of_le_length (by omega), List.take_of_length_le (by omega),
        intOfWire_wireInt, Nat.mod_eq_of_lt h1, List.drop_append_of_le_length (by omega),
        List.drop_of_length_le (by omega), List.nil_append]
  payload emb e env ext v hr _ := by
    simp only [MFieldTy.Repr] at hr
    obtain ⟨b, rfl⟩ := hr
    simp only [MFieldTy.parse, MFieldTy.write, MFieldTy.Open]
    refine ⟨fun ho => absurd trivial ho, fun _ t => ?_⟩
    refine ⟨.buf (b ++ t), Parser.map_eq_ok.mpr ⟨b ++ t, ?_, rfl⟩, by simp⟩
    simp [Buffer.writeTo, Buffer.fromSlice, Out.write_bytes]
  msg id n fs sz h v hr ht := by
    simp only [Message.Repr] at hr
    obtain ⟨vs, rfl, hr⟩ := hr
    simp only [Message.tailGreedy] at ht
    obtain ⟨h2, h3⟩ := MField.list_ends h hr ht
    rw [List.nil_append] at h2 h3
    simp only [Message.write, Message.Open]
    refine ⟨fun ho t => Message.parse_eq_ok.mpr ⟨vs, rfl, h2 ho t⟩, fun ho t => ?_⟩
    obtain ⟨vs', h4, h5⟩ := h3 ho t
    exact ⟨.msg vs', Message.parse_eq_ok.mpr ⟨vs', rfl, h4⟩, by rw [← h5]; simp⟩

theorem Message.ends (c : Ctx) (m : Message) : m.EndsLaw c := (endsInd c).all m

/-- Iterating over encoded values one after the other yields them exactly when no open one is followed
by any byte. -/
theorem Lst.steps_iff {f : Parser Value} {w : Value → Out} {opened : Value → Prop} {items : List Value}
    (h : ∀ v ∈ items, Ends f (w v) v (opened v)) (k : Nat) :
    Lst.steps f (items.length + k) ⟨items.flatMap (fun v => (w v).bytes), items.length⟩ =
        items.map (fun v => some (.ok v)) ++ List.replicate k none ↔
      items.Pairwise fun v v' => opened v → (w v').bytes = [] := by
  induction items with
  | nil =>
    simp only [List.length_nil, Nat.zero_add, List.flatMap_nil, List.map_nil, List.nil_append,
      List.Pairwise.nil, iff_true]
    induction k with
    | zero => rfl
    | succ k ih =>
      rw [Lst.steps]
      have hn : Lst.next f ⟨[], 0⟩ = (none, ⟨[], 0⟩) := by simp [Lst.next]
      rw [hn, ih]
      rfl
  | cons v vs ih =>
    have ih := ih fun x hx => h x (by simp [hx])
    obtain ⟨h1, h2⟩ := h v (by simp)
    rw [List.pairwise_cons]
    rw [show (v :: vs).length + k = (vs.length + k) + 1 by simp; omega, Lst.steps]
    simp only [List.flatMap_cons, List.length_cons, List.map_cons, List.cons_append, List.cons.injEq]
    generalize hD : vs.flatMap (fun v => (w v).bytes) = D at ih
    have hD0 : D = [] ↔ ∀ x ∈ vs, (w x).bytes = [] := by
      rw [← hD]; simp
    by_cases ho : opened v
    · obtain ⟨v', h3, h4⟩ := h2 ho D
      have hn : Lst.next f ⟨(w v).bytes ++ D, vs.length + 1⟩ = (some (.ok v'), ⟨[], vs.length⟩) := by
        unfold Lst.next
        simp only [Nat.add_one_ne_zero, if_false, h3]
        rw [dropFrom_ok (by simp)]
        simp
      rw [hn]
      simp only [Option.some.injEq, Res.ok.injEq]
      constructor
      · rintro ⟨e, hrest⟩
        have hd := h4.1 e
        rw [← ih, hd]
        exact ⟨fun x hx _ => hD0.1 hd x hx, hrest⟩
      · rintro ⟨hx, hp⟩
        have hd := hD0.2 fun x hx' => hx x hx' ho
        exact ⟨h4.2 hd, by rw [← hd]; exact ih.2 hp⟩
    · have hn : Lst.next f ⟨(w v).bytes ++ D, vs.length + 1⟩ = (some (.ok v), ⟨D, vs.length⟩) := by
        unfold Lst.next
        simp only [Nat.add_one_ne_zero, if_false, h1 ho D]
        rw [dropFrom_ok (by simp)]
        simp
      rw [hn]
      simp only [true_and]
      rw [ih]
      exact ⟨fun hp => ⟨fun x _ e => absurd e ho, hp⟩, fun hp => hp.2⟩

end Proto
