import Verif.Gen.Totality
import Verif.Props.Message
import Verif.Props.Seq
import Verif.Spec.Compile
import Verif.Spec.Least

/-!
# C102: how long decoded messages and lists are at least
-/

namespace Proto

open Spec

theorem FixedTy.byteSize_pos (ty : FixedTy) : 1 ≤ ty.byteSize := by cases ty <;> decide

/-- Whatever is decoded takes `n` bytes or more. -/
def Parser.AtLeast (f : Parser α) (n : Nat) : Prop := ∀ b k v, f b = .ok ⟨k, v⟩ → n ≤ k

theorem Parser.AtLeast.map {f : Parser α} {n : Nat} (h : f.AtLeast n) {g : α → β} : (f.map g).AtLeast n := by
  intro b k w hw
  obtain ⟨v, h1, _⟩ := Parser.map_eq_ok.1 hw
  exact h _ _ _ h1

theorem Parser.AtLeast.mono {f : Parser α} {n m : Nat} (h : f.AtLeast n) (hm : m ≤ n) : f.AtLeast m :=
  fun b k v hk => Nat.le_trans hm (h b k v hk)

theorem UCase.listLeast_le (cs : List UCase) (most : Nat) : UCase.listLeast most cs ≤ most := by
  induction cs generalizing most with
  | nil => exact Nat.le_refl _
  | cons k cs ih =>
    obtain ⟨_, _, _ | r⟩ := k
    · simp [UCase.listLeast]
    · simp only [UCase.listLeast]
      have := ih (min most r.least)
      omega

theorem UCase.listLeast_mem {cs : List UCase} (most : Nat) : ∀ k ∈ cs, ∀ r, k.itemType = some r →
    UCase.listLeast most cs ≤ r.least := by
  induction cs generalizing most with
  | nil => simp
  | cons k cs ih =>
    intro k' hk r hr
    obtain ⟨_, _, _ | r0⟩ := k
    · simp [UCase.listLeast]
    · simp only [UCase.listLeast]
      rcases List.mem_cons.1 hk with rfl | hk
      · obtain rfl := Option.some.inj hr
        have := UCase.listLeast_le cs (min most r0.least)
        omega
      · exact ih _ k' hk r hr

theorem Union.least_mem {n : Name} {d : Discriminant} {cs : List UCase} {sz : SizeInfo} : ∀ k ∈ cs, ∀ r,
    k.itemType = some r → Union.least (.mk n d cs sz) ≤ r.least := by
  intro k hk r hr
  cases cs with
  | nil => simp at hk
  | cons k0 cs =>
    obtain ⟨_, _, _ | r0⟩ := k0
    · simp [Union.least]
    · simp only [Union.least]
      rcases List.mem_cons.1 hk with rfl | hk
      · obtain rfl := Option.some.inj hr
        exact UCase.listLeast_le _ _
      · exact UCase.listLeast_mem _ k hk r hr

theorem Union.least_none {n : Name} {d : Discriminant} {cs : List UCase} {sz : SizeInfo}
    (h : ∃ k ∈ cs, k.itemType = none) : Union.least (.mk n d cs sz) = 0 := by
  have key : ∀ (cs : List UCase) (most : Nat), (∃ k ∈ cs, k.itemType = none) → UCase.listLeast most cs = 0 := by
    intro cs
    induction cs with
    | nil => simp
    | cons k cs ih =>
      rintro most ⟨k', hk, hn⟩
      obtain ⟨_, _, _ | r⟩ := k
      · rfl
      · rcases List.mem_cons.1 hk with rfl | hk
        · cases hn
        · exact ih _ ⟨k', hk, hn⟩
  cases cs with
  | nil => rfl
  | cons k0 cs =>
    obtain ⟨_, _, _ | r0⟩ := k0
    · rfl
    · obtain ⟨k, hk, hn⟩ := h
      rcases List.mem_cons.1 hk with rfl | hk
      · cases hn
      · exact key _ _ ⟨k, hk, hn⟩

theorem Union.parseCases_least {c : Ctx} {x : Nat} {cs : List UCase}
    (h0 : (∃ k ∈ cs, k.itemType = none) → x = 0)
    (hcs : ∀ k ∈ cs, ∀ r, k.itemType = some r → (r.parse c).AtLeast x) (i d : Nat) :
    (Union.parseCases c cs i d).AtLeast x := by
  induction cs generalizing i with
  | nil =>
    intro b k v h
    simp only [Union.parseCases] at h
    cases h
  | cons k0 cs ih =>
    have ih := ih (fun ⟨k, hk, hn⟩ => h0 ⟨k, List.mem_cons_of_mem _ hk, hn⟩)
      (fun k hk => hcs k (List.mem_cons_of_mem _ hk)) (i + 1)
    obtain ⟨_, case, _ | r0⟩ := k0
    · have : x = 0 := h0 ⟨_, List.mem_cons_self, rfl⟩
      intro b k v _
      omega
    · intro b k v h
      simp only [Union.parseCases] at h
      split at h
      · exact (hcs _ List.mem_cons_self r0 rfl).map b k v h
      · exact ih b k v h

theorem runFields_least {step : MField → Env → Parser Value} {fs : List MField}
    (h : ∀ f ∈ fs, ∀ env, (step f env).AtLeast (if f.optional then 1 else f.ty.least)) {env env' : Env} {b : Bytes}
    {n : Nat} (hr : runFields step fs env b = .ok (n, env')) : MField.listLeast fs ≤ n := by
  induction fs generalizing env b n with
  | nil => simp [MField.listLeast]
  | cons f fs ih =>
    simp only [runFields] at hr
    split at hr
    · next msg hm =>
      split at hr
      · next r hr' =>
        obtain ⟨rfl, rfl⟩ := Prod.mk.inj (Res.ok.inj hr)
        have h1 := h f List.mem_cons_self env b msg.size msg.data hm
        have h2 := ih (fun f hf => h f (List.mem_cons_of_mem _ hf)) hr'
        obtain ⟨_, ty, o, _, _⟩ := f
        simp only [MField.listLeast]
        exact Nat.add_le_add h1 h2
      · cases hr
      · cases hr
    · cases hr
    · cases hr

theorem Optional.atLeast (f : Parser α) : (Optional.fromSlice f).AtLeast 1 := by
  intro b k v h
  rcases Optional.fromSlice_eq_ok.1 h with ⟨_, _, rfl, _⟩ | ⟨_, _, m, _, _, _, _, rfl, _⟩ <;> omega

theorem leastInd (c : Ctx) : SchemaInd (fun m => (m.parse c).AtLeast m.least)
    (fun t => ∀ emb e env, (t.parse c emb e env).AtLeast t.least) where
  fixed ty emb e env := by
    simp only [MFieldTy.parse, MFieldTy.least]
    refine Parser.AtLeast.map fun b k v h => ?_
    obtain ⟨_, h⟩ := Scalar.fromSlice_eq_ok.1 h
    cases h
    exact Nat.le_refl _
  struct s emb e env := by
    simp only [MFieldTy.parse, Referenced.parse, MFieldTy.least, Referenced.least]
    intro b k v h
    simp only [Structure.parse] at h
    split at h
    · cases h
    · obtain ⟨x, _, h⟩ := Res.bind_eq_ok.1 h
      cases h
      exact Nat.le_refl _
  message m h emb e env := by simpa only [MFieldTy.parse, Referenced.parse, MFieldTy.least, Referenced.least] using h
  nul emb e env := by
    simp only [MFieldTy.parse, MFieldTy.least]
    refine Parser.AtLeast.map fun b k v h => ?_
    obtain ⟨t, _, _, _, rfl⟩ := NullTerminated.fromSlice_eq_ok.1 h
    omega
  varchar ty emb e env := by
    simp only [MFieldTy.parse, MFieldTy.least]
    refine Parser.AtLeast.map fun b k v h => ?_
    obtain ⟨_, rfl, _⟩ := (Varchar.fromSlice_eq_ok (by cases ty <;> decide)).1 h
    omega
  array ty s emb e env := by
    simp only [MFieldTy.parse, MFieldTy.least]
    refine Parser.AtLeast.map fun b k v h => ?_
    obtain ⟨_, _, _, _, _, _, h, _⟩ := Arr.fromSlice_eq_ok.1 h
    exact h
  union n d cs sz on i h emb e env := by
    simp only [MFieldTy.parse, MFieldTy.least, Union.parse]
    intro b k v hk
    obtain ⟨x, _, hk⟩ := Res.bind_eq_ok.1 hk
    refine Union.parseCases_least Union.least_none (fun k hk r hr => ?_) 0 x b k v hk
    have := h k hk r hr emb e env
    simp only [MFieldTy.parse, MFieldTy.least] at this
    exact this.mono (Union.least_mem k hk r hr)
  list ty m h emb e env := by
    simp only [MFieldTy.parse, MFieldTy.least]
    split
    · refine Parser.AtLeast.map fun b k v h => ?_
      obtain ⟨_, _, _, _, rfl, _⟩ := (Lst.fromSlice_eq_ok (Message.cut c m)).1 h
      omega
    · refine Parser.AtLeast.map fun b k v h => ?_
      obtain ⟨h1, rfl, _⟩ := Lst.unsized_eq_ok.1 h
      exact h1
  payload emb e env := by
    simp only [MFieldTy.least]
    exact fun _ _ _ _ => Nat.zero_le _
  msg id n fs sz h := by
    intro b k v hk
    obtain ⟨vs, _, hr⟩ := Message.parse_eq_ok.1 hk
    refine runFields_least (fun f hf env => ?_) hr
    obtain ⟨_, ty, o, _, e⟩ := f
    simp only [MField.parse, MField.optional, MField.ty]
    cases o with
    | true => exact (Optional.atLeast _).map
    | false => exact h _ hf _ e env

/-! ## Zeros -/

theorem intOfWire_zeros (e : Endian) (n : Nat) : intOfWire e (List.replicate n 0) = 0 := by
  cases e with
  | little => exact leNat_replicate_zero n
  | big =>
    simp only [intOfWire, beNat, List.reverse_replicate]
    exact leNat_replicate_zero n

theorem take_zeros (n : Nat) (t : Bytes) : (List.replicate n (0 : UInt8) ++ t).take n = List.replicate n 0 := by
  rw [List.take_append_of_le_length (by simp), List.take_of_length_le (by simp)]

theorem runFields_zeros {step : MField → Env → Parser Value} {fs : List MField}
    (h : ∀ f ∈ fs, ∀ env t, ∃ v, step f env (List.replicate (if f.optional then 1 else f.ty.least) 0 ++ t) =
      .ok ⟨if f.optional then 1 else f.ty.least, v⟩) (env : Env) (t : Bytes) :
    ∃ env', runFields step fs env (List.replicate (MField.listLeast fs) 0 ++ t) = .ok (MField.listLeast fs, env') := by
  induction fs generalizing env with
  | nil => exact ⟨env, rfl⟩
  | cons f fs ih =>
    have e : MField.listLeast (f :: fs) = (if f.optional then 1 else f.ty.least) + MField.listLeast fs := by
      obtain ⟨_, ty, o, _, _⟩ := f
      rfl
    rw [e, ← List.replicate_append_replicate, List.append_assoc]
    obtain ⟨v, hv⟩ := h f List.mem_cons_self env (List.replicate (MField.listLeast fs) 0 ++ t)
    obtain ⟨env', he⟩ := ih (fun f hf => h f (List.mem_cons_of_mem _ hf)) (env ++ [(f.name, v)])
    refine ⟨env', ?_⟩
    simp only [runFields, hv]
    rw [List.drop_left' (by simp), he]

theorem zerosInd (c : Ctx) : SchemaInd
    (fun m => m.delimited c.emb = true → m.allFields MField.notUnion = true →
      ∀ t, ∃ v, m.parse c (List.replicate m.least 0 ++ t) = .ok ⟨m.least, v⟩)
    (fun ty => ∀ emb e env, ty.delimited c.emb emb = true → ty.allFields MField.notUnion = true →
      MField.notUnion (.mk [] ty false ⟨false, false⟩ .little) = true →
      ∀ t, ∃ v, ty.parse c emb e env (List.replicate ty.least 0 ++ t) = .ok ⟨ty.least, v⟩) where
  fixed ty emb e env _ _ _ t := by
    simp only [MFieldTy.parse, MFieldTy.least]
    exact ⟨_, Parser.map_eq_ok.2 ⟨_, Scalar.fromSlice_eq_ok.2 ⟨by simp, rfl⟩, rfl⟩⟩
  struct s emb e env _ _ _ t := by
    have h : s.parse (List.replicate s.byteSize 0 ++ t) = .ok ⟨s.byteSize, .struct (List.replicate s.byteSize 0)⟩ := by
      rw [Structure.parse, if_neg (by simp)]
      simp [Proto.slice]
    exact ⟨_, by simpa only [MFieldTy.parse, Referenced.parse, MFieldTy.least, Referenced.least] using h⟩
  message m h emb e env hd ha _ t := by
    simp only [MFieldTy.delimited, Referenced.delimited] at hd
    simp only [MFieldTy.allFields, Referenced.allFields] at ha
    simpa only [MFieldTy.parse, Referenced.parse, MFieldTy.least, Referenced.least] using h hd ha t
  nul emb e env _ _ _ t := by
    simp only [MFieldTy.parse, MFieldTy.least]
    exact ⟨_, Parser.map_eq_ok.2 ⟨[], NullTerminated.fromSlice_eq_ok.2 ⟨t, rfl, by simp, by decide, rfl⟩, rfl⟩⟩
  varchar ty emb e env _ _ _ t := by
    simp only [MFieldTy.parse, MFieldTy.least]
    refine ⟨_, Parser.map_eq_ok.2 ⟨[], (Varchar.fromSlice_eq_ok (by cases ty <;> decide)).2
      ⟨by decide, rfl, Nat.pow_pos (by omega), by cases ty <;> decide, t, ?_⟩, rfl⟩⟩
    cases e <;> cases ty <;> rfl
  array ty s emb e env _ _ _ t := by
    simp only [MFieldTy.parse, MFieldTy.least]
    refine ⟨_, Parser.map_eq_ok.2 ⟨⟨[], 0⟩, Arr.fromSlice_eq_ok.2 ⟨0, by simp, ?_, ?_, ?_, by simp, Nat.le_refl _, ?_⟩, rfl⟩⟩
    · rw [take_zeros, intOfWire_zeros]
    · cases c.p <;> simp [mulU, usizeBits]
    · cases c.p <;> cases ty <;> rfl
    · simp
  union n d cs sz on i h emb e env _ _ hn t := by simp [MField.notUnion, MField.ty] at hn
  list ty m h emb e env hd _ _ t := by
    simp only [MFieldTy.delimited, Bool.and_eq_true] at hd
    simp only [MFieldTy.parse, MFieldTy.least, hd.1, if_true]
    refine ⟨_, Parser.map_eq_ok.2 ⟨⟨[], 0⟩, (Lst.fromSlice_eq_ok (Message.cut c m)).2 ⟨0, by simp, ?_, rfl, ?_, ?_⟩, rfl⟩⟩
    · rw [take_zeros, intOfWire_zeros]
    · omega
    · rfl
  payload emb e env hd := by simp [MFieldTy.delimited] at hd
  msg id n fs sz h hd ha t := by
    have hd' := MField.listDelimited_mem (by simpa only [Message.delimited] using hd)
    have ha' := MField.listAllFields_mem (by simpa only [Message.allFields] using ha)
    have key : ∀ f ∈ fs, ∀ env t, ∃ v, MField.parse c (c.emb id) f env
        (List.replicate (if f.optional then 1 else f.ty.least) 0 ++ t) =
        .ok ⟨if f.optional then 1 else f.ty.least, v⟩ := fun f hf env t => by
      have h1 := h f hf (c.emb id) f.endian env (hd' f hf) (ha' f hf).2 (ha' f hf).1
      obtain ⟨_, ty, o, _, e⟩ := f
      cases o with
      | true => exact ⟨.none, Parser.map_eq_ok.2
        ⟨none, Optional.fromSlice_none (f := ty.parse c (c.emb id) e env) t, rfl⟩⟩
      | false => exact h1 t
    obtain ⟨env', he⟩ := runFields_zeros key [] t
    exact ⟨.msg env', Message.parse_eq_ok.2 ⟨env', rfl, he⟩⟩

/-! ## Messages that may be empty -/

theorem MField.listLeast_mem {fs : List MField} : ∀ f ∈ fs, (if f.optional then 1 else f.ty.least) ≤ MField.listLeast fs := by
  induction fs with
  | nil => simp
  | cons g fs ih =>
    intro f hf
    have e : MField.listLeast (g :: fs) = (if g.optional then 1 else g.ty.least) + MField.listLeast fs := by
      obtain ⟨_, ty, o, _, _⟩ := g
      rfl
    rw [e]
    rcases List.mem_cons.1 hf with rfl | hf
    · omega
    · have := ih f hf
      omega

theorem Discriminant.root_pos {d : Discriminant} (hu : d.root.Usable) (ha : d.access ≠ none) : 1 ≤ d.root.byteSize := by
  cases h : d.access with
  | none => exact absurd h ha
  | some a =>
    have h1 := Access.bounds (Structure.walk_hasAccess h) hu.1
    have h2 := Access.width_pos (Structure.walk_hasAccess h) hu.2.1
    have h3 := hu.1.byteSize
    simp only [ceil8] at h3
    omega

theorem emptyInd (c : Ctx) : SchemaInd
    (fun m => m.AllMessages Message.Keyed → m.least = 0 → ∃ v, m.parse c [] = .ok ⟨0, v⟩)
    (fun ty => ty.AllMessages Message.Keyed → ty.least = 0 → (∀ u on i, ty ≠ .union u on i) →
      ∀ emb e env, ∃ v, ty.parse c emb e env [] = .ok ⟨0, v⟩) where
  fixed ty _ h := by have := ty.byteSize_pos; simp only [MFieldTy.least] at h; omega
  struct s _ h _ emb e env := by
    simp only [MFieldTy.least, Referenced.least] at h
    simp only [MFieldTy.parse, Referenced.parse, Structure.parse, h]
    exact ⟨.struct [], by simp [Proto.slice]⟩
  message m h hk h0 _ emb e env := by
    simp only [MFieldTy.least, Referenced.least] at h0
    simp only [MFieldTy.AllMessages, Referenced.AllMessages] at hk
    simpa only [MFieldTy.parse, Referenced.parse] using h hk h0
  nul _ h := by simp [MFieldTy.least] at h
  varchar ty _ h := by have := ty.byteSize_pos; simp only [MFieldTy.least] at h; omega
  array ty s _ h := by have := ty.byteSize_pos; simp only [MFieldTy.least] at h; omega
  union n d cs sz on i _ _ _ hn := absurd rfl (hn _ _ _)
  list ty m _ _ h := by have := ty.byteSize_pos; simp only [MFieldTy.least] at h; omega
  payload _ _ _ emb e env := by
    simp only [MFieldTy.parse]
    exact ⟨.buf [], rfl⟩
  msg id n fs sz h hk h0 := by
    simp only [Message.AllMessages] at hk
    have hk2 := MField.listAllMessages_mem hk.2
    simp only [Message.least] at h0
    have hz : ∀ f ∈ fs, (if f.optional then 1 else f.ty.least) = 0 := fun f hf => by
      have := MField.listLeast_mem f hf
      omega
    have hun : ∀ f ∈ fs, ∀ u on i, f.ty ≠ .union u on i := by
      intro f hf u on i ht
      obtain ⟨before, after, rfl⟩ := List.append_of_mem hf
      have hkey := hk.1 before f after rfl
      unfold MField.Keyed at hkey
      rw [ht] at hkey
      obtain ⟨g, hg, ho, hty, hu, ha⟩ := hkey
      have hg' := hz g (List.mem_append_left _ (List.mem_of_find?_eq_some hg))
      rw [ho, hty] at hg'
      have := Discriminant.root_pos hu ha
      simp only [Bool.false_eq_true, if_false, MFieldTy.least, Referenced.least] at hg'
      omega
    have key : ∀ (gs : List MField) (env : Env), (∀ f ∈ gs, f ∈ fs) →
        ∃ env', runFields (MField.parse c (c.emb id)) gs env [] = .ok (0, env') := by
      intro gs
      induction gs with
      | nil => exact fun env _ => ⟨env, rfl⟩
      | cons f gs ih =>
        intro env hsub
        have hf := hsub f List.mem_cons_self
        have h1 := hz f hf
        have h2 := h f hf (hk2 f hf)
        have h3 := hun f hf
        obtain ⟨v, hv⟩ : ∃ v, f.parse c (c.emb id) env [] = .ok ⟨0, v⟩ := by
          obtain ⟨_, ty, o, _, e⟩ := f
          simp only [MField.parse, MField.optional, MField.ty] at h1 h2 h3 ⊢
          cases o with
          | true => simp at h1
          | false => exact h2 h1 h3 _ e env
        obtain ⟨env', he⟩ := ih (env ++ [(f.name, v)]) (fun g hg => hsub g (List.mem_cons_of_mem _ hg))
        refine ⟨env', ?_⟩
        simp only [runFields, hv, List.drop_nil, he]
    obtain ⟨env', he⟩ := key fs [] (fun _ h => h)
    exact ⟨.msg env', Message.parse_eq_ok.2 ⟨env', rfl, he⟩⟩

/-! ## Lists -/

theorem Props.Chain.atLeast {f : Parser α} (hc : f.Cut) {n : Nat} (hn : f.AtLeast n) {b rest : Bytes} {vs : List α}
    (h : Props.Chain f b vs rest) : vs.length * n + rest.length ≤ b.length := by
  induction h with
  | nil b => simp
  | @cons b rest m v vs hf _ ih =>
    have h1 := hn _ _ _ hf
    have h2 := (hc _ _ _ hf).1
    simp only [List.length_drop] at ih
    rw [List.length_cons, Nat.add_mul]
    omega

theorem Lst.scanR_stuck {f : Parser α} {b : Bytes} {v : α} (h : f b = .ok ⟨0, v⟩) (n : Nat) : scanR f n b = .ok 0 := by
  induction n with
  | zero => rfl
  | succ n ih => simp only [scanR, h, List.drop_zero, ih]

namespace Props

/-! ## C102 -/

/-- C102: whatever a message is decoded from, it takes its least size or more. -/
theorem C102_least (c : Ctx) (m : Message) {b : Bytes} {n : Nat} {v : Value} (h : m.parse c b = .ok ⟨n, v⟩) :
    m.least ≤ n := (leastInd c).all m b n v h

example : Ex.full.least = 6 + 1 ∧ Ex.full.least ≤ (Ex.full.write Ex.ctx Ex.fullV).bytes.length :=
  ⟨by decide, C102_least Ex.ctx Ex.full (C22_roundtrip Ex.ctx (by decide) Ex.fullV_repr).2⟩

/-- C102: shorter inputs are not accepted. -/
theorem C102_short (c : Ctx) (m : Message) {b : Bytes} (hb : b.length < m.least) : ∀ r, m.parse c b ≠ .ok r := by
  rintro ⟨n, v⟩ h
  have h1 := C102_least c m h
  have h2 := (C24_local c m h).1
  omega

example : ∀ r, Ex.full.parse Ex.ctx [0, 0, 0, 0, 0, 0] ≠ .ok r := C102_short Ex.ctx Ex.full (by decide)

/-- C102: without greedy parts and unions the least size is reached, by zeros. -/
theorem C102_reached (c : Ctx) {m : Message} (hd : m.delimited c.emb = true) (hu : m.allFields MField.notUnion = true)
    (t : Bytes) : ∃ v, m.parse c (List.replicate m.least 0 ++ t) = .ok ⟨m.least, v⟩ := (zerosInd c).all m hd hu t

example : ∃ v, Ex.group.parse Ex.ctx [0, 7, 8] = .ok ⟨1, v⟩ := C102_reached Ex.ctx (by decide) (by decide) [7, 8]

example : ∃ v, Ex.keyed.parse Ex.ctx [0, 0, 0, 0, 0] = .ok ⟨5, v⟩ := C102_reached Ex.ctx (by decide) (by decide) []

/-- C102: exactly when a message can be decoded from no bytes at all. -/
theorem C102_empty (c : Ctx) {m : Message} (hk : m.AllMessages Message.Keyed) :
    (∃ b v, m.parse c b = .ok ⟨0, v⟩) ↔ m.least = 0 :=
  ⟨fun ⟨_, _, h⟩ => Nat.le_zero.1 (C102_least c m h),
    fun h => let ⟨v, hv⟩ := (emptyInd c).all m hk h; ⟨[], v, hv⟩⟩

/-- A message without fields, and a payload. -/
def Ex.hollow : Message :=
  .mk 31 "Hollow".toList
    [ .mk "n".toList (.ref (.message (.mk 30 "Nothing".toList [] ⟨false, false⟩))) false ⟨false, false⟩ .little,
      .mk "p".toList .payload false ⟨true, true⟩ .little ] ⟨true, true⟩

theorem Ex.hollow_keyed : Ex.hollow.AllMessages Message.Keyed := by
  have hk : ∀ m : Message, (∀ f ∈ m.fields, ∀ u on i, f.ty ≠ .union u on i) → m.Keyed := by
    intro m hm before f after heq
    unfold MField.Keyed
    split
    · next u on i ht => exact absurd ht (hm f (by rw [heq]; simp) u on i)
    · trivial
  simp only [Ex.hollow, Message.AllMessages, MField.ListAllMessages, MFieldTy.AllMessages, Referenced.AllMessages, and_true]
  exact ⟨hk _ (by simp [Message.fields, MField.ty]), hk _ (by simp [Message.fields])⟩

example : ∃ b v, Ex.hollow.parse Ex.ctx b = .ok ⟨0, v⟩ := (C102_empty Ex.ctx Ex.hollow_keyed).2 rfl

/-- C102: a list whose end had to be found has at most as many items as fit the bytes it was decoded from. -/
theorem C102_items (c : Ctx) (m : Message) (e : Endian) (sz : Nat) {b : Bytes} {n : Nat} {l : Seq Bytes}
    (h : Lst.fromSlice e sz (m.parse c) b = .ok ⟨n, l⟩) : sz + l.len * m.least ≤ n ∧ n ≤ b.length := by
  have hc := Message.cut c m
  obtain ⟨_, vs, hl, hch, _⟩ := C33_decoded e sz _ hc b n l h
  have h1 := hch.atLeast hc ((leastInd c).all m)
  obtain ⟨h2, _⟩ := Lst.cut hc e sz b n l h
  obtain ⟨k, h3, _, _, rfl, _⟩ := (Lst.fromSlice_eq_ok hc).1 h
  simp only [List.length_drop] at h1
  rw [hl] at h1
  omega

example : 1 + 2 * 3 ≤ 10 ∧ 10 ≤ 12 :=
  C102_items Ex.ctx Ex.item .little 1 (b := [2, 1, 2, 1, 104, 105, 0, 7, 0, 0, 99, 99]) (n := 10)
    (l := ⟨[1, 2, 1, 104, 105, 0, 7, 0, 0], 2⟩) (by decide +kernel)

/-- C102: iterating any list yields at most as many items as fit its bytes. -/
theorem C102_iteration (c : Ctx) (m : Message) (l : Seq Bytes) (n : Nat) :
    ((Lst.steps (m.parse c) n l).filter fun r => match r with | some (.ok _) => true | _ => false).length * m.least ≤
      l.data.length := by
  have hc := Message.cut c m
  obtain ⟨vs, rest, stop, hch, hle, hend, hmore, hst⟩ := C33_any (m.parse c) hc l
  have h1 := hch.atLeast hc ((leastInd c).all m)
  have hstop : ∀ v, stop ≠ some (.ok v) := by
    intro v
    rcases Nat.lt_or_eq_of_le hle with h | h
    · rcases hmore h with ⟨_, _, rfl⟩ | ⟨_, rfl⟩ <;> simp
    · rw [hend h]
      simp
  rw [hst, List.filter_append, List.length_append]
  have h2 := List.length_filter_le (fun r : Option (R Value) => match r with | some (.ok _) => true | _ => false)
    ((vs.map (fun v => some (.ok v))).take n)
  have h3 : ((List.replicate (n - vs.length) stop).filter
      fun r => match r with | some (.ok _) => true | _ => false).length = 0 := by
    rw [List.filter_replicate]
    cases stop with
    | none => simp
    | some r => cases r with
      | ok v => exact absurd rfl (hstop v)
      | err _ => simp
      | panic => simp
  have h4 : ((vs.map (fun v => (some (.ok v) : Option (R Value)))).take n).length ≤ vs.length := by simp; omega
  have h5 : ∀ x, x ≤ vs.length → x * m.least ≤ vs.length * m.least := fun x hx => Nat.mul_le_mul_right _ hx
  have := h5 _ (Nat.le_trans h2 h4)
  rw [h3, Nat.add_zero]
  omega

/-- A list that announces a thousand items of three bytes or more in nine bytes. -/
example (n : Nat) : ((Lst.steps (Ex.item.parse Ex.ctx) n ⟨[1, 2, 1, 104, 105, 0, 7, 0, 0], 1000⟩).filter
    fun r => match r with | some (.ok _) => true | _ => false).length * 3 ≤ 9 :=
  C102_iteration Ex.ctx Ex.item ⟨[1, 2, 1, 104, 105, 0, 7, 0, 0], 1000⟩ n

/-- C102: a few bytes announce any number of items when items can be empty: decoding then makes that many
steps. -/
theorem C102_announced (c : Ctx) {m : Message} (hk : m.AllMessages Message.Keyed) (h0 : m.least = 0) (e : Endian)
    {sz n : Nat} (hn : n < 256 ^ sz) :
    ∃ b, b.length = sz ∧ Lst.fromSlice e sz (m.parse c) b = .ok ⟨sz, ⟨[], n⟩⟩ ∧
      ∃ v, ∀ k, Lst.steps (m.parse c) (n + k) ⟨[], n⟩ = List.replicate n (some (.ok v)) ++ List.replicate k none := by
  obtain ⟨v, hv⟩ := (emptyInd c).all m hk h0
  have hlen : (wireInt e sz n).length = sz := wireInt_length e sz n
  refine ⟨wireInt e sz n, hlen, (Lst.fromSlice_eq_ok (Message.cut c m)).2 ⟨0, by omega, ?_, ?_, by omega, by simp⟩,
    v, fun k => ?_⟩
  · rw [List.take_of_length_le (by omega)]
    rw [intOfWire_wireInt, Nat.mod_eq_of_lt hn]
  · rw [List.drop_of_length_le (by omega)]
    exact Lst.scanR_stuck hv n
  · induction n with
    | zero =>
      clear hn hlen
      simp only [Nat.zero_add, List.replicate_zero, List.nil_append]
      induction k with
      | zero => rfl
      | succ k ih => simp only [Lst.steps, Lst.next, if_true, List.replicate_succ, ih]
    | succ n ih =>
      have ih := ih (by omega) (wireInt_length e sz n)
      rw [show n + 1 + k = n + k + 1 by omega, List.replicate_succ, List.cons_append]
      have hne : ¬ n + 1 = 0 := by omega
      have : Lst.next (m.parse c) ⟨[], n + 1⟩ = (some (.ok v), ⟨[], n⟩) := by
        simp [Lst.next, hv, dropFrom, Proto.slice]
      simp only [Lst.steps, this, ih]

/-- Four bytes, more than four billion items. -/
example : ∃ b, b.length = 4 ∧
    Lst.fromSlice .little 4 (Ex.hollow.parse Ex.ctx) b = .ok ⟨4, ⟨[], 4294967295⟩⟩ := by
  obtain ⟨b, h1, h2, _⟩ := C102_announced Ex.ctx Ex.hollow_keyed rfl .little (sz := 4) (n := 4294967295) (by decide)
  exact ⟨b, h1, h2⟩

end Props

end Proto
