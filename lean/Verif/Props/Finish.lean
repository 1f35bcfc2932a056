import Verif.Base.Lit
import Verif.Props.Most
import Verif.Props.Receive

/-!
# C118: what the error of a short input means
-/

namespace Proto

/-- What is too short can be completed. -/
def Parser.Finishes (f : Parser α) : Prop := ∀ b, f b = .err .truncated → ∃ t r, f (b ++ t) = .ok r

/-- If the field is an array its size is a machine word; it is no string that ends with a zero, and no
union. -/
def MField.completable (f : MField) : Bool :=
  f.notUnion && f.countFits && match f.ty with
  | .nullTerminatedString => false
  | _ => true

/-- A decoder that stops by itself can be given exactly what is missing. -/
theorem Parser.Finishes.exact {f : Parser α} (h : f.Finishes) (hc : f.Cut) (hd : f.Delimits) {b : Bytes}
    (hb : f b = .err .truncated) : ∃ t v, f (b ++ t) = .ok ⟨(b ++ t).length, v⟩ := by
  obtain ⟨t, ⟨n, v⟩, ht⟩ := h b hb
  have h1 := hc _ _ _ ht
  have h2 : b.length < n := by
    refine Nat.lt_of_not_le fun hn => ?_
    have := hd _ _ _ (h1.2 n (Nat.le_refl n)) (b.drop n)
    rw [List.take_append_of_le_length hn, List.take_append_drop, hb] at this
    cases this
  refine ⟨t.take (n - b.length), v, ?_⟩
  have h3 := h1.2 n (Nat.le_refl n)
  rw [List.take_append, List.take_of_length_le (Nat.le_of_lt h2)] at h3
  rw [h3]
  have := h1.1
  simp only [List.length_append, List.length_take] at this ⊢
  congr 2
  omega

theorem Parser.Finishes.map {f : Parser α} (h : f.Finishes) {g : α → β} : (f.map g).Finishes := by
  intro b hb
  obtain ⟨t, ⟨n, v⟩, ht⟩ := h b (Parser.map_eq_err.1 hb)
  exact ⟨t, ⟨n, g v⟩, Parser.map_eq_ok.2 ⟨v, ht, rfl⟩⟩

theorem Scalar.finishes (e : Endian) (sz : Nat) : (Scalar.fromSlice e sz).Finishes :=
  fun b _ => ⟨List.replicate sz 0, _, Scalar.fromSlice_eq_ok.2 ⟨by simp, rfl⟩⟩

theorem Structure.finishes (s : Structure) : s.parse.Finishes := by
  intro b _
  refine ⟨List.replicate s.byteSize 0, ⟨s.byteSize, .struct ((b ++ List.replicate s.byteSize 0).take s.byteSize)⟩, ?_⟩
  rw [Structure.parse, if_neg (by simp)]
  simp [Proto.slice]

/-- A prefix completed with zeros is not among the largest. -/
theorem intOfWire_completed (e : Endian) {b : Bytes} {sz : Nat} (hb : b.length < sz) (hs : sz ≤ 8) :
    intOfWire e (b ++ List.replicate (sz - b.length) 0) + 8 < 2 ^ 64 := by
  have h8 : 256 ^ sz ≤ 256 ^ 8 := Nat.pow_le_pow_right (by omega) hs
  have hl := intOfWire_lt e (b ++ List.replicate (sz - b.length) 0)
  rw [List.length_append, List.length_replicate, Nat.add_sub_cancel' (Nat.le_of_lt hb)] at hl
  have e8 : (256 : Nat) ^ 8 = 2 ^ 64 := by decide
  cases e with
  | little =>
    simp only [intOfWire, leNat_append, leNat_replicate_zero, Nat.mul_zero, Nat.add_zero] at hl ⊢
    have h1 := leNat_lt b
    have h2 : 256 ^ b.length ≤ 256 ^ 7 := Nat.pow_le_pow_right (by omega) (by omega)
    have e7 : (256 : Nat) ^ 7 = 2 ^ 56 := by decide
    omega
  | big =>
    obtain ⟨k, hk⟩ : ∃ k, sz - b.length = k + 1 := ⟨sz - b.length - 1, by omega⟩
    have hz : beNat (List.replicate (sz - b.length) 0) = 0 := by
      simp only [beNat, List.reverse_replicate]
      exact leNat_replicate_zero _
    have ha : beNat (b ++ List.replicate (sz - b.length) 0) = 256 * (beNat b * 256 ^ k) := by
      simp only [beNat, List.reverse_append, leNat_append, List.reverse_replicate, leNat_replicate_zero,
        List.length_replicate, Nat.zero_add, hk, Nat.pow_succ]
      rw [Nat.mul_comm (256 ^ k) 256, Nat.mul_assoc, Nat.mul_comm (256 ^ k)]
    simp only [intOfWire, ha] at hl ⊢
    omega

theorem isUtf8_zeros (n : Nat) : IsUtf8 (List.replicate n 0) :=
  ⟨List.replicate n (Char.ofNat 0), by
    induction n with
    | zero => rfl
    | succ n ih =>
      rw [List.replicate_succ, List.replicate_succ, List.flatMap_cons, ← ih]
      rfl⟩

theorem Varchar.finishes (p : Profile) (e : Endian) {sz : Nat} (hs : sz ≤ 8) : (Varchar.fromSlice p e sz).Finishes := by
  intro b h
  have hb : b.length < sz := by
    refine Nat.lt_of_not_le fun hb => ?_
    unfold Varchar.fromSlice at h
    rcases Res.bind_eq_err.1 h with h1 | ⟨m, h1, h⟩
    · rw [Scalar.fromSlice_eq, if_pos hb] at h1
      cases h1
    rcases Res.bind_eq_err.1 h with h2 | ⟨n, h2, h⟩
    · exact absurd h2 addU_ne_err
    rcases Res.bind_eq_err.1 h with h3 | ⟨s, h3, h⟩
    · exact absurd h3 slice_ne_err
    · split at h <;> cases h
  have hn := intOfWire_completed e hb hs
  have hlen : (b ++ List.replicate (sz - b.length) 0).length = sz := by simp; omega
  have hlt := intOfWire_lt e (b ++ List.replicate (sz - b.length) 0)
  rw [hlen] at hlt
  generalize hk : intOfWire e (b ++ List.replicate (sz - b.length) 0) = k at hn hlt
  refine ⟨List.replicate (sz - b.length) 0 ++ List.replicate k 0, ⟨sz + k, List.replicate k 0⟩,
    (Varchar.fromSlice_eq_ok hs).2 ⟨(validUtf8_iff _).2 (isUtf8_zeros k), by simp, by simpa using hlt,
      by rw [List.length_replicate]; omega, [], ?_⟩⟩
  have hw := wireInt_intOfWire e (b ++ List.replicate (sz - b.length) 0)
  rw [hlen, hk] at hw
  rw [List.length_replicate, hw, List.append_nil, List.append_assoc]

theorem Arr.finishes (p : Profile) (e : Endian) {sz isz : Nat} (hf : (256 ^ sz - 1) * isz + sz < 2 ^ 64) :
    (Arr.fromSlice p e sz isz).Finishes := by
  intro b _
  have hlt := intOfWire_lt e ((b ++ List.replicate sz 0).take sz)
  rw [List.length_take_of_le (by simp)] at hlt
  generalize hk : intOfWire e ((b ++ List.replicate sz 0).take sz) = k at hlt
  have h1 : k * isz ≤ (256 ^ sz - 1) * isz := Nat.mul_le_mul_right _ (by omega)
  refine ⟨List.replicate sz 0 ++ List.replicate (k * isz) 0,
    ⟨sz + k * isz, ⟨_, k⟩⟩, Arr.fromSlice_eq_ok.2 ⟨k * isz, by simp; omega, ?_, mulU_ok p ?_, addU_ok p ?_, ?_, by omega, rfl⟩⟩
  · rw [← List.append_assoc, List.take_append_of_le_length (by simp)]
    exact hk.symm
  · simp only [usizeBits]
    omega
  · simp only [usizeBits]
    omega
  · simp

section Sequence

variable {f : Parser α} (hf : f.Finishes) (hd : f.Delimits) (hc : f.Cut) {z : Bytes} {w : α}
  (hz : f z = .ok ⟨z.length, w⟩)

include hd hz in
theorem Lst.scanR_some (n : Nat) : ∃ t k, scanR f n t = .ok k := by
  induction n with
  | zero => exact ⟨[], 0, rfl⟩
  | succ n ih =>
    obtain ⟨t, k, h⟩ := ih
    exact ⟨z ++ t, z.length + k, scanR_succ_eq_ok.2 ⟨z.length, w, k, hd _ _ _ hz t, by rw [List.drop_left]; exact h, rfl⟩⟩

include hf hd hc hz

theorem Lst.scanR_finishes {n : Nat} {b : Bytes} (h : scanR f n b = .err .truncated) :
    ∃ t k, scanR f n (b ++ t) = .ok k := by
  induction n generalizing b with
  | zero => cases h
  | succ n ih =>
    simp only [scanR] at h
    cases hb : f b with
    | panic => rw [hb] at h; cases h
    | err x =>
      rw [hb] at h
      cases h
      obtain ⟨t, v, ht⟩ := hf.exact hc hd hb
      obtain ⟨t', k, hk⟩ := Lst.scanR_some hd hz n
      refine ⟨t ++ t', (b ++ t).length + k, scanR_succ_eq_ok.2 ⟨(b ++ t).length, v, k, ?_, ?_, rfl⟩⟩
      · rw [← List.append_assoc]; exact hd _ _ _ ht t'
      · rw [← List.append_assoc, List.drop_left]; exact hk
    | ok m =>
      rw [hb] at h
      simp only at h
      cases hr : scanR f n (b.drop m.size) with
      | ok k => rw [hr] at h; cases h
      | panic => rw [hr] at h; cases h
      | err x =>
        rw [hr] at h
        cases h
        obtain ⟨t, k, hk⟩ := ih hr
        refine ⟨t, m.size + k, scanR_succ_eq_ok.2 ⟨m.size, m.data, k, hd _ _ _ hb t, ?_, rfl⟩⟩
        rw [List.drop_append_of_le_length (hc _ m.size m.data hb).1]
        exact hk

theorem Lst.finishes (e : Endian) (sz : Nat) : (Lst.fromSlice e sz f).Finishes := by
  intro b h
  rw [Lst.fromSlice_eq hc] at h
  by_cases hb : sz ≤ b.length
  · rw [if_pos hb] at h
    rcases Res.bind_eq_err.1 h with h1 | ⟨m, h1, h⟩
    · obtain ⟨t, k, hk⟩ := Lst.scanR_finishes hf hd hc hz h1
      refine ⟨t, ⟨k + sz, ⟨_, _⟩⟩, (Lst.fromSlice_eq_ok hc).2 ⟨k, by simp; omega, rfl, ?_, rfl, rfl⟩⟩
      simp only
      rw [List.take_append_of_le_length hb, List.drop_append_of_le_length hb]
      exact hk
    · cases h
  · obtain ⟨t, k, hk⟩ := Lst.scanR_some hd hz (intOfWire e (b ++ List.replicate (sz - b.length) 0))
    have hl : (b ++ List.replicate (sz - b.length) (0 : UInt8)).length = sz := by simp; omega
    refine ⟨List.replicate (sz - b.length) 0 ++ t, ⟨k + sz, ⟨_, _⟩⟩,
      (Lst.fromSlice_eq_ok hc).2 ⟨k, by simp; omega, rfl, ?_, rfl, rfl⟩⟩
    simp only
    rw [← List.append_assoc, List.take_append_of_le_length (by omega), List.take_of_length_le (by omega),
      List.drop_left' hl]
    exact hk

end Sequence

theorem Optional.finishes {f : Parser α} (hf : f.Finishes) : (Optional.fromSlice f).Finishes := by
  intro b h
  cases b with
  | nil => exact ⟨[0], ⟨1, none⟩, Optional.fromSlice_eq_ok.2 (.inl ⟨[], rfl, rfl, rfl⟩)⟩
  | cons y r =>
    simp only [Optional.fromSlice] at h
    split at h
    · next hy =>
      rcases Res.bind_eq_err.1 h with h1 | ⟨m, h1, h⟩
      · obtain ⟨t, ⟨n, v⟩, ht⟩ := hf r h1
        refine ⟨t, ⟨n + 1, some v⟩, Optional.fromSlice_eq_ok.2 (.inr ⟨y, r ++ t, n, v, rfl, ?_, ht, rfl, rfl⟩)⟩
        intro h0
        simp [h0] at hy
      · cases h
    · cases h

theorem runFields_finishes {step : MField → Env → Parser Value} {fs : List MField}
    (hc : ∀ f ∈ fs, ∀ env, (step f env).Cut) (hd : ∀ f ∈ fs, ∀ env, (step f env).Delimits)
    (hs : ∀ f ∈ fs, ∀ env, (step f env).Finishes)
    (hz : ∀ f ∈ fs, ∀ env t, ∃ v, step f env (List.replicate (if f.optional then 1 else f.ty.least) 0 ++ t) =
      .ok ⟨if f.optional then 1 else f.ty.least, v⟩) {env : Env} {b : Bytes}
    (h : runFields step fs env b = .err .truncated) :
    ∃ t r, runFields step fs env (b ++ t) = .ok r := by
  induction fs generalizing env b with
  | nil => cases h
  | cons f fs ih =>
    have hm := List.mem_cons_self (a := f) (l := fs)
    simp only [runFields] at h ⊢
    cases hf : step f env b with
    | panic => rw [hf] at h; cases h
    | err x =>
      rw [hf] at h
      cases h
      obtain ⟨t, v, ht⟩ := (hs f hm env).exact (hc f hm env) (hd f hm env) hf
      obtain ⟨env', he⟩ := runFields_zeros (fun f hf => hz f (List.mem_cons_of_mem _ hf)) (env ++ [(f.name, v)]) []
      refine ⟨t ++ (List.replicate (MField.listLeast fs) 0 ++ []), ((b ++ t).length + MField.listLeast fs, env'), ?_⟩
      rw [← List.append_assoc, hd f hm env _ _ _ ht]
      simp only
      rw [List.drop_left, he]
    | ok m =>
      rw [hf] at h
      simp only at h
      cases hr : runFields step fs (env ++ [(f.name, m.data)]) (b.drop m.size) with
      | ok k => rw [hr] at h; cases h
      | panic => rw [hr] at h; cases h
      | err x =>
        rw [hr] at h
        cases h
        obtain ⟨t, ⟨k, env'⟩, hk⟩ := ih (fun f hf => hc f (List.mem_cons_of_mem _ hf))
          (fun f hf => hd f (List.mem_cons_of_mem _ hf)) (fun f hf => hs f (List.mem_cons_of_mem _ hf))
          (fun f hf => hz f (List.mem_cons_of_mem _ hf)) hr
        refine ⟨t, (m.size + k, env'), ?_⟩
        rw [hd f hm env _ m.size m.data hf t]
        simp only
        rw [List.drop_append_of_le_length (hc f hm env _ m.size m.data hf).1, hk]

theorem MField.completable_of {f : MField} (h : f.completable = true) :
    f.notUnion = true ∧ f.countFits = true ∧ f.ty ≠ .nullTerminatedString := by
  simp only [MField.completable, Bool.and_eq_true] at h
  refine ⟨h.1.1, h.1.2, fun he => ?_⟩
  rw [he] at h
  exact absurd h.2 (by decide)

theorem monoInd {q r : MField → Bool} (hqr : ∀ f, q f = true → r f = true) : SchemaInd
    (fun m => m.allFields q = true → m.allFields r = true) (fun t => t.allFields q = true → t.allFields r = true) where
  fixed _ _ := by simp [MFieldTy.allFields]
  struct _ _ := by simp [MFieldTy.allFields, Referenced.allFields]
  message m h hq := by simp only [MFieldTy.allFields, Referenced.allFields] at hq ⊢; exact h hq
  nul _ := by simp [MFieldTy.allFields]
  varchar _ _ := by simp [MFieldTy.allFields]
  array _ _ _ := by simp [MFieldTy.allFields]
  union n d cs sz on i h hq := by
    simp only [MFieldTy.allFields, Union.allFields] at hq ⊢
    induction cs with
    | nil => simp [UCase.listAllFields]
    | cons k cs ih =>
      obtain ⟨n, v, t⟩ := k
      cases t with
      | none =>
        simp only [UCase.listAllFields] at hq ⊢
        exact ih (fun k hk => h k (by simp [hk])) hq
      | some r0 =>
        simp only [UCase.listAllFields, Bool.and_eq_true] at hq ⊢
        have := h (.mk n v (some r0)) (by simp) r0 rfl
        simp only [MFieldTy.allFields] at this
        exact ⟨this hq.1, ih (fun k hk => h k (by simp [hk])) hq.2⟩
  list ty m h hq := by simp only [MFieldTy.allFields] at hq ⊢; exact h hq
  payload _ := by simp [MFieldTy.allFields]
  msg id n fs sz h hq := by
    simp only [Message.allFields] at hq ⊢
    induction fs with
    | nil => simp [MField.listAllFields]
    | cons f fs ih =>
      have hf := h f (by simp)
      obtain ⟨n, ty, o, sz, e⟩ := f
      simp only [MField.listAllFields, Bool.and_eq_true] at hq ⊢
      exact ⟨⟨hqr _ hq.1.1, hf hq.1.2⟩, ih (fun g hg => h g (by simp [hg])) hq.2⟩

theorem Message.completable_notUnion {m : Message} (h : m.allFields MField.completable = true) :
    m.allFields MField.notUnion = true :=
  (monoInd fun _ hf => (MField.completable_of hf).1).all m h

theorem finishInd (c : Ctx) : SchemaInd
    (fun m => m.delimited c.emb = true → m.allFields MField.completable = true → (m.parse c).Finishes)
    (fun ty => ∀ emb e env, ty.delimited c.emb emb = true → ty.allFields MField.completable = true →
      MField.completable (.mk [] ty false ⟨false, false⟩ .little) = true → (ty.parse c emb e env).Finishes) where
  fixed ty emb e env _ _ _ := by simp only [MFieldTy.parse]; exact (Scalar.finishes e _).map
  struct s emb e env _ _ _ := by simp only [MFieldTy.parse, Referenced.parse]; exact s.finishes
  message m h emb e env hd ha _ := by
    simp only [MFieldTy.parse, Referenced.parse]
    simp only [MFieldTy.delimited, Referenced.delimited] at hd
    simp only [MFieldTy.allFields, Referenced.allFields] at ha
    exact h hd ha
  nul emb e env _ _ hn := absurd rfl (MField.completable_of hn).2.2
  varchar ty emb e env _ _ _ := by
    simp only [MFieldTy.parse]
    exact (Varchar.finishes _ _ (by cases ty <;> decide)).map
  array ty s emb e env _ _ hn := by
    have := (MField.completable_of hn).2.1
    simp only [MFieldTy.parse]
    exact (Arr.finishes _ _ (of_decide_eq_true this)).map
  union n d cs sz on i h emb e env _ _ hn := by simp [MField.completable, MField.notUnion, MField.ty] at hn
  list ty m h emb e env hd ha _ := by
    simp only [MFieldTy.delimited, Bool.and_eq_true] at hd
    simp only [MFieldTy.allFields] at ha
    simp only [MFieldTy.parse, hd.1, if_true]
    obtain ⟨v, hv⟩ := (zerosInd c).all m hd.2 (Message.completable_notUnion ha) []
    exact (Lst.finishes (h hd.2 ha) (Message.delimits hd.2) (Message.cut c m)
      (z := List.replicate m.least 0) (by simpa using hv) e _).map
  payload emb e env hd := by simp [MFieldTy.delimited] at hd
  msg id n fs sz h hd ha := by
    have hm := MField.listDelimited_mem (by simpa only [Message.delimited] using hd)
    have ha' := MField.listAllFields_mem (by simpa only [Message.allFields] using ha)
    have hfin : ∀ f ∈ fs, ∀ env, (f.ty.parse c (c.emb id) f.endian env).Finishes := fun f hf env =>
      h f hf _ _ _ (hm f hf) (ha' f hf).2 (ha' f hf).1
    intro b hx
    rw [Message.parse_eq] at hx
    rcases Res.bind_eq_err.1 hx with h1 | ⟨r, _, h1⟩
    · obtain ⟨t, ⟨k, env'⟩, hk⟩ := runFields_finishes (fun f _ env => MField.cut c _ f env)
        (fun f hf env => MField.optional_law ((delimitsInd c).ty _ _ _ _ (hm f hf))
          (fun _ => (Optional.delimits ((delimitsInd c).ty _ _ _ _ (hm f hf))).map))
        (fun f hf env => MField.optional_law (hfin f hf env) (fun _ => (Optional.finishes (hfin f hf env)).map))
        (fun f hf env t => by
          have h1 := (zerosInd c).ty f.ty (c.emb id) f.endian env (hm f hf)
            ((monoInd fun _ hf => (MField.completable_of hf).1).ty f.ty (ha' f hf).2)
            (MField.completable_of (ha' f hf).1).1
          obtain ⟨_, ty, o, _, e⟩ := f
          cases o with
          | true => exact ⟨.none, Parser.map_eq_ok.2
            ⟨none, Optional.fromSlice_none (f := ty.parse c (c.emb id) e env) t, rfl⟩⟩
          | false => exact h1 t) h1
      exact ⟨t, ⟨k, .msg env'⟩, Message.parse_eq_ok.2 ⟨env', rfl, hk⟩⟩
    · cases h1

/-! ## Inputs that are long enough -/

/-- Only inputs of less than `n` bytes are too short. -/
def Parser.Short (f : Parser α) (n : Nat) : Prop := ∀ b, f b = .err .truncated → b.length < n

theorem Parser.Short.map {f : Parser α} {n : Nat} (h : f.Short n) {g : α → β} : (f.map g).Short n :=
  fun b hb => h b (Parser.map_eq_err.1 hb)

theorem Parser.Short.mono {f : Parser α} {n m : Nat} (h : f.Short n) (hn : n ≤ m) : f.Short m :=
  fun b hb => Nat.lt_of_lt_of_le (h b hb) hn

theorem Scalar.short (e : Endian) (sz : Nat) : (Scalar.fromSlice e sz).Short sz := by
  intro b h
  rw [Scalar.fromSlice_eq] at h
  split at h
  · cases h
  · omega

theorem Structure.short (s : Structure) : s.parse.Short s.byteSize := by
  intro b h
  unfold Structure.parse at h
  split at h
  · assumption
  · next hb => simp [Proto.slice, Nat.le_of_not_lt hb] at h

theorem Varchar.short (p : Profile) (e : Endian) (sz : Nat) : (Varchar.fromSlice p e sz).Short sz := by
  intro b h
  unfold Varchar.fromSlice at h
  rcases Res.bind_eq_err.1 h with h1 | ⟨m, h1, h⟩
  · exact Scalar.short e sz b h1
  rcases Res.bind_eq_err.1 h with h2 | ⟨n, h2, h⟩
  · exact absurd h2 addU_ne_err
  rcases Res.bind_eq_err.1 h with h3 | ⟨s, h3, h⟩
  · exact absurd h3 slice_ne_err
  · split at h <;> cases h

theorem Arr.short (p : Profile) (e : Endian) {sz : Nat} (isz : Nat) (hs : sz ≤ 8) :
    (Arr.fromSlice p e sz isz).Short (min (sz + (256 ^ sz - 1) * isz) (2 ^ 64 - 1)) := by
  intro b h
  unfold Arr.fromSlice at h
  rcases Res.bind_eq_err.1 h with h1 | ⟨m, h1, h⟩
  · have := Scalar.short e sz b h1
    omega
  rcases Res.bind_eq_err.1 h with h2 | ⟨n, h2, h⟩
  · exact absurd h2 mulU_ne_err
  rcases Res.bind_eq_err.1 h with h3 | ⟨k, h3, h⟩
  · exact absurd h3 addU_ne_err
  obtain ⟨hb, rfl⟩ := Scalar.fromSlice_eq_ok.1 h1
  have h4 : intOfWire e (b.take sz) < 256 ^ sz := prefix_lt hb
  have h5 : intOfWire e (b.take sz) * isz ≤ (256 ^ sz - 1) * isz := Nat.mul_le_mul_right _ (by omega)
  have h6 := mulU_most h2
  obtain ⟨h7, h8⟩ := addU_most h3
  simp only at h6 h7
  by_cases hk : b.length < k
  · omega
  · rw [if_neg hk] at h
    rcases Res.bind_eq_err.1 h with h9 | ⟨s, h9, h⟩
    · exact absurd h9 slice_ne_err
    · cases h

theorem Lst.scanR_short {f : Parser α} {n : Nat} (hs : f.Short n) (hm : f.AtMost n) {count : Nat} {b : Bytes}
    (h : scanR f count b = .err .truncated) : b.length < count * n := by
  induction count generalizing b with
  | zero => cases h
  | succ count ih =>
    simp only [scanR] at h
    rw [Nat.succ_mul]
    cases hb : f b with
    | panic => rw [hb] at h; cases h
    | err x =>
      rw [hb] at h
      cases h
      have := hs b hb
      omega
    | ok m =>
      rw [hb] at h
      simp only at h
      cases hr : scanR f count (b.drop m.size) with
      | ok k => rw [hr] at h; cases h
      | panic => rw [hr] at h; cases h
      | err x =>
        rw [hr] at h
        cases h
        have h1 := ih hr
        have h2 := hm b m.size m.data hb
        rw [List.length_drop] at h1
        omega

theorem Optional.short {f : Parser α} {n : Nat} (hs : f.Short n) : (Optional.fromSlice f).Short (1 + n) := by
  intro b h
  cases b with
  | nil => simp; omega
  | cons y r =>
    simp only [Optional.fromSlice] at h
    split at h
    · rcases Res.bind_eq_err.1 h with h1 | ⟨m, h1, h⟩
      · have := hs r h1
        simp only [List.length_cons]
        omega
      · cases h
    · cases h

theorem runFields_short {step : MField → Env → Parser Value} {emb : Nat → Bool} {here : Bool} {fs : List MField}
    (h : ∀ f ∈ fs, ∀ n, f.ty.most emb here = some n →
      ∀ env, (step f env).AtMost ((if f.optional then 1 else 0) + n) ∧
        (step f env).Short ((if f.optional then 1 else 0) + n)) {env : Env} {b : Bytes}
    {m : Nat} (hm : MField.listMost emb here fs = some m) (hr : runFields step fs env b = .err .truncated) :
    b.length < m := by
  induction fs generalizing env b m with
  | nil => cases hr
  | cons f fs ih =>
    have e : ∃ x y, f.ty.most emb here = some x ∧ MField.listMost emb here fs = some y ∧
        m = (if f.optional then 1 else 0) + x + y := by
      obtain ⟨nm, ty, o, si, e⟩ := f
      simp only [MField.listMost] at hm
      obtain ⟨x, y, hx, hy, rfl⟩ := Limit.add_eq.1 hm
      obtain ⟨x1, x2, hx1, hx2, rfl⟩ := Limit.add_eq.1 hx
      obtain rfl := Option.some.inj hx1
      exact ⟨x2, y, hx2, hy, rfl⟩
    obtain ⟨x, y, hx, hy, rfl⟩ := e
    obtain ⟨h1, h2⟩ := h f List.mem_cons_self x hx env
    simp only [runFields] at hr
    cases hf : step f env b with
    | panic => rw [hf] at hr; cases hr
    | err z =>
      rw [hf] at hr
      cases hr
      have := h2 b hf
      omega
    | ok v =>
      rw [hf] at hr
      simp only at hr
      cases hq : runFields step fs (env ++ [(f.name, v.data)]) (b.drop v.size) with
      | ok k => rw [hq] at hr; cases hr
      | panic => rw [hq] at hr; cases hr
      | err z =>
        rw [hq] at hr
        cases hr
        have h3 := ih (fun f hf => h f (List.mem_cons_of_mem _ hf)) hy hq
        have h4 := h1 b v.size v.data hf
        rw [List.length_drop] at h3
        omega

/-- The result is no error. -/
def Res.Calm (x : R α) : Prop := ∀ e, x ≠ .err e

theorem Res.Calm.bind {x : R α} {g : α → R β} (hx : x.Calm) (hg : ∀ a, (g a).Calm) : (x.bind g).Calm := by
  intro e h
  rcases Res.bind_eq_err.1 h with h | ⟨a, _, h⟩
  · exact hx e h
  · exact hg a e h

theorem Res.calm_ok (a : α) : (Res.ok a : R α).Calm := fun _ h => by cases h

theorem subU_calm (p : Profile) (n a b : Nat) : (subU p n a b : R Nat).Calm := by
  intro e h
  unfold subU at h
  split at h
  · cases h
  · cases p <;> cases h

theorem shlU_calm (p : Profile) (n a b : Nat) : (shlU p n a b : R Nat).Calm := by
  intro e h
  unfold shlU at h
  split at h
  · cases h
  · cases p <;> cases h

theorem shrU_calm (p : Profile) (n a b : Nat) : (shrU p n a b : R Nat).Calm := by
  intro e h
  unfold shrU at h
  split at h
  · cases h
  · cases p <;> cases h

theorem readBytes_calm (e : Endian) (sz : Nat) (b : Bytes) : (readBytes e sz b).Calm := by
  intro x h
  unfold readBytes at h
  split at h <;> cases h

theorem pad8_calm (b : Bytes) : (pad8 b).Calm := by
  intro x h
  unfold pad8 at h
  split at h <;> cases h

theorem slice_calm (b : Bytes) (i j : Nat) : (slice b i j : R Bytes).Calm := fun _ => slice_ne_err

theorem ByteCodec.read_calm (e : Endian) (sz : Nat) (b : Bytes) : (ByteCodec.read e sz b).Calm := by
  unfold ByteCodec.read ByteCodec.readUnaligned ByteCodec.readAligned
  split
  · exact (pad8_calm b).bind fun d => readBytes_calm e sz d
  · exact readBytes_calm e sz b

theorem BitCodec.readAligned_calm (p : Profile) (e : Endian) (sz off size : Nat) (b : Bytes) :
    (BitCodec.readAligned p e sz off size b).Calm := by
  refine Res.Calm.bind ((shlU_calm _ _ _ _).bind fun _ => subU_calm _ _ _ _) fun _ =>
    Res.Calm.bind (readBytes_calm _ _ _) fun _ => Res.Calm.bind ?_ fun _ =>
      Res.Calm.bind (shrU_calm _ _ _ _) fun _ => Res.calm_ok _
  cases e with
  | little => exact Res.calm_ok _
  | big => exact (subU_calm _ _ _ _).bind fun _ => subU_calm _ _ _ _

theorem Access.get_calm (p : Profile) (a : Access) (b : Bytes) : (a.get p b).Calm := by
  induction a generalizing b with
  | fixed f =>
    simp only [Access.get, FixedField.getRaw]
    refine (slice_calm _ _ _).bind fun s => ?_
    split
    · split
      · exact (pad8_calm s).bind fun d => BitCodec.readAligned_calm _ _ _ _ _ d
      · exact BitCodec.readAligned_calm _ _ _ _ _ _
    · split
      · exact (pad8_calm s).bind fun d => readBytes_calm _ _ d
      · exact readBytes_calm _ _ _
  | item f k =>
    simp only [Access.get, ArrayField.getItem, ArrayCodec.getRaw, ArrayCodec.range]
    refine (slice_calm _ _ _).bind fun s => Res.Calm.bind (Res.Calm.bind (fun _ => mulU_ne_err) fun _ =>
      Res.Calm.bind (fun _ => addU_ne_err) fun _ => Res.calm_ok _) fun _ => (slice_calm _ _ _).bind fun s =>
        ByteCodec.read_calm _ _ _
  | nested loc rest ih => exact (slice_calm _ _ _).bind fun s => ih s

theorem Discriminant.read_calm (p : Profile) (d : Discriminant) (env : Env) (on : Name) : (d.read p env on).Calm := by
  unfold Discriminant.read
  split
  · exact Access.get_calm _ _ _
  · intro e h
    cases h

theorem Union.parseCases_short {c : Ctx} {n : Nat} {cs : List UCase}
    (hcs : ∀ k ∈ cs, ∀ r, k.itemType = some r → (r.parse c).Short n) (i d : Nat) :
    (Union.parseCases c cs i d).Short n := by
  induction cs generalizing i with
  | nil =>
    intro b h
    cases h
  | cons k0 cs ih =>
    have ih := ih (fun k hk => hcs k (List.mem_cons_of_mem _ hk)) (i + 1)
    obtain ⟨_, case, _ | r0⟩ := k0
    · intro b h
      simp only [Union.parseCases] at h
      split at h
      · cases h
      · exact ih b h
    · intro b h
      simp only [Union.parseCases] at h
      split at h
      · exact (hcs _ List.mem_cons_self r0 rfl).map b h
      · exact ih b h

theorem shortInd (c : Ctx) : SchemaInd (fun m => ∀ n, m.most c.emb = some n → (m.parse c).Short n)
    (fun t => ∀ emb n, t.most c.emb emb = some n → ∀ e env, (t.parse c emb e env).Short n) where
  fixed ty emb n hn e env := by
    simp only [MFieldTy.most, Option.some.injEq] at hn
    simp only [MFieldTy.parse]
    exact hn ▸ (Scalar.short e _).map
  struct s emb n hn e env := by
    simp only [MFieldTy.most, Referenced.most, Option.some.injEq] at hn
    simp only [MFieldTy.parse, Referenced.parse]
    exact hn ▸ s.short
  message m h emb n hn e env := by
    simp only [MFieldTy.most, Referenced.most] at hn
    simpa only [MFieldTy.parse, Referenced.parse] using h n hn
  nul emb n hn := by simp [MFieldTy.most] at hn
  varchar ty emb n hn e env := by
    simp only [MFieldTy.most, Option.some.injEq] at hn
    simp only [MFieldTy.parse]
    refine ((Varchar.short _ _ _).mono ?_).map
    have : ty.byteSize ≤ 8 := by cases ty <;> decide
    omega
  array ty s emb n hn e env := by
    simp only [MFieldTy.most, Option.some.injEq] at hn
    simp only [MFieldTy.parse]
    exact hn ▸ (Arr.short _ _ _ (by cases ty <;> decide)).map
  union n d cs sz on i h emb x hx e env := by
    simp only [MFieldTy.most, Union.most] at hx
    simp only [MFieldTy.parse]
    intro b hb
    simp only [Union.parse] at hb
    rcases Res.bind_eq_err.1 hb with h1 | ⟨y, _, h1⟩
    · exact absurd h1 (Discriminant.read_calm _ _ _ _ _)
    refine Union.parseCases_short (fun k hk r hr => ?_) 0 y b h1
    obtain ⟨z, hz, hle⟩ := UCase.listMost_mem hx k hk r hr
    have := h k hk r hr emb z (by simpa only [MFieldTy.most] using hz) e env
    simp only [MFieldTy.parse] at this
    exact this.mono hle
  list ty m h emb n hn e env := by
    simp only [MFieldTy.most] at hn
    simp only [MFieldTy.parse]
    cases emb with
    | false => simp at hn
    | true =>
      simp only [if_true, Option.map_eq_some_iff] at hn ⊢
      obtain ⟨x, hx, rfl⟩ := hn
      refine Parser.Short.map fun b hb => ?_
      rw [Lst.fromSlice_eq (Message.cut c m)] at hb
      split at hb
      · next hl =>
        rcases Res.bind_eq_err.1 hb with h1 | ⟨j, _, h1⟩
        · have h2 := Lst.scanR_short (h x hx) ((mostInd c).all m x hx) h1
          have h3 : intOfWire e (b.take ty.byteSize) < 256 ^ ty.byteSize := prefix_lt hl
          have h4 : intOfWire e (b.take ty.byteSize) * x ≤ (256 ^ ty.byteSize - 1) * x :=
            Nat.mul_le_mul_right _ (by omega)
          rw [List.length_drop] at h2
          omega
        · cases h1
      · omega
  payload emb n hn := by simp [MFieldTy.most] at hn
  msg id nm fs sz h n hn := by
    have hmost := (mostInd c).ty
    simp only [Message.most] at hn
    intro b hb
    rw [Message.parse_eq] at hb
    rcases Res.bind_eq_err.1 hb with h1 | ⟨r, _, h1⟩
    · refine runFields_short (fun f hf x hx env => ?_) hn h1
      have a1 := h f hf (c.emb id) x hx f.endian env
      have a2 := hmost f.ty (c.emb id) x hx f.endian env
      obtain ⟨_, ty, o, _, e⟩ := f
      simp only [MField.parse, MField.optional, Message.id]
      cases o with
      | true => exact ⟨(Optional.atMost a2).map, (Optional.short a1).map⟩
      | false => simpa [MField.ty] using ⟨a2, a1⟩
    · cases h1

theorem byte_ne_last {n : Nat} (h : n < 255) : UInt8.ofNat n ≠ 255 := by
  intro he
  have := congrArg UInt8.toNat he
  simp at this
  omega

theorem utf8_head (x : Char) : (String.utf8EncodeChar x).head? ≠ some 255 := by
  unfold String.utf8EncodeChar
  simp only
  split
  · simp only [List.head?_cons, ne_eq, Option.some.injEq]
    exact byte_ne_last (by omega)
  · split
    · simp only [List.head?_cons, ne_eq, Option.some.injEq]
      exact byte_ne_last (by omega)
    · split
      · simp only [List.head?_cons, ne_eq, Option.some.injEq]
        exact byte_ne_last (by omega)
      · simp only [List.head?_cons, ne_eq, Option.some.injEq]
        exact byte_ne_last (by omega)

namespace Props

/-! ## C118 -/

/-- C118: in a self-delimiting message without unions and without strings that end with a zero, whose
arrays have sizes that are machine words, what is reported as too short can be completed, exactly. -/
theorem C118_completable (c : Ctx) {m : Message} (hd : m.delimited c.emb = true)
    (ha : m.allFields MField.completable = true) {b : Bytes} (h : m.parse c b = .err .truncated) :
    ∃ t v, m.parse c (b ++ t) = .ok ⟨b.length + t.length, v⟩ := by
  obtain ⟨t, v, ht⟩ := ((finishInd c).all m hd ha).exact (Message.cut c m) (Message.delimits hd) h
  exact ⟨t, v, by rw [ht, List.length_append]⟩

/-- A list of records with an optional string with a prefix. -/
def Ex.record : Message :=
  .mk 21 "Record".toList
    [ .mk "x".toList (.fixed .u16) false ⟨false, false⟩ .big,
      .mk "s".toList (.varcharString .u64) true ⟨true, false⟩ .big ] ⟨true, false⟩
def Ex.records : Message :=
  .mk 20 "Records".toList [.mk "l".toList (.list .u8 Ex.record) false ⟨true, true⟩ .little] ⟨true, true⟩

/-- Two records announced, one there, of the other the first two bytes of the length of its string. -/
example : ∃ t v, Ex.records.parse Ex.ctx ([2, 7, 7, 0, 8, 8, 1, 255, 255] ++ t) = .ok ⟨9 + t.length, v⟩ :=
  C118_completable Ex.ctx (by decide) (by decide) (by krfl)

/-- C118: there the error of a short input is exactly the error that more bytes can cure. -/
theorem C118_curable (c : Ctx) {m : Message} (hd : m.delimited c.emb = true)
    (ha : m.allFields MField.completable = true) {b : Bytes} {e : Error} (h : m.parse c b = .err e) :
    (∃ t r, m.parse c (b ++ t) = .ok r) ↔ e = .truncated := by
  constructor
  · rintro ⟨t, r, hr⟩
    refine Classical.byContradiction fun hne => ?_
    rw [C110_final c hd h hne t] at hr
    cases hr
  · rintro rfl
    obtain ⟨t, v, ht⟩ := C118_completable c hd ha h
    exact ⟨t, _, ht⟩

example : ¬∃ t r, Ex.records.parse Ex.ctx ([1, 7, 7, 1, 0, 0, 0, 0, 0, 0, 0, 1, 255] ++ t) = .ok r := fun h => by
  have := (C118_curable Ex.ctx (by decide) (by decide) (e := .invalidUtf8) (by krfl)).1 h
  cases this

/-- C118: an input as long as the greatest size is never reported as too short, also with unions. -/
theorem C118_enough (c : Ctx) {m : Message} {max : Nat} (hm : m.most c.emb = some max) {b : Bytes}
    (hb : max ≤ b.length) : m.parse c b ≠ .err .truncated :=
  fun h => absurd ((shortInd c).all m max hm b h) (by omega)

example {b : Bytes} (hb : 515 ≤ b.length) : Ex.keyed.parse Ex.ctx b ≠ .err .truncated :=
  C118_enough Ex.ctx (max := 515) (by decide +kernel) hb

/-- C118: a string that ends with a zero is waited for although what is there is the beginning of no
text. -/
theorem C118_text (c : Ctx) (id : Nat) (name field : Name) (s1 s2 : SizeInfo) (e : Endian) (fs : List MField)
    {b : Bytes} (h0 : 0 ∉ b) (hu : ¬∃ t, IsUtf8 (b ++ t)) :
    (Message.mk id name (.mk field .nullTerminatedString false s1 e :: fs) s2).parse c b = .err .truncated ∧
      ∀ t r, (Message.mk id name (.mk field .nullTerminatedString false s1 e :: fs) s2).parse c (b ++ t) ≠ .ok r := by
  constructor
  · rw [Message.parse_eq]
    have : MField.parse c (c.emb id) (.mk field .nullTerminatedString false s1 e) [] b = .err .truncated := by
      simp only [MField.parse, MFieldTy.parse, Bool.false_eq_true, if_false]
      exact Parser.map_eq_err.2 ((C19_truncated b).2 h0)
    simp only [Message.id, Message.fields, runFields, this]
    rfl
  · rintro t ⟨n, v⟩ h
    obtain ⟨env, _, h⟩ := Message.parse_eq_ok.1 h
    obtain ⟨k, w, j, h1, _, _⟩ := runFields_cons_ok.1 h
    simp only [MField.parse, MFieldTy.parse, Bool.false_eq_true, if_false] at h1
    obtain ⟨s, h1, _⟩ := Parser.map_eq_ok.1 h1
    obtain ⟨t', he, h2, h3, _⟩ := NullTerminated.fromSlice_eq_ok.1 h1
    refine hu ⟨s.drop b.length, ?_⟩
    have hle : b.length ≤ s.length := by
      refine Nat.le_of_not_lt fun hlt => h0 ?_
      have : (b ++ t)[s.length]? = some 0 := by rw [he]; simp
      rw [List.getElem?_append_left hlt] at this
      exact List.mem_of_getElem? this
    have : b = s.take b.length := by
      have := congrArg (List.take b.length) he
      rwa [List.take_left, List.take_append_of_le_length hle] at this
    have hs : b ++ s.drop b.length = s := by
      conv => lhs; lhs; rw [this]
      rw [List.take_append_drop]
    rw [hs]
    exact (validUtf8_iff s).1 h3

/-- No text begins with the byte 255. -/
theorem Ex.no_text : ¬∃ t, IsUtf8 ([255] ++ t) := by
  rintro ⟨t, cs, h⟩
  cases cs with
  | nil => cases h
  | cons x cs =>
    have hh := utf8_head x
    rw [List.flatMap_cons] at h
    cases hx : String.utf8EncodeChar x with
    | nil => exact String.utf8EncodeChar_ne_nil hx
    | cons y ys =>
      rw [hx] at h hh
      cases h
      exact hh rfl

def Ex.named : Message :=
  .mk 40 "Named".toList
    [ .mk "n".toList .nullTerminatedString false ⟨true, false⟩ .little,
      .mk "x".toList (.fixed .u8) false ⟨false, false⟩ .little ] ⟨true, false⟩

example : Ex.named.parse Ex.ctx [255] = .err .truncated ∧ ∀ t r, Ex.named.parse Ex.ctx ([255] ++ t) ≠ .ok r :=
  C118_text Ex.ctx 40 "Named".toList "n".toList ⟨true, false⟩ ⟨true, false⟩ .little _ (by decide) Ex.no_text

/-- A union that does not come right after its key. -/
def Ex.late : Message :=
  .mk 41 "Late".toList
    [ .mk "k".toList (.ref (.struct Ex.keyS)) false ⟨false, false⟩ .little,
      .mk "x".toList (.fixed .u8) false ⟨false, false⟩ .little,
      .mk "u".toList (.union Ex.choice "k".toList 0) false ⟨true, false⟩ .little ] ⟨true, false⟩

/-- The key of no case is there, and the field before the union waited for. -/
example : Ex.late.parse Ex.ctx [200, 9] = .err .truncated ∧ ∀ t r, Ex.late.parse Ex.ctx ([200, 9] ++ t) ≠ .ok r := by
  refine ⟨by krfl, fun t r => ?_⟩
  cases t with
  | nil => intro h; rw [show Ex.late.parse Ex.ctx ([200, 9] ++ []) = .err .truncated by krfl] at h; cases h
  | cons y t =>
    have h : Ex.late.parse Ex.ctx [200, 9, y] = .err (.invalidUnionDiscriminant 200) := by rfl
    have := C110_final Ex.ctx (by decide) h (by simp) t
    intro hr
    rw [show ([200, 9] ++ y :: t : Bytes) = [200, 9, y] ++ t from rfl, this] at hr
    cases hr

end Props

end Proto
