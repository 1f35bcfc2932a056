import Verif.Gen.Totality

/-!
# The inputs on which decoders panic
-/

namespace Proto

open Spec

/-- The decoder panics exactly on the inputs `bad`, among those a machine can hold. -/
def Parser.PanicsOn (f : Parser α) (bad : Bytes → Prop) : Prop :=
  ∀ b, b.length < 2 ^ 64 → (f b = .panic ↔ bad b)

theorem Parser.PanicsOn.map {f : Parser α} {bad : Bytes → Prop} (h : f.PanicsOn bad) {g : α → β} :
    (f.map g).PanicsOn bad := by
  intro b hb
  rw [← h b hb]
  unfold Parser.map
  cases f b <;> simp [Res.bind]

theorem Parser.Total.panicsOn {f : Parser α} (h : f.Total) : f.PanicsOn fun _ => False :=
  fun b _ => ⟨fun e => h b e, False.elim⟩

theorem intOfWire_take_lt (e : Endian) {sz : Nat} {b : Bytes} (h : sz ≤ b.length) (hsz : sz ≤ 8) :
    intOfWire e (b.take sz) < 2 ^ 64 := by
  have := intOfWire_lt e (b.take sz)
  have e1 : (b.take sz).length = sz := by simp; omega
  rw [e1] at this
  calc _ < 256 ^ sz := this
    _ ≤ 256 ^ 8 := Nat.pow_le_pow_right (by omega) hsz
    _ = 2 ^ 64 := by decide

theorem Varchar.panicsOn (p : Profile) (e : Endian) {sz : Nat} (hsz : sz ≤ 8) :
    (Varchar.fromSlice p e sz).PanicsOn fun b =>
      sz ≤ b.length ∧ b.length < sz + intOfWire e (b.take sz) := by
  intro b hb
  constructor
  · intro h
    by_cases h1 : sz ≤ b.length
    · refine ⟨h1, Nat.lt_of_not_le fun h2 => ?_⟩
      unfold Varchar.fromSlice at h
      rw [Scalar.fromSlice_eq, if_pos h1] at h
      simp only [Res.bind_ok] at h
      rw [addU_ok p (show _ < 2 ^ usizeBits by unfold usizeBits; omega)] at h
      simp only [Res.bind_ok] at h
      rw [slice_ok (by omega) (by omega)] at h
      simp only [Res.bind_ok] at h
      split at h <;> cases h
    · unfold Varchar.fromSlice at h
      rw [Scalar.fromSlice_eq, if_neg h1] at h
      cases h
  · rintro ⟨h1, h2⟩
    exact Varchar.fromSlice_short h1 h2 hsz

theorem Arr.panicsOn (p : Profile) (e : Endian) {sz : Nat} (isz : Nat) (hsz : sz ≤ 8) :
    (Arr.fromSlice p e sz isz).PanicsOn fun b =>
      sz ≤ b.length ∧ SizeLost p sz isz (intOfWire e (b.take sz)) := by
  intro b hb
  unfold Arr.fromSlice
  by_cases h1 : sz ≤ b.length
  · rw [Scalar.fromSlice_eq, if_pos h1]
    simp only [Res.bind_ok, h1, true_and]
    generalize hn : intOfWire e (b.take sz) = n
    cases p with
    | checked =>
      have hmul : (mulU .checked usizeBits n isz : R Nat) =
        if n * isz < 2 ^ 64 then .ok (n * isz) else .panic := rfl
      have hadd : ∀ k, (addU .checked usizeBits sz k : R Nat) =
        if sz + k < 2 ^ 64 then .ok (sz + k) else .panic := fun _ => rfl
      simp only [SizeLost, hmul, hadd]
      by_cases h2 : n * isz < 2 ^ 64
      · rw [if_pos h2]
        simp only [Res.bind_ok]
        by_cases h3 : sz + n * isz < 2 ^ 64
        · rw [if_pos h3]
          simp only [Res.bind_ok]
          by_cases h4 : b.length < sz + n * isz
          · rw [if_pos h4]
            simp only [reduceCtorEq, false_iff]
            omega
          · rw [if_neg h4, slice_ok (by omega) (by omega)]
            simp only [Res.bind_ok, Res.pure_eq, reduceCtorEq, false_iff]
            omega
        · rw [if_neg h3]
          simp only [Res.bind_panic, true_iff]
          omega
      · rw [if_neg h2]
        simp only [Res.bind_panic, true_iff]
        omega
    | wrapping =>
      have hmul : (mulU .wrapping usizeBits n isz : R Nat) = .ok (n * isz % 2 ^ 64) := by
        unfold mulU usizeBits
        split
        · next h => rw [Nat.mod_eq_of_lt h]
        · rfl
      have hadd : ∀ k, (addU .wrapping usizeBits sz k : R Nat) = .ok ((sz + k) % 2 ^ 64) := by
        intro k
        unfold addU usizeBits
        split
        · next h => rw [Nat.mod_eq_of_lt h]
        · rfl
      simp only [SizeLost, hmul, hadd, Res.bind_ok]
      have hm := Nat.mod_lt (n * isz) (show 0 < 2 ^ 64 by omega)
      generalize n * isz % 2 ^ 64 = body at hm ⊢
      by_cases h3 : sz + body < 2 ^ 64
      · rw [Nat.mod_eq_of_lt h3]
        by_cases h4 : b.length < sz + body
        · rw [if_pos h4]
          simp only [reduceCtorEq, false_iff]
          omega
        · rw [if_neg h4, slice_ok (by omega) (by omega)]
          simp only [Res.bind_ok, Res.pure_eq, reduceCtorEq, false_iff]
          omega
      · have e1 : (sz + body) % 2 ^ 64 = sz + body - 2 ^ 64 := by omega
        rw [e1, if_neg (by omega)]
        unfold slice
        rw [if_neg (by omega)]
        simp only [Res.bind_panic, true_iff]
        omega
  · rw [Scalar.fromSlice_eq, if_neg h1]
    simp [h1]

theorem Lst.scanR_panics {f : Parser α} {bad : Bytes → Prop} (h : f.PanicsOn bad) {n : Nat} {b : Bytes}
    (hb : b.length < 2 ^ 64) : scanR f n b = .panic ↔ f.Reaches bad n b := by
  induction n generalizing b with
  | zero => simp [scanR, Parser.Reaches]
  | succ n ih =>
    simp only [scanR, Parser.Reaches]
    rw [← h b hb]
    cases hf : f b with
    | err e => simp
    | panic => simp
    | ok m =>
      obtain ⟨m, v⟩ := m
      have ih := ih (b := b.drop m) (by simp; omega)
      simp only [reduceCtorEq, Res.ok.injEq, Msg.mk.injEq, false_or]
      constructor
      · intro h
        refine ⟨m, v, ⟨rfl, rfl⟩, ih.1 ?_⟩
        cases hs : scanR f n (b.drop m) with
        | panic => rfl
        | ok k => rw [hs] at h; cases h
        | err k => rw [hs] at h; cases h
      · rintro ⟨_, _, ⟨rfl, rfl⟩, hr⟩
        rw [ih.2 hr]

theorem Lst.panicsOn {f : Parser α} {bad : Bytes → Prop} (hc : f.Cut) (h : f.PanicsOn bad) (e : Endian)
    (sz : Nat) : (Lst.fromSlice e sz f).PanicsOn fun b =>
      sz ≤ b.length ∧ f.Reaches bad (intOfWire e (b.take sz)) (b.drop sz) := by
  intro b hb
  unfold Lst.fromSlice
  by_cases h1 : sz ≤ b.length
  · rw [Scalar.fromSlice_eq, if_pos h1]
    simp only [Res.bind_ok, dropFrom_ok h1, h1, true_and]
    rw [scan_eq_scanR hc _ _ _ (by omega), List.drop_zero]
    rw [← Lst.scanR_panics h (show (b.drop sz).length < 2 ^ 64 by simp; omega)]
    cases hs : scanR f (intOfWire e (b.take sz)) (b.drop sz) with
    | panic => exact iff_of_true rfl rfl
    | err e => exact iff_of_false (fun h => by cases h) (fun h => by cases h)
    | ok k =>
      have := scanR_le hc hs
      simp only [List.length_drop] at this
      simp only [Res.bind, Res.bind_ok, Nat.zero_add]
      rw [slice_ok (by omega) (by omega)]
      simp
  · rw [Scalar.fromSlice_eq, if_neg h1]
    simp [h1]

theorem Optional.panicsOn {f : Parser α} {bad : Bytes → Prop} (h : f.PanicsOn bad) :
    (Optional.fromSlice f).PanicsOn fun b => ∃ flag rest, b = flag :: rest ∧ flag ≠ 0 ∧ bad rest := by
  intro b hb
  cases b with
  | nil => simp [Optional.fromSlice]
  | cons flag rest =>
    simp only [Optional.fromSlice]
    have h0 : flag.toNat > 0 ↔ flag ≠ 0 := by
      refine Iff.trans (Nat.pos_iff_ne_zero (n := flag.toNat)) ?_
      exact not_congr ⟨fun h => UInt8.toNat_inj.1 (by simpa using h), fun h => by simp [h]⟩
    by_cases hf : flag ≠ 0
    · rw [if_pos (h0.2 hf)]
      have := h rest (by simp at hb; omega)
      cases hr : f rest with
      | panic =>
        simp only [Res.bind_panic, true_iff]
        exact ⟨flag, rest, rfl, hf, this.1 hr⟩
      | err e =>
        simp only [Res.bind_err, reduceCtorEq, false_iff]
        rintro ⟨_, _, heq, _, hbad⟩
        cases heq
        rw [this.2 hbad] at hr
        cases hr
      | ok m =>
        simp only [Res.bind_ok, Res.pure_eq, reduceCtorEq, false_iff]
        rintro ⟨_, _, heq, _, hbad⟩
        cases heq
        rw [this.2 hbad] at hr
        cases hr
    · rw [if_neg (fun e => hf (h0.1 e))]
      simp only [reduceCtorEq, false_iff]
      rintro ⟨_, _, heq, hne, _⟩
      cases heq
      exact hf hne

theorem Union.cases_panicsOn {c : Ctx} {cs : List UCase}
    (h : ∀ k ∈ cs, ∀ r, k.itemType = some r → (r.parse c).PanicsOn (r.Stuck c)) (i d : Nat) :
    (Union.parseCases c cs i d).PanicsOn (UCase.ListStuck c cs d) := by
  induction cs generalizing i with
  | nil => intro b _; simp [Union.parseCases, UCase.ListStuck]
  | cons k cs ih =>
    have ih' := fun i => ih (fun k hk => h k (by simp [hk])) i
    obtain ⟨n, v, t⟩ := k
    intro b hb
    cases t with
    | none =>
      simp only [Union.parseCases, UCase.ListStuck]
      by_cases hd : d = v
      · simp [hd]
      · simp only [hd, if_false, not_false_eq_true, true_and, ne_eq]
        exact ih' _ b hb
    | some r =>
      simp only [Union.parseCases, UCase.ListStuck]
      by_cases hd : d = v
      · simp only [hd, if_true, true_and, ne_eq, not_true, false_and, or_false]
        exact (h (.mk n v (some r)) (by simp) r rfl).map b hb
      · simp only [hd, if_false, not_false_eq_true, true_and, ne_eq, false_and, false_or]
        exact ih' _ b hb

theorem runFields_panics {c : Ctx} {emb : Bool} {fs : List MField}
    (h : ∀ f ∈ fs, ∀ env, (f.parse c emb env).PanicsOn (f.Stuck c emb env)) {env : Env} {b : Bytes}
    (hb : b.length < 2 ^ 64) :
    runFields (MField.parse c emb) fs env b = .panic ↔ MField.ListStuck c emb fs env b := by
  induction fs generalizing env b with
  | nil => simp [runFields, MField.ListStuck]
  | cons f fs ih =>
    simp only [runFields, MField.ListStuck]
    rw [← h f (by simp) env b hb]
    cases hf : f.parse c emb env b with
    | err e => simp
    | panic => simp
    | ok m =>
      obtain ⟨m, v⟩ := m
      have ih := ih (fun f hf => h f (by simp [hf])) (env := env ++ [(f.name, v)]) (b := b.drop m)
        (by simp; omega)
      simp only [reduceCtorEq, Res.ok.injEq, Msg.mk.injEq, false_or]
      constructor
      · intro h
        refine ⟨m, v, ⟨rfl, rfl⟩, ih.1 ?_⟩
        cases hs : runFields (MField.parse c emb) fs (env ++ [(f.name, v)]) (b.drop m) with
        | panic => rfl
        | ok k => rw [hs] at h; cases h
        | err k => rw [hs] at h; cases h
      · rintro ⟨_, _, ⟨rfl, rfl⟩, hr⟩
        rw [ih.2 hr]

theorem stuckInd (c : Ctx) : SchemaInd (fun m => (m.parse c).PanicsOn (m.Stuck c))
    (fun t => ∀ emb e env, (t.parse c emb e env).PanicsOn (t.Stuck c emb e env)) where
  fixed ty emb e env := by
    simp only [MFieldTy.parse, MFieldTy.Stuck]
    exact ((Scalar.total e _).panicsOn).map
  struct s emb e env := by
    simp only [MFieldTy.parse, Referenced.parse, MFieldTy.Stuck, Referenced.Stuck]
    exact s.total.panicsOn
  message m h emb e env := by
    simp only [MFieldTy.parse, Referenced.parse, MFieldTy.Stuck, Referenced.Stuck]
    exact h
  nul emb e env := by
    simp only [MFieldTy.parse, MFieldTy.Stuck]
    exact NullTerminated.total.panicsOn.map
  varchar ty emb e env := by
    simp only [MFieldTy.parse, MFieldTy.Stuck]
    exact (Varchar.panicsOn c.p e (by cases ty <;> decide)).map
  array ty s emb e env := by
    simp only [MFieldTy.parse, MFieldTy.Stuck]
    exact (Arr.panicsOn c.p e s.byteSize (by cases ty <;> decide)).map
  union n d cs sz on i h emb e env := by
    intro b hb
    simp only [MFieldTy.parse, MFieldTy.Stuck, Union.parse, Union.Stuck]
    have h' : ∀ k ∈ cs, ∀ r, k.itemType = some r → (r.parse c).PanicsOn (r.Stuck c) := by
      intro k hk r hr
      simpa only [MFieldTy.parse, MFieldTy.Stuck] using h k hk r hr emb e env
    cases hr : d.read c.p env on with
    | panic => simp
    | err x => simp
    | ok v =>
      simp only [Res.bind_ok, reduceCtorEq, Res.ok.injEq, false_or, exists_eq_left']
      exact Union.cases_panicsOn h' 0 v b hb
  list ty m h emb e env := by
    simp only [MFieldTy.parse, MFieldTy.Stuck]
    cases emb with
    | true =>
      simp only [if_true, true_and]
      exact (Lst.panicsOn (Message.cut c m) h e _).map
    | false =>
      simp only [Bool.false_eq_true, if_false, false_and]
      exact (Lst.unsized_total e _).panicsOn.map
  payload emb e env := by
    simp only [MFieldTy.parse, MFieldTy.Stuck]
    exact Parser.Total.panicsOn (Parser.Total.map (fun b => by simp [Buffer.fromSlice]))
  msg id n fs sz h b hb := by
    rw [Message.parse_eq]
    simp only [Message.id, Message.fields, Message.Stuck]
    rw [← runFields_panics (c := c) (emb := c.emb id) (fs := fs) (fun f hf env => ?_) hb]
    · cases runFields (MField.parse c (c.emb id)) fs [] b <;> simp [Res.bind]
    · obtain ⟨n, ty, o, sz, e⟩ := f
      have ht := h _ hf (c.emb id) e env
      intro b hb
      simp only [MField.parse, MField.Stuck]
      cases o with
      | true => exact (Optional.panicsOn ht).map b hb
      | false => exact ht b hb

theorem Message.panicsOn (c : Ctx) (m : Message) : (m.parse c).PanicsOn (m.Stuck c) := (stuckInd c).all m

end Proto
