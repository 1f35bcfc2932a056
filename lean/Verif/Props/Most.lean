import Verif.Props.Count
import Verif.Spec.Most

/-!
# C109: how long encoded messages are at most
-/

namespace Proto

open Spec

/-- Whatever is decoded takes `n` bytes or less. -/
def Parser.AtMost (f : Parser α) (n : Nat) : Prop := ∀ b k v, f b = .ok ⟨k, v⟩ → k ≤ n

theorem Parser.AtMost.map {f : Parser α} {n : Nat} (h : f.AtMost n) {g : α → β} : (f.map g).AtMost n := by
  intro b k w hw
  obtain ⟨v, h1, _⟩ := Parser.map_eq_ok.1 hw
  exact h _ _ _ h1

theorem Parser.AtMost.mono {f : Parser α} {n m : Nat} (h : f.AtMost n) (hm : n ≤ m) : f.AtMost m :=
  fun b k v hk => Nat.le_trans (h b k v hk) hm

theorem Limit.add_eq {a b : Option Nat} {n : Nat} :
    Limit.add a b = some n ↔ ∃ x y, a = some x ∧ b = some y ∧ n = x + y := by
  cases a <;> cases b <;> simp [Limit.add, eq_comm]

theorem Limit.max_eq {a b : Option Nat} {n : Nat} :
    Limit.max a b = some n ↔ ∃ x y, a = some x ∧ b = some y ∧ n = Nat.max x y := by
  cases a <;> cases b <;> simp [Limit.max, eq_comm]

theorem Limit.add_none {a b : Option Nat} : Limit.add a b = none ↔ a = none ∨ b = none := by
  cases a <;> cases b <;> simp [Limit.add]

theorem UCase.listMost_mem {emb : Nat → Bool} {cs : List UCase} {n : Nat} (h : UCase.listMost emb cs = some n) :
    ∀ k ∈ cs, ∀ r, k.itemType = some r → ∃ x, r.most emb = some x ∧ x ≤ n := by
  induction cs generalizing n with
  | nil => simp
  | cons k cs ih =>
    intro k' hk r hr
    obtain ⟨_, _, _ | r0⟩ := k
    · simp only [UCase.listMost] at h
      rcases List.mem_cons.1 hk with rfl | hk
      · cases hr
      · exact ih h k' hk r hr
    · simp only [UCase.listMost] at h
      obtain ⟨x, y, hx, hy, rfl⟩ := Limit.max_eq.1 h
      rcases List.mem_cons.1 hk with rfl | hk
      · obtain rfl := Option.some.inj hr
        exact ⟨x, hx, Nat.le_max_left _ _⟩
      · obtain ⟨z, hz, hle⟩ := ih hy k' hk r hr
        exact ⟨z, hz, Nat.le_trans hle (Nat.le_max_right _ _)⟩

theorem Union.parseCases_most {c : Ctx} {x : Nat} {cs : List UCase}
    (hcs : ∀ k ∈ cs, ∀ r, k.itemType = some r → (r.parse c).AtMost x) (i d : Nat) :
    (Union.parseCases c cs i d).AtMost x := by
  induction cs generalizing i with
  | nil =>
    intro b k v h
    simp only [Union.parseCases] at h
    cases h
  | cons k0 cs ih =>
    have ih := ih (fun k hk => hcs k (List.mem_cons_of_mem _ hk)) (i + 1)
    obtain ⟨_, case, _ | r0⟩ := k0
    · intro b k v h
      simp only [Union.parseCases] at h
      split at h
      · cases h; exact Nat.zero_le _
      · exact ih b k v h
    · intro b k v h
      simp only [Union.parseCases] at h
      split at h
      · exact (hcs _ List.mem_cons_self r0 rfl).map b k v h
      · exact ih b k v h

theorem runFields_most {step : MField → Env → Parser Value} {emb : Nat → Bool} {here : Bool} {fs : List MField}
    (h : ∀ f ∈ fs, ∀ n, f.ty.most emb here = some n →
      ∀ env, (step f env).AtMost ((if f.optional then 1 else 0) + n)) {env env' : Env} {b : Bytes}
    {n m : Nat} (hm : MField.listMost emb here fs = some m) (hr : runFields step fs env b = .ok (n, env')) :
    n ≤ m := by
  induction fs generalizing env b n m with
  | nil =>
    simp only [runFields, Res.ok.injEq, Prod.mk.injEq] at hr
    omega
  | cons f fs ih =>
    obtain ⟨k, v, j, h1, h2, rfl⟩ := runFields_cons_ok.1 hr
    obtain ⟨nm, ty, o, si, e⟩ := f
    simp only [MField.listMost] at hm
    obtain ⟨x, y, hx, hy, rfl⟩ := Limit.add_eq.1 hm
    obtain ⟨x1, x2, hx1, hx2, rfl⟩ := Limit.add_eq.1 hx
    obtain rfl := Option.some.inj hx1
    have h3 := h _ List.mem_cons_self x2 hx2 env b k v h1
    have h4 := ih (fun f hf => h f (List.mem_cons_of_mem _ hf)) hy h2
    cases o <;> simp [MField.optional] at h3 ⊢ <;> omega

theorem Optional.atMost {f : Parser α} {n : Nat} (h : f.AtMost n) : (Optional.fromSlice f).AtMost (1 + n) := by
  intro b k v hk
  rcases Optional.fromSlice_eq_ok.1 hk with ⟨_, _, rfl, _⟩ | ⟨_, _, m, _, _, _, hm, rfl, _⟩
  · omega
  · have := h _ _ _ hm
    omega

theorem Lst.scanR_most {f : Parser α} {n : Nat} (hf : f.AtMost n) {count : Nat} {b : Bytes} {k : Nat}
    (h : scanR f count b = .ok k) : k ≤ count * n := by
  induction count generalizing b k with
  | zero => simp only [scanR] at h; cases h; omega
  | succ count ih =>
    simp only [scanR] at h
    split at h
    · next m hm =>
      split at h
      · next j hj =>
        cases h
        have h1 := hf b m.size m.data hm
        have h2 := ih hj
        rw [Nat.succ_mul]
        omega
      · cases h
      · cases h
    · cases h
    · cases h

theorem addU_most {p : Profile} {a b n : Nat} (h : (addU p usizeBits a b : R Nat) = .ok n) :
    n ≤ a + b ∧ n < 2 ^ 64 := by
  unfold addU at h
  by_cases hl : a + b < 2 ^ usizeBits
  · rw [if_pos hl] at h
    cases h
    exact ⟨Nat.le_refl _, hl⟩
  · rw [if_neg hl] at h
    cases p with
    | checked => cases h
    | wrapping =>
      cases h
      exact ⟨Nat.mod_le _ _, Nat.mod_lt _ (Nat.pow_pos (by omega))⟩

theorem mulU_most {p : Profile} {a b n : Nat} (h : (mulU p usizeBits a b : R Nat) = .ok n) : n ≤ a * b := by
  unfold mulU at h
  by_cases hl : a * b < 2 ^ usizeBits
  · rw [if_pos hl] at h
    cases h
    exact Nat.le_refl _
  · rw [if_neg hl] at h
    cases p with
    | checked => cases h
    | wrapping =>
      cases h
      exact Nat.mod_le _ _

theorem prefix_lt {e : Endian} {sz : Nat} {b : Bytes} (h : sz ≤ b.length) : intOfWire e (b.take sz) < 256 ^ sz := by
  have := intOfWire_lt e (b.take sz)
  rwa [List.length_take, Nat.min_eq_left h] at this

theorem mostInd (c : Ctx) : SchemaInd (fun m => ∀ n, m.most c.emb = some n → (m.parse c).AtMost n)
    (fun t => ∀ emb n, t.most c.emb emb = some n → ∀ e env, (t.parse c emb e env).AtMost n) where
  fixed ty emb n hn e env := by
    simp only [MFieldTy.most, Option.some.injEq] at hn
    simp only [MFieldTy.parse]
    refine Parser.AtMost.map fun b k v h => ?_
    obtain ⟨_, h⟩ := Scalar.fromSlice_eq_ok.1 h
    cases h
    omega
  struct s emb n hn e env := by
    simp only [MFieldTy.most, Referenced.most, Option.some.injEq] at hn
    simp only [MFieldTy.parse, Referenced.parse]
    intro b k v h
    simp only [Structure.parse] at h
    split at h
    · cases h
    · obtain ⟨x, _, h⟩ := Res.bind_eq_ok.1 h
      cases h
      omega
  message m h emb n hn e env := by
    simp only [MFieldTy.most, Referenced.most] at hn
    simpa only [MFieldTy.parse, Referenced.parse] using h n hn
  nul emb n hn := by simp [MFieldTy.most] at hn
  varchar ty emb n hn e env := by
    simp only [MFieldTy.most, Option.some.injEq] at hn
    simp only [MFieldTy.parse]
    refine Parser.AtMost.map fun b k v h => ?_
    obtain ⟨_, rfl, h1, h2, _⟩ := (Varchar.fromSlice_eq_ok (by cases ty <;> decide)).1 h
    omega
  array ty s emb n hn e env := by
    simp only [MFieldTy.most, Option.some.injEq] at hn
    simp only [MFieldTy.parse]
    refine Parser.AtMost.map fun b k v h => ?_
    obtain ⟨body, h1, h2, h3, h4, h5, h6, _⟩ := Arr.fromSlice_eq_ok.1 h
    have h7 : v.len < 256 ^ ty.byteSize := by rw [h2]; exact prefix_lt h1
    have h8 : v.len * s.byteSize ≤ (256 ^ ty.byteSize - 1) * s.byteSize := Nat.mul_le_mul_right _ (by omega)
    have h9 := mulU_most h3
    obtain ⟨h10, h11⟩ := addU_most h4
    omega
  union n d cs sz on i h emb x hx e env := by
    simp only [MFieldTy.most, Union.most] at hx
    simp only [MFieldTy.parse, Union.parse]
    intro b k v hk
    obtain ⟨y, _, hk⟩ := Res.bind_eq_ok.1 hk
    refine Union.parseCases_most (fun k hk r hr => ?_) 0 y b k v hk
    obtain ⟨z, hz, hle⟩ := UCase.listMost_mem hx k hk r hr
    have := h k hk r hr emb z (by simpa only [MFieldTy.most] using hz) e env
    simp only [MFieldTy.parse] at this
    exact this.mono hle
  list ty m h emb n hn e env := by
    simp only [MFieldTy.most] at hn
    simp only [MFieldTy.parse]
    cases emb with
    | false => simp at hn
    | true =>
      simp only [if_true, Option.map_eq_some_iff] at hn ⊢
      obtain ⟨x, hx, rfl⟩ := hn
      refine Parser.AtMost.map fun b k v hk => ?_
      obtain ⟨j, h1, h2, h3, rfl, _⟩ := (Lst.fromSlice_eq_ok (Message.cut c m)).1 hk
      have h4 := Lst.scanR_most (h x hx) h3
      have h5 : v.len < 256 ^ ty.byteSize := by rw [h2]; exact prefix_lt h1
      have h6 : v.len * x ≤ (256 ^ ty.byteSize - 1) * x := Nat.mul_le_mul_right _ (by omega)
      omega
  payload emb n hn := by simp [MFieldTy.most] at hn
  msg id nm fs sz h n hn := by
    simp only [Message.most] at hn
    intro b k v hk
    obtain ⟨vs, _, hr⟩ := Message.parse_eq_ok.1 hk
    refine runFields_most (fun f hf x hx env => ?_) hn hr
    obtain ⟨_, ty, o, _, e⟩ := f
    simp only [MField.parse, MField.optional, MField.ty, Message.id] at hx ⊢
    have := h _ hf (c.emb id) x hx e env
    cases o with
    | true => exact (Optional.atMost this).map
    | false => simpa [MField.ty] using this

/-! ## Limited messages have an end of their own -/

theorem MField.listMost_mem {emb : Nat → Bool} {here : Bool} {fs : List MField} {n : Nat}
    (h : MField.listMost emb here fs = some n) : ∀ f ∈ fs, ∃ x, f.ty.most emb here = some x := by
  induction fs generalizing n with
  | nil => simp
  | cons g fs ih =>
    obtain ⟨_, ty, o, _, _⟩ := g
    simp only [MField.listMost] at h
    obtain ⟨x, y, hx, hy, rfl⟩ := Limit.add_eq.1 h
    obtain ⟨x1, x2, -, hx2, rfl⟩ := Limit.add_eq.1 hx
    intro f hf
    rcases List.mem_cons.1 hf with rfl | hf
    · exact ⟨x2, hx2⟩
    · exact ih hy f hf

theorem delimitedInd (emb : Nat → Bool) : SchemaInd (fun m => ∀ n, m.most emb = some n → m.delimited emb = true)
    (fun t => ∀ here n, t.most emb here = some n → t.delimited emb here = true) where
  fixed _ _ _ _ := rfl
  struct _ _ _ _ := rfl
  message m h here n hn := by
    simp only [MFieldTy.most, Referenced.most] at hn
    simpa only [MFieldTy.delimited, Referenced.delimited] using h n hn
  nul _ _ _ := rfl
  varchar _ _ _ _ := rfl
  array _ _ _ _ _ := rfl
  union nm d cs sz on i h here n hn := by
    simp only [MFieldTy.most, Union.most] at hn
    simp only [MFieldTy.delimited, Union.delimited]
    have key : ∀ ds : List UCase, (∀ k ∈ ds, k ∈ cs) → UCase.listDelimited emb ds = true := by
      intro ds
      induction ds with
      | nil => intro _; rfl
      | cons k ds ih =>
        intro hs
        have ih := ih fun k hk => hs k (List.mem_cons_of_mem _ hk)
        obtain ⟨_, _, _ | r⟩ := k
        · simpa only [UCase.listDelimited] using ih
        · obtain ⟨x, hx, -⟩ := UCase.listMost_mem hn _ (hs _ List.mem_cons_self) r rfl
          have := h _ (hs _ List.mem_cons_self) r rfl here x (by simpa only [MFieldTy.most] using hx)
          simp only [MFieldTy.delimited] at this
          simp only [UCase.listDelimited, this, ih, Bool.and_self]
    exact key cs fun _ h => h
  list ty m h here n hn := by
    simp only [MFieldTy.most] at hn
    cases here with
    | false => simp at hn
    | true =>
      simp only [if_true, Option.map_eq_some_iff] at hn
      obtain ⟨x, hx, -⟩ := hn
      simp only [MFieldTy.delimited, h x hx, Bool.and_self]
  payload here n hn := by simp [MFieldTy.most] at hn
  msg id nm fs sz h n hn := by
    simp only [Message.most] at hn
    simp only [Message.delimited]
    have key : ∀ gs : List MField, (∀ f ∈ gs, f ∈ fs) → MField.listDelimited emb (emb id) gs = true := by
      intro gs
      induction gs with
      | nil => intro _; rfl
      | cons f gs ih =>
        intro hs
        have ih := ih fun k hk => hs k (List.mem_cons_of_mem _ hk)
        obtain ⟨x, hx⟩ := MField.listMost_mem hn _ (hs _ List.mem_cons_self)
        have := h _ (hs _ List.mem_cons_self) (emb id) x hx
        obtain ⟨_, ty, o, _, _⟩ := f
        simp only [MField.ty] at this
        simp only [MField.listDelimited, this, ih, Bool.and_self]
    exact key fs fun _ h => h

/-! ## Values of the greatest size -/

/-- Of the greatest size, if that is wanted, or of `k` bytes or more if there is no greatest. -/
def Limit.Met (x : Bool) (l : Option Nat) (k len : Nat) : Prop :=
  (x = true → ∀ n, l = some n → len = n) ∧ (l = none → k ≤ len)

theorem Limit.Met.add {b : Bool} {l l' : Option Nat} {k x y : Nat} (hx : Limit.Met b l k x)
    (hy : Limit.Met b l' k y) : Limit.Met b (Limit.add l l') k (x + y) := by
  refine ⟨fun hb n hn => ?_, fun hn => ?_⟩
  · obtain ⟨p, q, hp, hq, rfl⟩ := Limit.add_eq.1 hn
    rw [hx.1 hb p hp, hy.1 hb q hq]
  · rcases Limit.add_none.1 hn with h | h
    · have := hx.2 h; omega
    · have := hy.2 h; omega

/-- `k` letters. -/
theorem letters_utf8 (k : Nat) : IsUtf8 (List.replicate k 97) :=
  Props.isUtf8_ascii _ fun b hb => by rw [(List.mem_replicate.1 hb).2]; decide

theorem metInd (c : Ctx) (b : Bool) (k : Nat) : SchemaInd
    (fun m => m.allFields MField.notUnion = true → (b = true → m.allFields MField.arrayFits = true) →
      ∃ v, m.Repr c v ∧ Limit.Met b (m.most c.emb) k (m.wire v).length)
    (fun ty => ty.allFields MField.notUnion = true →
      MField.notUnion (.mk [] ty false ⟨false, false⟩ .little) = true → ∀ emb,
      (b = true → ty.allFields MField.arrayFits = true ∧
        MField.arrayFits (.mk [] ty false ⟨false, false⟩ .little) = true) → ∀ e env,
      ∃ v, ty.Repr c emb env v ∧ Limit.Met b (ty.most c.emb emb) k (ty.wire e v).length) where
  fixed ty _ _ emb _ e env := by
    refine ⟨.num 0, ⟨0, rfl, Nat.pow_pos (by omega)⟩, ?_⟩
    simp [MFieldTy.most, MFieldTy.wire, Limit.Met]
  struct s _ _ emb _ e env := by
    refine ⟨.struct (List.replicate s.byteSize 0), ?_, ?_⟩
    · simp only [MFieldTy.Repr, Referenced.Repr]
      exact ⟨_, rfl, by simp⟩
    · simp [MFieldTy.most, Referenced.most, MFieldTy.wire, Referenced.wire, Limit.Met]
  message m h hu _ emb hf e env := by
    simp only [MFieldTy.allFields, Referenced.allFields] at hu hf
    simpa only [MFieldTy.Repr, Referenced.Repr, MFieldTy.most, Referenced.most, MFieldTy.wire, Referenced.wire] using
      h hu fun h => (hf h).1
  nul _ _ emb _ e env := by
    refine ⟨.str (List.replicate k 97), ⟨_, rfl, letters_utf8 k, ?_⟩, ?_⟩
    · intro h; have := (List.mem_replicate.1 h).2; revert this; decide
    · simp [MFieldTy.most, MFieldTy.wire, Limit.Met]
  varchar ty _ _ emb _ e env := by
    have h0 : ty.byteSize ≤ 8 := by cases ty <;> decide
    refine ⟨.str (List.replicate (min (256 ^ ty.byteSize - 1) (2 ^ 64 - 1 - ty.byteSize)) 97),
      ⟨_, rfl, letters_utf8 _, ?_, ?_⟩, ?_⟩
    · have : 0 < 256 ^ ty.byteSize := Nat.pow_pos (by omega)
      rw [List.length_replicate]; omega
    · rw [List.length_replicate]; omega
    · simp only [MFieldTy.most, MFieldTy.wire, Limit.Met, List.length_append, wireInt_length,
        List.length_replicate, Option.some.injEq, reduceCtorEq, false_implies, and_true]
      rintro _ n rfl
      omega
  array ty s _ _ emb hf e env := by
    cases b with
    | false => exact ⟨.seq ⟨[], 0⟩, ⟨_, rfl, Nat.pow_pos (by omega), by simp, by cases ty <;> decide⟩, by
        simp [MFieldTy.most, Limit.Met]⟩
    | true =>
    have hf := (hf rfl).2
    simp only [MField.arrayFits, MField.ty, decide_eq_true_eq] at hf
    have : 0 < 256 ^ ty.byteSize := Nat.pow_pos (by omega)
    refine ⟨.seq ⟨List.replicate ((256 ^ ty.byteSize - 1) * s.byteSize) 0, 256 ^ ty.byteSize - 1⟩,
      ⟨_, rfl, by simp only; omega, by simp, by rw [List.length_replicate]; exact hf⟩, ?_⟩
    simp only [MFieldTy.most, MFieldTy.wire, Limit.Met, List.length_append, wireInt_length,
        List.length_replicate, Option.some.injEq, reduceCtorEq, false_implies, and_true]
    rintro _ n rfl
    omega
  union n d cs sz on i h _ hn := by simp [MField.notUnion, MField.ty] at hn
  list ty m h hu _ emb hf e env := by
    have hp : 0 < 256 ^ ty.byteSize := Nat.pow_pos (by omega)
    cases emb with
    | false =>
      refine ⟨.seq ⟨List.replicate k 0, 0⟩, ⟨_, rfl, hp, by simp⟩, ?_⟩
      simp [MFieldTy.most, MFieldTy.wire, Limit.Met]
    | true =>
      simp only [MFieldTy.allFields] at hf hu
      obtain ⟨v, hv, h1, h2⟩ := h hu fun h => (hf h).1
      have hb := (Message.write_wire hv).2
      refine ⟨.seq ⟨(List.replicate (256 ^ ty.byteSize - 1) v).flatMap fun x => (m.write c x).bytes,
        256 ^ ty.byteSize - 1⟩, ⟨_, rfl, by simp only; omega, fun _ =>
        ⟨List.replicate (256 ^ ty.byteSize - 1) v, by simp, ?_, rfl⟩⟩, ?_⟩
      · intro x hx; rw [(List.mem_replicate.1 hx).2]; exact hv
      · have hl : ((List.replicate (256 ^ ty.byteSize - 1) v).flatMap fun x => (m.write c x).bytes).length =
            (256 ^ ty.byteSize - 1) * (m.wire v).length := by
          simp [List.length_flatMap, hb]
        simp only [MFieldTy.most, MFieldTy.wire, if_true, Limit.Met, List.length_append, wireInt_length, hl]
        refine ⟨fun hb n hn => ?_, fun hn => ?_⟩
        · obtain ⟨x, hx, rfl⟩ := Option.map_eq_some_iff.1 hn
          rw [h1 hb x hx]
        · have h3 := h2 (Option.map_eq_none_iff.1 hn)
          have h4 : 1 ≤ 256 ^ ty.byteSize - 1 := by cases ty <;> decide
          have h5 : 1 * (m.wire v).length ≤ (256 ^ ty.byteSize - 1) * (m.wire v).length := Nat.mul_le_mul_right _ h4
          omega
  payload _ _ emb _ e env := by
    refine ⟨.buf (List.replicate k 0), ⟨_, rfl⟩, ?_⟩
    simp [MFieldTy.most, MFieldTy.wire, Limit.Met]
  msg id nm fs sz h hu hf := by
    have hu' := MField.listAllFields_mem (by simpa only [Message.allFields] using hu)
    have hf' : b = true → ∀ f ∈ fs, f.arrayFits = true ∧ f.ty.allFields MField.arrayFits = true := fun hb =>
      MField.listAllFields_mem (by simpa only [Message.allFields] using hf hb)
    have key : ∀ (gs : List MField) (env : Env), (∀ f ∈ gs, f ∈ fs) →
        ∃ vs, MField.ListRepr c (c.emb id) gs env vs ∧
          Limit.Met b (MField.listMost c.emb (c.emb id) gs) k (MField.listWire gs vs).length := by
      intro gs
      induction gs with
      | nil => intro env _; exact ⟨[], rfl, by simp [MField.listMost, MField.listWire, Limit.Met]⟩
      | cons f gs ih =>
        intro env hs
        have hm := hs f List.mem_cons_self
        obtain ⟨v, hv, hmet⟩ := h f hm (hu' f hm).2 (hu' f hm).1 (c.emb id)
          (fun hb => ⟨(hf' hb f hm).2, (hf' hb f hm).1⟩) f.endian env
        obtain ⟨nm, ty, o, si, e⟩ := f
        simp only [MField.ty, MField.endian] at hv hmet
        obtain ⟨w, hw, hwl⟩ : ∃ w, (MField.mk nm ty o si e).Repr c (c.emb id) env w ∧
            ((MField.mk nm ty o si e).wire w).length = (if o then 1 else 0) + (ty.wire e v).length := by
          cases o with
          | true =>
            refine ⟨.some v, ?_, ?_⟩
            · simp only [MField.Repr, if_true]; exact .inr ⟨v, rfl, hv⟩
            · simp [MField.wire]; omega
          | false =>
            refine ⟨v, ?_, ?_⟩
            · simpa only [MField.Repr, Bool.false_eq_true, if_false] using hv
            · simp [MField.wire]
        obtain ⟨vs, hvs, hmet'⟩ := ih (env ++ [(nm, w)]) fun f hf => hs f (List.mem_cons_of_mem _ hf)
        refine ⟨(nm, w) :: vs, ⟨w, vs, rfl, hw, hvs⟩, ?_⟩
        simp only [MField.listMost, MField.listWire, List.length_append, hwl]
        refine Limit.Met.add (Limit.Met.add ⟨?_, by simp⟩ hmet) hmet'
        rintro _ n h
        exact Option.some.inj h
    obtain ⟨vs, h1, h2⟩ := key fs [] fun _ h => h
    exact ⟨.msg vs, ⟨vs, rfl, h1⟩, by simpa only [Message.most, Message.wire] using h2⟩

namespace Props

/-! ## C109 -/

/-- C109: whatever a message is decoded from, it takes its greatest size or less. -/
theorem C109_decoded (c : Ctx) {m : Message} {max : Nat} (hm : m.most c.emb = some max) {b : Bytes} {n : Nat}
    {v : Value} (h : m.parse c b = .ok ⟨n, v⟩) : n ≤ max := (mostInd c).all m max hm b n v h

example {b : Bytes} {n : Nat} {v : Value} (h : Ex.keyed.parse Ex.ctx b = .ok ⟨n, v⟩) : n ≤ 515 :=
  C109_decoded Ex.ctx (by decide) h

/-- C109: so does every representable value written. -/
theorem C109_written (c : Ctx) {m : Message} {max : Nat} (hm : m.most c.emb = some max) {v : Value}
    (hv : m.Repr c v) : (m.write c v).bytes.length ≤ max := by
  have hd := (delimitedInd c.emb).all m max hm
  exact C109_decoded c hm (C23_trailing c hd hv [])

/-- C109: what is decoded is decided by the first so many bytes. -/
theorem C109_window (c : Ctx) {m : Message} {max : Nat} (hm : m.most c.emb = some max) (b : Bytes)
    (r : Msg Value) : m.parse c (b.take max) = .ok r ↔ m.parse c b = .ok r := by
  obtain ⟨n, v⟩ := r
  have hd := (delimitedInd c.emb).all m max hm
  constructor
  · intro h
    have := (C23_accepted c hd h (b.drop max)).1
    rwa [List.take_append_drop] at this
  · intro h
    exact (Message.cut c m b n v h).2 max (C109_decoded c hm h)

/-- C109: without unions, and with arrays that can be as long as their prefix can say, some value is
that long. -/
theorem C109_reached (c : Ctx) {m : Message} {max : Nat} (hm : m.most c.emb = some max)
    (hu : m.allFields MField.notUnion = true) (ha : m.allFields MField.arrayFits = true) :
    ∃ v, m.Repr c v ∧ (m.write c v).bytes.length = max := by
  obtain ⟨v, hv, hmet⟩ := (metInd c true 0).all m hu fun _ => ha
  exact ⟨v, hv, by rw [(Message.write_wire hv).2]; exact hmet.1 rfl max hm⟩

/-- C109: without unions, a message without a greatest size has values of any size. -/
theorem C109_unlimited (c : Ctx) {m : Message} (hm : m.most c.emb = none)
    (hu : m.allFields MField.notUnion = true) (k : Nat) :
    ∃ v, m.Repr c v ∧ k ≤ (m.write c v).bytes.length := by
  obtain ⟨v, hv, hmet⟩ := (metInd c false k).all m hu nofun
  exact ⟨v, hv, by rw [(Message.write_wire hv).2]; exact hmet.2 hm⟩

example : Ex.keyed.most Ex.ctx.emb = some (2 + 2 + (1 + 255 * 2)) ∧
    (∀ v, Ex.keyed.Repr Ex.ctx v → (Ex.keyed.write Ex.ctx v).bytes.length ≤ 515) ∧
    ∃ v, Ex.keyed.Repr Ex.ctx v ∧ (Ex.keyed.write Ex.ctx v).bytes.length = 515 :=
  have h : Ex.keyed.most Ex.ctx.emb = some 515 := by decide
  ⟨h, fun _ => C109_written Ex.ctx h, C109_reached Ex.ctx h (by decide) (by decide)⟩

example : Ex.keyed.parse Ex.ctx (List.take 515 ([1, 9, 3, 4, 1, 5, 6] ++ List.replicate 1000 0)) = .ok ⟨7, Ex.keyedV⟩ :=
  (C109_window Ex.ctx (by decide) _ _).2 (C23_accepted Ex.ctx (m := Ex.keyed) (b := [1, 9, 3, 4, 1, 5, 6]) (by decide) rfl _).1

example : Ex.group.most Ex.ctx.emb = none ∧
    ∃ v, Ex.group.Repr Ex.ctx v ∧ 1000000 ≤ (Ex.group.write Ex.ctx v).bytes.length :=
  have h : Ex.group.most Ex.ctx.emb = none := by decide
  ⟨h, C109_unlimited Ex.ctx h (by decide) _⟩

end Props

end Proto
