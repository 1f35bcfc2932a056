import Verif.Base.Lit
import Verif.Gen.Work
import Verif.Props.Count

/-!
# C115: how much decoding does
-/

namespace Proto

/-! ## The bound

`base` is what is done whatever the input, `rate` what is done for a byte of it; both are computed from the
schema and from which messages are flagged as list items. -/

mutual
/-- What is done for a reference whatever the input. -/
def Referenced.base (emb : Nat → Bool) : Referenced → Nat
  | .struct _ => 1
  | .message m => m.base emb

/-- What is done for a field type whatever the input; `here` tells whether the message that has the field is
flagged. -/
def MFieldTy.base (emb : Nat → Bool) (here : Bool) : MFieldTy → Nat
  | .fixed _ => 1
  | .ref r => r.base emb
  | .nullTerminatedString => 1
  | .varcharString _ => 2
  | .array _ _ => 2
  | .union u _ _ => 1 + u.base emb
  | .list _ m => if here then 3 + m.base emb else 2
  | .payload => 1

/-- The most of all cases. -/
def UCase.listBase (emb : Nat → Bool) : List UCase → Nat
  | [] => 0
  | .mk _ _ none :: cs => UCase.listBase emb cs
  | .mk _ _ (some r) :: cs => max (r.base emb) (UCase.listBase emb cs)

/-- The most of all cases. -/
def Union.base (emb : Nat → Bool) : Union → Nat
  | .mk _ _ cases _ => UCase.listBase emb cases

/-- All fields. -/
def MField.listBase (emb : Nat → Bool) (here : Bool) : List MField → Nat
  | [] => 0
  | .mk _ ty optional _ _ :: fs =>
    (if optional then 1 + ty.base emb here else ty.base emb here) + MField.listBase emb here fs

/-- The message and its fields. -/
def Message.base (emb : Nat → Bool) : Message → Nat
  | .mk id _ fields _ => 1 + MField.listBase emb (emb id) fields
end

mutual
/-- What is done for a reference per byte. -/
def Referenced.rate (emb : Nat → Bool) : Referenced → Nat
  | .struct _ => 0
  | .message m => m.rate emb

/-- What is done for a field type per byte: a byte of a zero-terminated string is compared and checked, an
announced length checked, and a byte may be all of a list item. -/
def MFieldTy.rate (emb : Nat → Bool) (here : Bool) : MFieldTy → Nat
  | .ref r => r.rate emb
  | .nullTerminatedString => 2
  | .varcharString _ => 1
  | .union u _ _ => u.rate emb
  | .list _ m => if here then 1 + m.base emb + m.rate emb else 0
  | _ => 0

/-- The most of all cases. -/
def UCase.listRate (emb : Nat → Bool) : List UCase → Nat
  | [] => 0
  | .mk _ _ none :: cs => UCase.listRate emb cs
  | .mk _ _ (some r) :: cs => max (r.rate emb) (UCase.listRate emb cs)

/-- The most of all cases. -/
def Union.rate (emb : Nat → Bool) : Union → Nat
  | .mk _ _ cases _ => UCase.listRate emb cases

/-- The most of all fields. -/
def MField.listRate (emb : Nat → Bool) (here : Bool) : List MField → Nat
  | [] => 0
  | .mk _ ty _ _ _ :: fs => max (ty.rate emb here) (MField.listRate emb here fs)

/-- The most of all fields. -/
def Message.rate (emb : Nat → Bool) : Message → Nat
  | .mk id _ fields _ => MField.listRate emb (emb id) fields
end

/-- If the field is a list, its items take a byte or more. -/
def MField.fullItems (f : MField) : Bool :=
  match f.ty with
  | .list _ m => decide (1 ≤ m.least)
  | _ => true

/-- The bytes a decoder went through: those it took, all of them when it fails. -/
def Parser.used (f : Parser α) (b : Bytes) : Nat :=
  match f b with
  | .ok msg => msg.size
  | _ => b.length

/-- The work `t` of the decoder `f`: at most `x`, and `y` for each byte it went through. -/
def Parser.Linear (f : Parser α) (t : Bytes → Nat) (x y : Nat) : Prop := ∀ b, t b ≤ x + y * f.used b

theorem Parser.Linear.mono {f : Parser α} {t : Bytes → Nat} {x y x' y' : Nat} (h : f.Linear t x y) (hx : x ≤ x')
    (hy : y ≤ y') : f.Linear t x' y' := fun b =>
  Nat.le_trans (h b) (Nat.add_le_add hx (Nat.mul_le_mul_right _ hy))

theorem Parser.used_map (g : α → β) (f : Parser α) (b : Bytes) : (f.map g).used b = f.used b := by
  simp only [Parser.used, Parser.map]
  cases f b <;> rfl

theorem Parser.Linear.map {f : Parser α} {t : Bytes → Nat} {x y : Nat} (h : f.Linear t x y) (g : α → β) :
    (f.map g).Linear t x y := fun b => by rw [Parser.used_map]; exact h b

theorem Parser.Linear.const {f : Parser α} {t : Bytes → Nat} {x : Nat} (h : ∀ b, t b ≤ x) (y : Nat) :
    f.Linear t x y := fun b => Nat.le_trans (h b) (Nat.le_add_right _ _)

/-! ## Strings -/

theorem findNulWork_split {s t : Bytes} (h : 0 ∉ s) : findNulWork (s ++ 0 :: t) = s.length + 1 := by
  induction s with
  | nil => rfl
  | cons x s ih =>
    have hx : ¬ x = 0 := fun e => h (by simp [e])
    simp only [List.cons_append, findNulWork, if_neg hx, ih (fun h0 => h (List.mem_cons_of_mem _ h0)), List.length_cons]

theorem findNulWork_none {b : Bytes} (h : 0 ∉ b) : findNulWork b = b.length := by
  induction b with
  | nil => rfl
  | cons x s ih =>
    have hx : ¬ x = 0 := fun e => h (by simp [e])
    simp only [findNulWork, if_neg hx, ih (fun h0 => h (List.mem_cons_of_mem _ h0)), List.length_cons]

theorem NullTerminated.work_split {s t : Bytes} (h : 0 ∉ s) : NullTerminated.work (s ++ 0 :: t) = 2 + 2 * s.length := by
  simp only [NullTerminated.work, findNulWork_split h, findNul_eq_some.2 ⟨s, t, rfl, h, rfl⟩]
  omega

theorem NullTerminated.linear : NullTerminated.fromSlice.Linear NullTerminated.work 1 2 := by
  intro b
  cases hf : findNul b with
  | none =>
    have h0 := findNul_eq_none.1 hf
    simp only [NullTerminated.work, findNulWork_none h0, hf, Parser.used, NullTerminated.fromSlice]
    omega
  | some k =>
    obtain ⟨s, t, rfl, h0, rfl⟩ := findNul_eq_some.1 hf
    rw [NullTerminated.work_split h0, Parser.used, NullTerminated.fromSlice_split h0]
    split
    · next msg heq =>
      split at heq
      · cases heq
        simp only
        omega
      · cases heq
    · simp only [List.length_append, List.length_cons]
      omega

theorem Varchar.linear (p : Profile) (e : Endian) (sz : Nat) :
    (Varchar.fromSlice p e sz).Linear (Varchar.work p e sz) 2 1 := by
  intro b
  have key : (Varchar.fromSlice p e sz b) = ((do
      let msg ← Scalar.fromSlice e sz b
      let stop ← addU p usizeBits msg.size msg.data
      Proto.slice b msg.size stop : R Bytes)).bind fun sub =>
        if validUtf8 sub then .ok ⟨sz + sub.length, sub⟩ else .err .invalidUtf8 := by
    unfold Varchar.fromSlice
    rw [Scalar.fromSlice_eq]
    split
    · simp only [Res.bind_ok]
      cases (addU p usizeBits sz (intOfWire e (b.take sz)) : R Nat) <;> rfl
    · rfl
  have len : ∀ sub, ((do
      let msg ← Scalar.fromSlice e sz b
      let stop ← addU p usizeBits msg.size msg.data
      Proto.slice b msg.size stop : R Bytes)) = .ok sub → sub.length ≤ b.length := by
    intro sub h
    obtain ⟨msg, _, h⟩ := Res.bind_eq_ok.1 h
    obtain ⟨stop, _, h⟩ := Res.bind_eq_ok.1 h
    simp only [Proto.slice] at h
    split at h
    · cases h
      simp only [List.length_take, List.length_drop]
      omega
    · cases h
  simp only [Parser.used, key, Varchar.work]
  cases hr : ((do
      let msg ← Scalar.fromSlice e sz b
      let stop ← addU p usizeBits msg.size msg.data
      Proto.slice b msg.size stop : R Bytes)) with
  | ok sub =>
    have hl := len sub hr
    simp only [Res.bind]
    by_cases hv : validUtf8 sub = true
    · simp only [hv, if_true]
      omega
    · simp only [if_neg hv]
      omega
  | err e => simp only [Res.bind]; omega
  | panic => simp only [Res.bind]; omega

theorem Varchar.work_split {p : Profile} {e : Endian} {sz : Nat} {s t : Bytes} (h1 : s.length < 256 ^ sz)
    (h2 : sz + s.length < 2 ^ 64) : Varchar.work p e sz (wireInt e sz s.length ++ s ++ t) = 2 + s.length := by
  have hl := wireInt_length e sz s.length
  have : ((do
      let msg ← Scalar.fromSlice e sz (wireInt e sz s.length ++ s ++ t)
      let stop ← addU p usizeBits msg.size msg.data
      Proto.slice (wireInt e sz s.length ++ s ++ t) msg.size stop : R Bytes)) = .ok s := by
    rw [Scalar.fromSlice_eq, if_pos (by simp [hl]), List.append_assoc, List.take_left' hl, intOfWire_wireInt,
      Nat.mod_eq_of_lt h1]
    simp only [Res.bind_ok]
    rw [show (addU p usizeBits sz s.length : R Nat) = .ok (sz + s.length) from addU_ok p h2]
    simp only [Res.bind_ok]
    rw [slice_ok (by omega) (by simp [hl]), List.drop_left' hl]
    simp
  simp only [Varchar.work, this]

/-! ## Optional fields -/

theorem Optional.linear {f : Parser α} {t : Bytes → Nat} {x y : Nat} (h : f.Linear t x y) :
    (Optional.fromSlice f).Linear (Optional.work t) (1 + x) y := by
  intro b
  cases b with
  | nil => simp only [Optional.work]; omega
  | cons z b =>
    have hb := h b
    simp only [Optional.work, Parser.used, Optional.fromSlice] at hb ⊢
    by_cases hz : z.toNat > 0
    · rw [if_pos hz, if_pos hz]
      cases hf : f b with
      | ok msg =>
        simp only [hf, Res.bind_ok, Res.pure_eq] at hb ⊢
        rw [Nat.mul_add]
        omega
      | err e =>
        simp only [hf, Res.bind_err, List.length_cons, Nat.mul_add] at hb ⊢
        omega
      | panic =>
        simp only [hf, Res.bind_panic, List.length_cons, Nat.mul_add] at hb ⊢
        omega
    · rw [if_neg hz]
      omega

/-! ## Lists -/

theorem Lst.scanWork_succ (f : Parser α) (t : Bytes → Nat) {data : Bytes} {total : Nat} (h : total ≤ data.length)
    (n : Nat) : Lst.scanWork f t data (n + 1) total = 1 + t (data.drop total) + (match f (data.drop total) with
      | .ok msg => Lst.scanWork f t data n (total + msg.size)
      | _ => 0) := by
  rw [Lst.scanWork, dropFrom_ok h, Nat.add_assoc]
  rfl

theorem Lst.scanWork_le {f : Parser α} {t : Bytes → Nat} {x y : Nat} (hc : f.Cut) (hl : f.AtLeast 1)
    (h : f.Linear t x y) (data : Bytes) (n : Nat) : ∀ total, total ≤ data.length →
    Lst.scanWork f t data n total ≤ (match scanR f n (data.drop total) with
      | .ok k => (1 + x + y) * k
      | _ => 1 + x + (1 + x + y) * (data.length - total) : Nat) := by
  obtain ⟨z, hz⟩ : ∃ z, z = 1 + x + y := ⟨_, rfl⟩
  rw [← hz]
  induction n with
  | zero =>
    intro total _
    exact Nat.zero_le _
  | succ n ih =>
    intro total ht
    have hb := h (data.drop total)
    rw [Lst.scanWork_succ f t ht]
    simp only [scanR, Parser.used] at hb ⊢
    cases hf : f (data.drop total) with
    | ok msg =>
      obtain ⟨m, v⟩ := msg
      have h1 := (hc _ _ _ hf).1
      have h2 := hl _ _ _ hf
      simp only [List.length_drop] at h1
      have hi := ih (total + m) (by omega)
      simp only [hf, List.drop_drop] at hb hi ⊢
      have hm : 1 + x + y * m ≤ z * m := by
        rw [hz, Nat.add_mul (1 + x)]
        exact Nat.add_le_add_right (Nat.le_mul_of_pos_right _ h2) _
      cases hs : scanR f n (data.drop (total + m)) with
      | ok k =>
        simp only [hs] at hi ⊢
        rw [Nat.mul_add]
        omega
      | err e =>
        simp only [hs] at hi ⊢
        rw [show data.length - total = m + (data.length - (total + m)) by omega, Nat.mul_add]
        omega
      | panic =>
        simp only [hs] at hi ⊢
        rw [show data.length - total = m + (data.length - (total + m)) by omega, Nat.mul_add]
        omega
    | err e =>
      simp only [hf, List.length_drop] at hb ⊢
      have : y * (data.length - total) ≤ z * (data.length - total) := Nat.mul_le_mul_right _ (by omega)
      omega
    | panic =>
      simp only [hf, List.length_drop] at hb ⊢
      have : y * (data.length - total) ≤ z * (data.length - total) := Nat.mul_le_mul_right _ (by omega)
      omega

theorem Lst.work_eq (e : Endian) (sz : Nat) (f : Parser α) (t : Bytes → Nat) (b : Bytes) :
    Lst.work e sz f t b =
      2 + (if sz ≤ b.length then Lst.scanWork f t (b.drop sz) (intOfWire e (b.take sz)) 0 else 0) := by
  unfold Lst.work
  rw [Scalar.fromSlice_eq]
  by_cases h : sz ≤ b.length
  · simp only [if_pos h, Res.bind_ok, dropFrom_ok h, Res.pure_eq]
  · simp only [if_neg h, Res.bind_err]

theorem Lst.linear {f : Parser α} {t : Bytes → Nat} {x y : Nat} (hc : f.Cut) (hl : f.AtLeast 1)
    (h : f.Linear t x y) (e : Endian) (sz : Nat) :
    (Lst.fromSlice e sz f).Linear (Lst.work e sz f t) (3 + x) (1 + x + y) := by
  intro b
  rw [Lst.work_eq, Parser.used, Lst.fromSlice_eq hc]
  obtain ⟨z, hz⟩ : ∃ z, z = 1 + x + y := ⟨_, rfl⟩
  by_cases hsz : sz ≤ b.length
  · simp only [if_pos hsz]
    have hs := Lst.scanWork_le hc hl h (b.drop sz) (intOfWire e (b.take sz)) 0 (Nat.zero_le _)
    rw [List.drop_zero, ← hz] at hs
    rw [← hz]
    cases hr : scanR f (intOfWire e (b.take sz)) (b.drop sz) with
    | ok k =>
      simp only [hr, Res.bind, Nat.mul_add] at hs ⊢
      omega
    | err e =>
      simp only [hr, Res.bind, Nat.sub_zero, List.length_drop] at hs ⊢
      have : z * (b.length - sz) ≤ z * b.length := Nat.mul_le_mul_left _ (by omega)
      omega
    | panic =>
      simp only [hr, Res.bind, Nat.sub_zero, List.length_drop] at hs ⊢
      have : z * (b.length - sz) ≤ z * b.length := Nat.mul_le_mul_left _ (by omega)
      omega
  · simp only [if_neg hsz]
    omega

theorem Lst.stepsWork_le {f : Parser α} {t : Bytes → Nat} {x y : Nat} (hc : f.Cut) (hl : f.AtLeast 1)
    (h : f.Linear t x y) (n : Nat) : ∀ l : Seq Bytes, (∀ r ∈ Lst.steps f n l, ∃ v, r = some (.ok v)) →
    Lst.stepsWork f t (n + 1) l ≤ 1 + x + (1 + x + y) * l.data.length := by
  obtain ⟨z, hz⟩ : ∃ z, z = 1 + x + y := ⟨_, rfl⟩
  rw [← hz]
  have one : ∀ l : Seq Bytes, Lst.nextWork t l ≤ 1 + x + y * f.used l.data := by
    intro l
    have := h l.data
    simp only [Lst.nextWork]
    split <;> omega
  have hused : ∀ b, f.used b ≤ b.length := by
    intro b
    simp only [Parser.used]
    split
    · next msg hm => exact (hc _ msg.size msg.data hm).1
    · exact Nat.le_refl _
  induction n with
  | zero =>
    intro l _
    have h1 := one l
    have h2 : y * f.used l.data ≤ z * l.data.length := Nat.mul_le_mul (by omega) (hused _)
    simp only [Lst.stepsWork]
    omega
  | succ n ih =>
    intro l hall
    rw [Lst.stepsWork]
    obtain ⟨v, hv⟩ := hall (Lst.next f l).1 (by simp [Lst.steps])
    have hi := ih (Lst.next f l).2 (fun r hr => hall r (by simp [Lst.steps, hr]))
    have h1 := one l
    simp only [Lst.next, Parser.used] at hv hi h1 ⊢
    split at hv
    · cases hv
    · next hlen =>
      rw [if_neg hlen] at hi ⊢
      cases hf : f l.data with
      | err e => rw [hf] at hv; cases hv
      | panic => rw [hf] at hv; cases hv
      | ok msg =>
        obtain ⟨m, w⟩ := msg
        have h3 := (hc _ _ _ hf).1
        have h4 := hl _ _ _ hf
        simp only [hf, dropFrom_ok h3, List.length_drop] at hi h1 ⊢
        have hm : 1 + x + y * m ≤ z * m := by
          rw [hz, Nat.add_mul (1 + x)]
          exact Nat.add_le_add_right (Nat.le_mul_of_pos_right _ h4) _
        rw [show l.data.length = m + (l.data.length - m) by omega, Nat.mul_add]
        omega

theorem Lst.scanWork_stuck {f : Parser α} (t : Bytes → Nat) {v : α} (h : f [] = .ok ⟨0, v⟩) (n : Nat) :
    Lst.scanWork f t [] n 0 = n * (1 + t []) := by
  induction n with
  | zero => simp [Lst.scanWork]
  | succ n ih =>
    rw [Lst.scanWork_succ f t (Nat.le_refl 0)]
    simp only [List.drop_nil, h, Nat.add_zero, ih]
    rw [Nat.succ_mul, Nat.add_comm]

/-! ## Unions and sequences of fields -/

theorem UCase.le_listBase {emb : Nat → Bool} {cs : List UCase} : ∀ k ∈ cs, ∀ r, k.itemType = some r →
    r.base emb ≤ UCase.listBase emb cs ∧ r.rate emb ≤ UCase.listRate emb cs := by
  induction cs with
  | nil => simp
  | cons k cs ih =>
    intro k' hk r hr
    rcases List.mem_cons.1 hk with rfl | hk
    · obtain ⟨_, _, o⟩ := k'
      cases hr
      simp only [UCase.listBase, UCase.listRate]
      omega
    · have := ih k' hk r hr
      obtain ⟨_, _, _ | r0⟩ := k <;> simp only [UCase.listBase, UCase.listRate] <;> omega

theorem Union.cases_linear {c : Ctx} {x y : Nat} {cs : List UCase}
    (h : ∀ k ∈ cs, ∀ r, k.itemType = some r → (r.parse c).Linear (r.work c) x y) (i d : Nat) :
    (Union.parseCases c cs i d).Linear (Union.workCases c cs d) x y := by
  induction cs generalizing i with
  | nil => exact fun b => by simp only [Union.workCases]; omega
  | cons k cs ih =>
    have ih := ih (fun k hk => h k (List.mem_cons_of_mem _ hk)) (i + 1)
    obtain ⟨_, case, _ | r⟩ := k
    · by_cases hd : d = case
      · exact fun b => by simp only [Union.workCases, if_pos hd]; omega
      · intro b
        simp only [Union.workCases, Union.parseCases, if_neg hd]
        exact ih b
    · by_cases hd : d = case
      · intro b
        simp only [Union.workCases, Union.parseCases, if_pos hd]
        exact (h _ List.mem_cons_self r rfl).map _ b
      · intro b
        simp only [Union.workCases, Union.parseCases, if_neg hd]
        exact ih b

theorem MField.listBase_cons (emb : Nat → Bool) (here : Bool) (f : MField) (fs : List MField) :
    MField.listBase emb here (f :: fs) =
      (if f.optional then 1 + f.ty.base emb here else f.ty.base emb here) + MField.listBase emb here fs := by
  obtain ⟨_, _, _, _, _⟩ := f
  rfl

theorem MField.listRate_cons (emb : Nat → Bool) (here : Bool) (f : MField) (fs : List MField) :
    MField.listRate emb here (f :: fs) = max (f.ty.rate emb here) (MField.listRate emb here fs) := by
  obtain ⟨_, _, _, _, _⟩ := f
  rfl

theorem MField.workList_le {c : Ctx} {here : Bool} {slice : Bytes} {fs : List MField}
    (h : ∀ f ∈ fs, ∀ env, (f.parse c here env).Linear (f.work c here env)
      (if f.optional then 1 + f.ty.base c.emb here else f.ty.base c.emb here) (f.ty.rate c.emb here)) :
    ∀ env off, off ≤ slice.length →
    MField.workList c here fs env off slice ≤ MField.listBase c.emb here fs +
      MField.listRate c.emb here fs * (match runFields (MField.parse c here) fs env (slice.drop off) with
        | .ok r => r.1
        | _ => slice.length - off) := by
  induction fs with
  | nil => exact fun _ _ _ => by simp [MField.workList]
  | cons f fs ih =>
    intro env off ho
    have hb := (h f List.mem_cons_self env).mono (Nat.le_refl _)
      (Nat.le_max_left _ (MField.listRate c.emb here fs)) (slice.drop off)
    rw [MField.listBase_cons, MField.listRate_cons]
    simp only [MField.workList, dropFrom_ok ho, runFields, Parser.used] at hb ⊢
    cases hf : f.parse c here env (slice.drop off) with
    | ok msg =>
      obtain ⟨m, v⟩ := msg
      have h1 := (MField.cut c here f env _ _ _ hf).1
      simp only [List.length_drop] at h1
      have hi := ih (fun g hg => h g (List.mem_cons_of_mem _ hg)) (env ++ [(f.name, v)]) (off + m) (by omega)
      have hmax : ∀ k, MField.listRate c.emb here fs * k ≤
          max (f.ty.rate c.emb here) (MField.listRate c.emb here fs) * k :=
        fun k => Nat.mul_le_mul_right _ (Nat.le_max_right _ _)
      simp only [hf, List.drop_drop] at hb hi ⊢
      cases hr : runFields (MField.parse c here) fs (env ++ [(f.name, v)]) (slice.drop (off + m)) with
      | ok r =>
        have := hmax r.1
        simp only [hr, Nat.mul_add] at hi ⊢
        omega
      | err e =>
        have := hmax (slice.length - (off + m))
        simp only [hr] at hi ⊢
        rw [show slice.length - off = m + (slice.length - (off + m)) by omega, Nat.mul_add]
        omega
      | panic =>
        have := hmax (slice.length - (off + m))
        simp only [hr] at hi ⊢
        rw [show slice.length - off = m + (slice.length - (off + m)) by omega, Nat.mul_add]
        omega
    | err e =>
      simp only [hf, List.length_drop] at hb ⊢
      omega
    | panic =>
      simp only [hf, List.length_drop] at hb ⊢
      omega

theorem workInd (c : Ctx) : SchemaInd
    (fun m => m.allFields MField.fullItems = true →
      (m.parse c).Linear (m.work c) (m.base c.emb) (m.rate c.emb))
    (fun ty => ∀ here e env, ty.allFields MField.fullItems = true →
      MField.fullItems (.mk [] ty false ⟨false, false⟩ .little) = true →
      (ty.parse c here e env).Linear (ty.work c here e env) (ty.base c.emb here) (ty.rate c.emb here)) where
  fixed ty here e env _ _ := .const (fun b => by simp only [MFieldTy.work, MFieldTy.base]; omega) _
  struct s here e env _ _ :=
    .const (fun b => by simp only [MFieldTy.work, Referenced.work, MFieldTy.base, Referenced.base]; omega) _
  message m h here e env ha _ b := by
    have := h (by simpa only [MFieldTy.allFields, Referenced.allFields] using ha) b
    simpa only [MFieldTy.work, Referenced.work, MFieldTy.base, Referenced.base, MFieldTy.rate, Referenced.rate,
      MFieldTy.parse, Referenced.parse] using this
  nul here e env _ _ b := by
    simp only [MFieldTy.work, MFieldTy.base, MFieldTy.rate, MFieldTy.parse]
    exact NullTerminated.linear.map _ b
  varchar ty here e env _ _ b := by
    simp only [MFieldTy.work, MFieldTy.base, MFieldTy.rate, MFieldTy.parse]
    exact (Varchar.linear _ _ _).map _ b
  array ty s here e env _ _ := .const (fun b => by simp only [MFieldTy.work, MFieldTy.base]; omega) _
  union n d cs sz on i h here e env ha _ b := by
    simp only [MFieldTy.allFields, Union.allFields] at ha
    have hcs : ∀ k ∈ cs, ∀ r, k.itemType = some r →
        (r.parse c).Linear (r.work c) (UCase.listBase c.emb cs) (UCase.listRate c.emb cs) := by
      intro k hk r hr
      have h1 := h k hk r hr here e env
        (by simpa only [MFieldTy.allFields] using UCase.listAllFields_mem ha k hk r hr) rfl
      have h2 := UCase.le_listBase (emb := c.emb) k hk r hr
      refine Parser.Linear.mono (x := r.base c.emb) (y := r.rate c.emb) (fun b => ?_) h2.1 h2.2
      simpa only [MFieldTy.work, MFieldTy.base, MFieldTy.rate, MFieldTy.parse] using h1 b
    simp only [MFieldTy.work, MFieldTy.base, MFieldTy.rate, MFieldTy.parse, Union.work, Union.base, Union.rate,
      Union.parse, Parser.used]
    cases d.read c.p env on with
    | ok x =>
      have := Union.cases_linear hcs 0 x b
      simp only [Parser.used] at this
      simp only [Res.bind_ok]
      omega
    | err e => simp only [Res.bind_err]; omega
    | panic => simp only [Res.bind_panic]; omega
  list ty m h here e env ha hf b := by
    have h1 := h (by simpa only [MFieldTy.allFields] using ha)
    simp only [MField.fullItems, MField.ty, decide_eq_true_eq] at hf
    simp only [MFieldTy.work, MFieldTy.base, MFieldTy.rate, MFieldTy.parse]
    cases here with
    | true => exact (Lst.linear (Message.cut c m) (((leastInd c).all m).mono hf) h1 e _).map _ b
    | false => simp only [Bool.false_eq_true, if_false]; omega
  payload here e env _ _ := .const (fun b => by simp only [MFieldTy.work, MFieldTy.base]; omega) _
  msg id n fs sz h ha b := by
    have ha' := MField.listAllFields_mem (by simpa only [Message.allFields] using ha)
    have key : ∀ f ∈ fs, ∀ env, (f.parse c (c.emb id) env).Linear (f.work c (c.emb id) env)
        (if f.optional then 1 + f.ty.base c.emb (c.emb id) else f.ty.base c.emb (c.emb id))
        (f.ty.rate c.emb (c.emb id)) := by
      intro f hf env
      have h1 := h f hf (c.emb id) f.endian env (ha' f hf).2 (ha' f hf).1
      obtain ⟨_, ty, o, _, e⟩ := f
      intro b
      simp only [MField.work, MField.parse, MField.optional, MField.ty]
      cases o with
      | true => exact (Optional.linear h1).map _ b
      | false => exact h1 b
    have := MField.workList_le (slice := b) key [] 0 (Nat.zero_le _)
    simp only [Message.work, Message.base, Message.rate, Parser.used, Message.parse_eq, Message.id, Message.fields]
    rw [List.drop_zero, Nat.sub_zero] at this
    cases hr : runFields (MField.parse c (c.emb id)) fs [] b with
    | ok r => simp only [hr, Res.bind] at this ⊢; omega
    | err e => simp only [hr, Res.bind] at this ⊢; omega
    | panic => simp only [hr, Res.bind] at this ⊢; omega

namespace Props

/-! ## C115 -/

/-- C115: decoding does at most a fixed amount for the message, and a fixed amount for each byte it goes through:
those it takes when it succeeds, those of the input when it fails. -/
theorem C115_linear (c : Ctx) {m : Message} (hf : m.allFields MField.fullItems = true) (b : Bytes) :
    m.work c b ≤ m.base c.emb + m.rate c.emb * (match m.parse c b with
      | .ok msg => msg.size
      | _ => b.length : Nat) := by
  have h := (workInd c).all m hf b
  simp only [Parser.used] at h
  cases hp : m.parse c b <;> rw [hp] at h <;> exact h

example (b : Bytes) : Ex.full.work Ex.ctx b ≤ Ex.full.base Ex.ctx.emb + Ex.full.rate Ex.ctx.emb *
    (match Ex.full.parse Ex.ctx b with
      | .ok msg => msg.size
      | _ => b.length : Nat) := C115_linear Ex.ctx (by decide) b

example : Ex.full.base Ex.ctx.emb = 27 ∧ Ex.full.rate Ex.ctx.emb = 16 := by decide

/-- The message of 31 bytes; without the structure the union and all that follows are not reached. -/
example : Ex.full.work Ex.ctx [2, 9, 1, 2, 1, 104, 105, 0, 2, 1, 2, 3, 4, 1, 0, 2, 1, 2, 1, 104, 105, 0, 7, 0, 0, 1,
      65, 1, 7, 0, 0] = 41 ∧
    Ex.full.work Ex.ctx [2] = 2 ∧ Ex.full.work Ex.ctx [9, 9, 9, 9] = 3 ∧ Ex.full.work Ex.ctx [0, 0, 1] = 5 := by
  decide +kernel

/-- C115: whatever the input is, decoding it takes a time proportional to its length. -/
theorem C115_input (c : Ctx) {m : Message} (hf : m.allFields MField.fullItems = true) :
    ∃ k, ∀ b, m.work c b ≤ k * (b.length + 1) := by
  refine ⟨m.base c.emb + m.rate c.emb, fun b => ?_⟩
  have h := C115_linear c hf b
  have h1 : (match m.parse c b with
      | .ok msg => msg.size
      | _ => b.length : Nat) ≤ b.length := by
    split
    · next msg hm => exact (C24_local c m (n := msg.size) (v := msg.data) hm).1
    · exact Nat.le_refl _
  have h2 := Nat.mul_le_mul_left (m.rate c.emb) h1
  rw [Nat.mul_add, Nat.add_mul]
  omega

example : ∃ k, ∀ b, Ex.tail.work Ex.ctx b ≤ k * (b.length + 1) := C115_input Ex.ctx (by decide)

/-- C115: iterating a list until it ends or an item cannot be decoded takes a time proportional to its data,
whatever number of items it announces. -/
theorem C115_iteration (c : Ctx) {m : Message} (hf : m.allFields MField.fullItems = true) (h1 : 1 ≤ m.least)
    (l : Seq Bytes) {n : Nat} (hn : ∀ r ∈ Lst.steps (m.parse c) n l, ∃ v, r = some (.ok v)) :
    Lst.stepsWork (m.parse c) (m.work c) (n + 1) l ≤
      1 + m.base c.emb + (1 + m.base c.emb + m.rate c.emb) * l.data.length :=
  Lst.stepsWork_le (Message.cut c m) (((leastInd c).all m).mono h1) ((workInd c).all m hf) n l hn

/-- Nine bytes that announce a thousand items. -/
example : Lst.stepsWork (Ex.item.parse Ex.ctx) (Ex.item.work Ex.ctx) 3 ⟨[1, 2, 1, 104, 105, 0, 7, 0, 0], 1000⟩ ≤
    1 + Ex.item.base Ex.ctx.emb + (1 + Ex.item.base Ex.ctx.emb + Ex.item.rate Ex.ctx.emb) * 9 :=
  C115_iteration Ex.ctx (by decide) (by decide) ⟨[1, 2, 1, 104, 105, 0, 7, 0, 0], 1000⟩ (n := 2) (by
    have : Lst.steps (Ex.item.parse Ex.ctx) 2 ⟨[1, 2, 1, 104, 105, 0, 7, 0, 0], 1000⟩ =
        [some (.ok Ex.itemV), some (.ok Ex.itemW)] := by krfl
    rw [this]
    simp)

/-- The two items and the failure behind them. -/
example : Lst.stepsWork (Ex.item.parse Ex.ctx) (Ex.item.work Ex.ctx) 3 ⟨[1, 2, 1, 104, 105, 0, 7, 0, 0], 1000⟩ = 17 ∧
    Lst.stepsWork (Ex.item.parse Ex.ctx) (Ex.item.work Ex.ctx) 3 ⟨[7, 0, 0], 1⟩ = 6 := by decide +kernel

/-- C115: when items may be empty the time is not bounded by the length: the prefix alone makes decoding do
whatever number of items it announces. -/
theorem C115_announced (c : Ctx) {item : Message} (hk : item.AllMessages Message.Keyed) (h0 : item.least = 0)
    {id : Nat} (hid : c.emb id = true) (name field : Name) (ty : FixedTy) (s1 s2 : SizeInfo) (e : Endian) {n : Nat}
    (hn : n < 256 ^ ty.byteSize) :
    ∃ b, b.length = ty.byteSize ∧
      (∃ v, (Message.mk id name [.mk field (.list ty item) false s1 e] s2).parse c b = .ok ⟨ty.byteSize, v⟩) ∧
      (Message.mk id name [.mk field (.list ty item) false s1 e] s2).work c b = 3 + n * (1 + item.work c []) ∧
      1 ≤ item.work c [] := by
  obtain ⟨v, hv⟩ := (emptyInd c).all item hk h0
  have hlen : (wireInt e ty.byteSize n).length = ty.byteSize := wireInt_length e _ n
  have htake : (wireInt e ty.byteSize n).take ty.byteSize = wireInt e ty.byteSize n :=
    List.take_of_length_le (by omega)
  have hint : intOfWire e (wireInt e ty.byteSize n) = n := by rw [intOfWire_wireInt, Nat.mod_eq_of_lt hn]
  have hdrop : (wireInt e ty.byteSize n).drop ty.byteSize = [] := List.drop_of_length_le (by omega)
  have hp : Lst.fromSlice e ty.byteSize (item.parse c) (wireInt e ty.byteSize n) =
      .ok ⟨ty.byteSize, ⟨[], n⟩⟩ := (Lst.fromSlice_eq_ok (Message.cut c item)).2
    ⟨0, by omega, by rw [htake, hint], by rw [hdrop]; exact Lst.scanR_stuck hv n, by omega, by simp⟩
  have hp' : MField.parse c true (.mk field (.list ty item) false s1 e) [] (wireInt e ty.byteSize n) =
      .ok ⟨ty.byteSize, .seq ⟨[], n⟩⟩ := by
    simp only [MField.parse, MFieldTy.parse, Bool.false_eq_true, if_false, if_true, Parser.map, hp]
    rfl
  refine ⟨wireInt e ty.byteSize n, hlen, ⟨.msg [(field, .seq ⟨[], n⟩)], ?_⟩, ?_, ?_⟩
  · refine Message.parse_eq_ok.2 ⟨_, rfl, ?_⟩
    simp only [Message.id, Message.fields, hid, runFields, hp']
    rfl
  · have hd0 : dropFrom (wireInt e ty.byteSize n) 0 = .ok (wireInt e ty.byteSize n) := by
      rw [dropFrom_ok (Nat.zero_le _), List.drop_zero]
    simp only [Message.work, hid, MField.workList, hd0, hp', MField.work, Bool.false_eq_true, if_false, MFieldTy.work,
      if_true, Lst.work_eq, htake, hint, hdrop, Lst.scanWork_stuck _ hv]
    rw [if_pos (by omega)]
    omega
  · obtain ⟨_, _, _, _⟩ := item
    simp only [Message.work]
    omega

/-- Four bytes make the decoder of a list of empty messages do seventeen billion steps. -/
example : ∃ b, b.length = 4 ∧ 17179869183 ≤
    (Message.mk 20 "L".toList [.mk "l".toList (.list .u32 Ex.hollow) false ⟨true, true⟩ .little] ⟨true, true⟩).work
      Ex.ctx b := by
  obtain ⟨b, h1, _, h2, _⟩ := C115_announced Ex.ctx Ex.hollow_keyed rfl (id := 20) rfl "L".toList "l".toList .u32
    ⟨true, true⟩ ⟨true, true⟩ .little (n := 4294967295) (by decide)
  refine ⟨b, h1, ?_⟩
  rw [h2, show Ex.hollow.work Ex.ctx [] = 3 by decide +kernel]
  omega

/-- C115: what strings cost: a zero-terminated one two units for each byte, a counted one one unit, however long the
input goes on behind them. -/
theorem C115_strings (c : Ctx) (here : Bool) (e : Endian) (env : Env) (ty : FixedTy) {s : Bytes} (t : Bytes) :
    (0 ∉ s → MFieldTy.work c here e .nullTerminatedString env (s ++ 0 :: t) = 2 + 2 * s.length) ∧
    (s.length < 256 ^ ty.byteSize → ty.byteSize + s.length < 2 ^ 64 →
      MFieldTy.work c here e (.varcharString ty) env (wireInt e ty.byteSize s.length ++ s ++ t) = 2 + s.length) := by
  simp only [MFieldTy.work]
  exact ⟨NullTerminated.work_split, Varchar.work_split⟩

theorem Referenced.one_le_work (c : Ctx) (r : Referenced) (b : Bytes) : 1 ≤ r.work c b := by
  cases r with
  | struct s => simp only [Referenced.work]; omega
  | message m =>
    obtain ⟨_, _, _, _⟩ := m
    simp only [Referenced.work, Message.work]
    omega

theorem MField.one_le_work (c : Ctx) (here : Bool) (f : MField) (env : Env) (b : Bytes) : 1 ≤ f.work c here env b := by
  obtain ⟨_, ty, o, _, e⟩ := f
  have h : ∀ b, 1 ≤ ty.work c here e env b := by
    intro b
    cases ty with
    | fixed ty => simp only [MFieldTy.work]; omega
    | ref r => simp only [MFieldTy.work]; exact Referenced.one_le_work c r b
    | nullTerminatedString => simp only [MFieldTy.work, NullTerminated.work]; omega
    | varcharString ty => simp only [MFieldTy.work, Varchar.work]; omega
    | array ty s => simp only [MFieldTy.work]; omega
    | union u on i =>
      obtain ⟨_, _, _, _⟩ := u
      simp only [MFieldTy.work, Union.work]
      omega
    | list ty m =>
      simp only [MFieldTy.work, Lst.work]
      split <;> omega
    | payload => simp only [MFieldTy.work]; omega
  simp only [MField.work]
  split
  · cases b with
    | nil => simp only [Optional.work]; omega
    | cons x b =>
      simp only [Optional.work]
      split <;> omega
  · exact h b

example (c : Ctx) (t : Bytes) : MFieldTy.work c true .big (.varcharString .u16) [] (0 :: 2 :: 65 :: 66 :: t) = 4 ∧
    MFieldTy.work c true .big .nullTerminatedString [] (65 :: 66 :: 0 :: t) = 6 :=
  ⟨(C115_strings c true .big [] .u16 (s := [65, 66]) t).2 (by decide) (by decide),
    (C115_strings c true .big [] .u16 (s := [65, 66]) t).1 (by decide)⟩

/-- C115: nothing is skipped: a message that could be decoded took one step and one for each field. -/
theorem C115_fields (c : Ctx) {m : Message} {b : Bytes} {n : Nat} {v : Value} (h : m.parse c b = .ok ⟨n, v⟩) :
    1 + m.fields.length ≤ m.work c b := by
  obtain ⟨id, name, fs, sz⟩ := m
  obtain ⟨vs, _, hr⟩ := Message.parse_eq_ok.1 h
  simp only [Message.work, Message.fields, Message.id] at hr ⊢
  have key : ∀ (fs : List MField) (env : Env) (off : Nat) (n : Nat) (vs : Env), off ≤ b.length →
      runFields (MField.parse c (c.emb id)) fs env (b.drop off) = .ok (n, vs) →
      fs.length ≤ MField.workList c (c.emb id) fs env off b := by
    intro fs
    induction fs with
    | nil => intros; exact Nat.zero_le _
    | cons f fs ih =>
      intro env off n vs ho hr
      obtain ⟨m, v, k, h1, h2, _⟩ := runFields_cons_ok.1 hr
      have h3 := (MField.cut c (c.emb id) f env _ _ _ h1).1
      simp only [List.length_drop] at h3
      rw [List.drop_drop] at h2
      have := ih (env ++ [(f.name, v)]) (off + m) k vs (by omega) h2
      have := MField.one_le_work c (c.emb id) f env (b.drop off)
      simp only [MField.workList, dropFrom_ok ho, h1, List.length_cons]
      omega
  have := key fs [] 0 n vs (Nat.zero_le _) (by simpa using hr)
  omega

example : 1 + 6 ≤ Ex.full.work Ex.ctx (Ex.full.write Ex.ctx Ex.fullV).bytes :=
  C115_fields Ex.ctx (C22_roundtrip Ex.ctx (by decide) Ex.fullV_repr).2

end Props

end Proto
