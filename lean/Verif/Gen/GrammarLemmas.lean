import Verif.Spec.Grammar
import Verif.Gen.RoundTrip
import Verif.Gen.WireLemmas
import Verif.Gen.Totality

/-!
# Decoders accept exactly the grammar
-/

namespace Proto

/-! ## What is accepted is in the grammar -/

/-- The part of `countFits` that speaks of the type. -/
def MFieldTy.fits : MFieldTy → Bool
  | .array ty s => decide ((256 ^ ty.byteSize - 1) * s.byteSize + ty.byteSize < 2 ^ 64)
  | _ => true

theorem MField.fits_ty (f : MField) (h : f.countFits = true) : f.ty.fits = true := by
  unfold MField.countFits at h
  unfold MFieldTy.fits
  split <;> simp_all

theorem wireInt_take (e : Endian) {sz : Nat} {b : Bytes} (h : sz ≤ b.length) :
    wireInt e sz (intOfWire e (b.take sz)) = b.take sz := by
  have := wireInt_intOfWire e (b.take sz)
  rwa [List.length_take, Nat.min_eq_left h] at this

theorem intOfWire_take (e : Endian) {sz : Nat} {b : Bytes} (h : sz ≤ b.length) :
    intOfWire e (b.take sz) < 256 ^ sz := by
  have := intOfWire_lt e (b.take sz)
  rwa [List.length_take, Nat.min_eq_left h] at this

theorem Union.parseCases_enc {c : Ctx} {cs : List UCase} {b : Bytes}
    (h : ∀ k ∈ cs, ∀ r, k.itemType = some r → ∀ n v, r.parse c b = .ok ⟨n, v⟩ → r.Enc c v (b.take n))
    (d i0 : Nat) {n : Nat} {v : Value} (hv : Union.parseCases c cs i0 d b = .ok ⟨n, v⟩) :
    ∃ i x, v = .union (i0 + i) x ∧ UCase.EncCase c cs i d x (b.take n) := by
  induction cs generalizing i0 with
  | nil => simp [Union.parseCases] at hv
  | cons k cs ih =>
    obtain ⟨nm, case, t⟩ := k
    by_cases hd : d = case
    · refine ⟨0, ?_⟩
      cases t with
      | none =>
        simp only [Union.parseCases, if_pos hd, Res.ok.injEq, Msg.mk.injEq] at hv
        exact ⟨.unit, by rw [← hv.2]; rfl, by simp [UCase.EncCase, hd, ← hv.1]⟩
      | some r =>
        simp only [Union.parseCases, if_pos hd] at hv
        obtain ⟨x, hx, rfl⟩ := Parser.map_eq_ok.mp hv
        refine ⟨x, rfl, ?_⟩
        simp only [UCase.EncCase, if_true]
        exact ⟨hd, h (.mk nm case (some r)) (by simp) r rfl n x hx⟩
    · have hp : Union.parseCases c (.mk nm case t :: cs) i0 d = Union.parseCases c cs (i0 + 1) d := by
        cases t <;> simp only [Union.parseCases, if_neg hd]
      rw [hp] at hv
      obtain ⟨i, x, rfl, hr⟩ := ih (fun k hk => h k (by simp [hk])) (i0 + 1) hv
      refine ⟨i + 1, x, by congr 1; omega, ?_⟩
      cases t <;>
        simpa only [UCase.EncCase, if_neg (Nat.succ_ne_zero i), Nat.add_sub_cancel] using ⟨hd, hr⟩

theorem Lst.scanR_enc {f : Parser Value} {P : Value → Bytes → Prop}
    (h : ∀ b n v, f b = .ok ⟨n, v⟩ → P v (b.take n)) {n : Nat} {b : Bytes} {k : Nat}
    (hs : Lst.scanR f n b = .ok k) :
    ∃ items : List Bytes, items.length = n ∧ b.take k = items.flatten ∧ ∀ x ∈ items, ∃ y, P y x := by
  induction n generalizing b k with
  | zero => cases hs; exact ⟨[], rfl, by simp, by simp⟩
  | succ n ih =>
    obtain ⟨m, v, j, hf, hj, rfl⟩ := Lst.scanR_succ_eq_ok.mp hs
    obtain ⟨items, h1, h2, h3⟩ := ih hj
    refine ⟨b.take m :: items, by simp [h1], ?_, ?_⟩
    · rw [List.flatten_cons, ← h2, ← List.take_add]
    · intro x hx
      rcases List.mem_cons.mp hx with rfl | hx
      · exact ⟨v, h b m v hf⟩
      · exact h3 x hx

theorem MField.parse_enc {c : Ctx} {emb : Bool} {f : MField} {env : Env}
    (h : ∀ b n v, f.ty.parse c emb f.endian env b = .ok ⟨n, v⟩ →
      f.ty.Enc c emb f.endian env v (b.take n)) {b : Bytes} {n : Nat} {v : Value}
    (hv : f.parse c emb env b = .ok ⟨n, v⟩) : f.Enc c emb env v (b.take n) := by
  obtain ⟨nm, ty, o, sz, e⟩ := f
  simp only [MField.ty, MField.endian] at h
  cases o with
  | false =>
    simp only [MField.parse, MField.Enc, Bool.false_eq_true, if_false] at hv ⊢
    exact h b n v hv
  | true =>
    simp only [MField.parse, MField.Enc, if_true] at hv ⊢
    obtain ⟨o, ho, rfl⟩ := Parser.map_eq_ok.mp hv
    rcases Optional.fromSlice_eq_ok.mp ho with ⟨t, rfl, rfl, rfl⟩ | ⟨x, t, m, w, rfl, hx, hm, rfl, rfl⟩
    · exact .inl ⟨rfl, rfl⟩
    · exact .inr ⟨w, x, t.take m, rfl, hx, by simp, h t m w hm⟩

theorem MField.list_enc {c : Ctx} {emb : Bool} {fs : List MField}
    (h : ∀ f ∈ fs, ∀ env b n v, f.parse c emb env b = .ok ⟨n, v⟩ → f.Enc c emb env v (b.take n))
    {env vs : Env} {b : Bytes} {n : Nat}
    (hr : runFields (MField.parse c emb) fs env b = .ok (n, env ++ vs)) :
    MField.ListEnc c emb fs env vs (b.take n) := by
  induction fs generalizing env vs b n with
  | nil =>
    simp only [runFields, Res.ok.injEq, Prod.mk.injEq] at hr
    simp only [MField.ListEnc]
    exact ⟨(List.append_cancel_left (by simpa using hr.2 : env ++ [] = env ++ vs)).symm, by
      rw [← hr.1]; rfl⟩
  | cons f fs ih =>
    obtain ⟨m, v, k, hv, hk, rfl⟩ := runFields_cons_ok.mp hr
    obtain ⟨rest, hrest⟩ := runFields_env hk
    have hvs : vs = (f.name, v) :: rest := by
      have := hrest
      rw [List.append_assoc] at this
      simpa using List.append_cancel_left this
    subst hvs
    have he : env ++ (f.name, v) :: rest = env ++ [(f.name, v)] ++ rest := by simp
    rw [he] at hk
    simp only [MField.ListEnc]
    exact ⟨v, rest, _, _, rfl, List.take_add, h f (by simp) env b m v hv,
      ih (fun g hg => h g (by simp [hg])) hk⟩

theorem encInd (c : Ctx) : SchemaInd
    (fun m => (c.p = .checked ∨ m.allFields MField.countFits = true) →
      ∀ b n v, m.parse c b = .ok ⟨n, v⟩ → m.Enc c v (b.take n))
    (fun t => (c.p = .checked ∨ t.fits = true ∧ t.allFields MField.countFits = true) →
      ∀ emb e env b n v, t.parse c emb e env b = .ok ⟨n, v⟩ → t.Enc c emb e env v (b.take n)) where
  fixed ty _ emb e env b n v hv := by
    simp only [MFieldTy.parse] at hv
    obtain ⟨x, hx, rfl⟩ := Parser.map_eq_ok.mp hv
    obtain ⟨h1, h2⟩ := Scalar.fromSlice_eq_ok.mp hx
    cases h2
    simp only [MFieldTy.Enc]
    exact ⟨_, rfl, intOfWire_take e h1, (wireInt_take e h1).symm⟩
  struct s _ emb e env b n v hv := by
    simp only [MFieldTy.parse, Referenced.parse] at hv
    obtain ⟨h1, rfl, rfl⟩ := Structure.parse_eq_ok.mp hv
    simp only [MFieldTy.Enc, Referenced.Enc]
    exact ⟨by trivial, by simp; omega⟩
  message m h h1 emb e env b n v hv := by
    simp only [MFieldTy.parse, Referenced.parse] at hv
    simp only [MFieldTy.allFields, Referenced.allFields] at h1
    simpa only [MFieldTy.Enc, Referenced.Enc] using h (h1.imp_right And.right) b n v hv
  nul _ emb e env b n v hv := by
    simp only [MFieldTy.parse] at hv
    obtain ⟨x, hx, rfl⟩ := Parser.map_eq_ok.mp hv
    obtain ⟨t, rfl, h1, h2, rfl⟩ := NullTerminated.fromSlice_eq_ok.mp hx
    simp only [MFieldTy.Enc]
    exact ⟨_, rfl, (validUtf8_iff _).mp h2, h1, by
      rw [List.take_append, List.take_of_length_le (by omega)]; simp⟩
  varchar ty _ emb e env b n v hv := by
    simp only [MFieldTy.parse] at hv
    obtain ⟨x, hx, rfl⟩ := Parser.map_eq_ok.mp hv
    obtain ⟨h1, rfl, h2, h3, t, rfl⟩ := (Varchar.fromSlice_eq_ok (by cases ty <;> decide)).mp hx
    simp only [MFieldTy.Enc]
    exact ⟨_, rfl, (validUtf8_iff _).mp h1, h2, by
      rw [List.take_append_of_le_length (by simp), List.take_of_length_le (by simp)]⟩
  array ty s hx emb e env b n v hv := by
    simp only [MFieldTy.fits, decide_eq_true_eq] at hx
    simp only [MFieldTy.parse] at hv
    obtain ⟨x, hx', rfl⟩ := Parser.map_eq_ok.mp hv
    obtain ⟨body, hsz, hlen, hm, ha, h1, h2, hd⟩ := Arr.fromSlice_eq_ok.mp hx'
    have hlt := intOfWire_take e hsz
    rw [← hlen] at hlt
    have hle : x.len * s.byteSize ≤ (256 ^ ty.byteSize - 1) * s.byteSize :=
      Nat.mul_le_mul_right _ (by omega)
    obtain ⟨e1, -⟩ := mulU_eq_ok hm (hx.imp_right fun hx => by show _ < 2 ^ 64; omega)
    obtain ⟨e2, -⟩ := addU_eq_ok ha (hx.imp_right fun hx => by show _ < 2 ^ 64; omega)
    obtain ⟨d, len⟩ := x
    simp only at hlen hd hlt e1
    simp only [MFieldTy.Enc]
    refine ⟨len, d, rfl, hlt, by rw [hd]; simp; omega, ?_⟩
    rw [hlen, wireInt_take e hsz, hd, ← List.take_add]
    congr 1; omega
  union nm d cs sz on i h hx emb e env b n v hv := by
    simp only [MFieldTy.parse, Union.parse] at hv
    obtain ⟨dv, hd, hv⟩ := Res.bind_eq_ok.mp hv
    simp only [MFieldTy.allFields, Union.allFields] at hx
    obtain ⟨i, x, rfl, hr⟩ := Union.parseCases_enc (fun k hk r hr n v hv => by
      have := h k hk r hr (hx.imp_right fun hx => ⟨rfl, by
        simpa only [MFieldTy.allFields] using UCase.listAllFields_mem hx.2 k hk r hr⟩)
        emb e [] b n v (by simpa only [MFieldTy.parse] using hv)
      simpa only [MFieldTy.Enc] using this) dv 0 hv
    simp only [MFieldTy.Enc, Union.Enc]
    exact ⟨i, x, dv, by rw [Nat.zero_add], hd, hr⟩
  list ty m h hx emb e env b n v hv := by
    simp only [MFieldTy.allFields] at hx
    simp only [MFieldTy.parse] at hv
    simp only [MFieldTy.Enc]
    cases emb with
    | false =>
      simp only [Bool.false_eq_true, if_false] at hv
      obtain ⟨x, hx, rfl⟩ := Parser.map_eq_ok.mp hv
      obtain ⟨hsz, rfl, rfl⟩ := Lst.unsized_eq_ok.mp hx
      exact ⟨_, _, rfl, intOfWire_take e hsz, by rw [wireInt_take e hsz]; simp, by simp⟩
    | true =>
      simp only [if_true] at hv
      obtain ⟨x, hx', rfl⟩ := Parser.map_eq_ok.mp hv
      obtain ⟨k, hsz, hlen, hk, rfl, hd⟩ := (Lst.fromSlice_eq_ok (Message.cut c m)).mp hx'
      obtain ⟨items, g1, g2, g3⟩ := Lst.scanR_enc (P := m.Enc c)
        (h (hx.imp_right And.right)) hk
      obtain ⟨d, len⟩ := x
      simp only at hlen hd g1 hk
      refine ⟨len, d, rfl, by rw [hlen]; exact intOfWire_take e hsz, ?_,
        fun _ => ⟨items, g1, by rw [hd, g2], g3⟩⟩
      rw [hlen, wireInt_take e hsz, hd, ← List.take_add, Nat.add_comm]
  payload _ emb e env b n v hv := by
    simp only [MFieldTy.parse] at hv
    obtain ⟨x, hx, rfl⟩ := Parser.map_eq_ok.mp hv
    obtain ⟨rfl, rfl⟩ := Buffer.fromSlice_eq_ok.mp hx
    simp only [MFieldTy.Enc, List.take_length]
  msg id nm fs sz h hx b n v hv := by
    obtain ⟨vs, rfl, hr⟩ := Message.parse_eq_ok.mp hv
    simp only [Message.id, Message.fields] at hr
    simp only [Message.allFields] at hx
    simp only [Message.Enc]
    refine ⟨vs, rfl, MField.list_enc (env := []) (fun f hf env b n v hv => ?_) hr⟩
    exact MField.parse_enc (fun b n v hv => h f hf (hx.imp_right fun hx => by
      obtain ⟨a1, a2⟩ := MField.listAllFields_mem hx f hf
      exact ⟨f.fits_ty a1, a2⟩) _ _ env b n v hv) hv

/-! ## What is in the grammar is accepted -/

/-- `f` decodes `w` to `v`, whatever follows if `delim`, alone if `tail`. -/
def Takes (f : Parser Value) (w : Bytes) (v : Value) (delim tail : Prop) : Prop :=
  (delim → ∀ t, f (w ++ t) = .ok ⟨w.length, v⟩) ∧ (tail → f w = .ok ⟨w.length, v⟩)

theorem Takes.of_all {f : Parser Value} {w : Bytes} {v : Value} {d t : Prop}
    (hf : ∀ t, f (w ++ t) = .ok ⟨w.length, v⟩) : Takes f w v d t :=
  ⟨fun _ => hf, fun _ => by simpa using hf []⟩

/-- A field type decodes its grammar. -/
def MFieldTy.Accepts (c : Ctx) (t : MFieldTy) : Prop :=
  ∀ emb e env v w, w.length < 2 ^ 64 → t.Enc c emb e env v w →
    Takes (t.parse c emb e env) w v (t.delimited c.emb emb = true) (t.tailGreedy c.emb emb = true)

/-- A message decodes its grammar. -/
def Message.Accepts (c : Ctx) (m : Message) : Prop :=
  ∀ v w, w.length < 2 ^ 64 → m.Enc c v w →
    Takes (m.parse c) w v (m.delimited c.emb = true) (m.tailGreedy c.emb = true)

theorem Union.cases_takes {c : Ctx} {cs : List UCase}
    (h : ∀ k ∈ cs, ∀ r, k.itemType = some r → MFieldTy.Accepts c (.ref r)) {i d : Nat} {x : Value}
    {w : Bytes} (hw : w.length < 2 ^ 64) (hr : UCase.EncCase c cs i d x w) (i0 : Nat) :
    Takes (Union.parseCases c cs i0 d) w (.union (i0 + i) x)
      (∀ k ∈ cs, ∀ r, k.itemType = some r → r.delimited c.emb = true)
      (∀ k ∈ cs, ∀ r, k.itemType = some r → r.tailGreedy c.emb = true) := by
  induction cs generalizing i i0 with
  | nil => simp only [UCase.EncCase] at hr
  | cons k cs ih =>
    obtain ⟨n, case, t⟩ := k
    by_cases hi : i = 0
    · subst hi
      cases t with
      | none =>
        simp only [UCase.EncCase, if_true] at hr
        obtain ⟨rfl, rfl, rfl⟩ := hr
        simp only [Union.parseCases, if_true]
        exact Takes.of_all (fun t => rfl)
      | some r =>
        simp only [UCase.EncCase, if_true] at hr
        obtain ⟨rfl, hx⟩ := hr
        simp only [Union.parseCases, if_true]
        have h' := h (.mk n d (some r)) (by simp) r rfl false .little [] x w hw
          (by simpa only [MFieldTy.Enc] using hx)
        simp only [MFieldTy.parse, MFieldTy.delimited, MFieldTy.tailGreedy] at h'
        refine ⟨fun hd t => ?_, fun ht => ?_⟩
        · exact Parser.map_eq_ok.mpr ⟨x, h'.1 (hd (.mk n d (some r)) (by simp) r rfl) t, rfl⟩
        · exact Parser.map_eq_ok.mpr ⟨x, h'.2 (ht (.mk n d (some r)) (by simp) r rfl), rfl⟩
    · have hr' : d ≠ case ∧ UCase.EncCase c cs (i - 1) d x w := by
        cases t <;> simpa only [UCase.EncCase, if_neg hi] using hr
      obtain ⟨hne, hr⟩ := hr'
      have ih' := ih (fun k hk => h k (by simp [hk])) hr (i0 + 1)
      rw [show i0 + 1 + (i - 1) = i0 + i by omega] at ih'
      have hp : Union.parseCases c (.mk n case t :: cs) i0 d = Union.parseCases c cs (i0 + 1) d := by
        cases t <;> simp only [Union.parseCases, if_neg hne]
      rw [hp]
      exact ⟨fun hd => ih'.1 (fun k hk => hd k (by simp [hk])),
        fun ht => ih'.2 (fun k hk => ht k (by simp [hk]))⟩

theorem MField.takes {c : Ctx} {emb : Bool} {f : MField} (h : f.ty.Accepts c) {env : Env}
    {v : Value} {w : Bytes} (hw : w.length < 2 ^ 64) (hr : f.Enc c emb env v w) :
    Takes (f.parse c emb env) w v (f.ty.delimited c.emb emb = true)
      (f.ty.tailGreedy c.emb emb = true) := by
  obtain ⟨n, ty, o, sz, e⟩ := f
  simp only [MField.ty] at h ⊢
  simp only [MField.Enc] at hr
  simp only [MField.parse]
  cases o with
  | false => exact h emb e env v w hw hr
  | true =>
    simp only [if_true] at hr ⊢
    rcases hr with ⟨rfl, rfl⟩ | ⟨x, flag, w', rfl, hflag, rfl, hr⟩
    · refine Takes.of_all (fun t => ?_)
      exact Parser.map_eq_ok.mpr ⟨none, Optional.fromSlice_none t, rfl⟩
    · simp only [List.length_cons] at hw
      obtain ⟨h2, h3⟩ := h emb e env x w' (by omega) hr
      refine ⟨fun hd t => ?_, fun ht => ?_⟩
      · refine Parser.map_eq_ok.mpr ⟨some x, ?_, rfl⟩
        rw [List.cons_append]
        exact Optional.fromSlice_eq_ok.mpr (.inr ⟨flag, _, _, x, rfl, hflag, h2 hd t, rfl, rfl⟩)
      · refine Parser.map_eq_ok.mpr ⟨some x, ?_, rfl⟩
        exact Optional.fromSlice_eq_ok.mpr (.inr ⟨flag, _, _, x, rfl, hflag, h3 ht, rfl, rfl⟩)

theorem MField.list_takes {c : Ctx} {emb : Bool} {fs : List MField} (h : ∀ f ∈ fs, f.ty.Accepts c)
    {env vs : Env} {w : Bytes} (hw : w.length < 2 ^ 64) (hr : MField.ListEnc c emb fs env vs w) :
    (MField.listDelimited c.emb emb fs = true → ∀ t,
      runFields (MField.parse c emb) fs env (w ++ t) = .ok (w.length, env ++ vs)) ∧
    (MField.listTailGreedy c.emb emb fs = true →
      runFields (MField.parse c emb) fs env w = .ok (w.length, env ++ vs)) := by
  induction fs generalizing env vs w with
  | nil =>
    simp only [MField.ListEnc] at hr
    obtain ⟨rfl, rfl⟩ := hr
    refine ⟨fun _ t => ?_, fun _ => ?_⟩ <;> simp [runFields]
  | cons f fs ih =>
    simp only [MField.ListEnc] at hr
    obtain ⟨v, rest, w1, w2, rfl, rfl, hv, hrest⟩ := hr
    rw [List.length_append] at hw
    obtain ⟨h2, h3⟩ := MField.takes (h f (by simp)) (by omega) hv
    obtain ⟨g2, g3⟩ := ih (fun g hg => h g (by simp [hg])) (by omega) hrest
    have he : env ++ [(f.name, v)] ++ rest = env ++ (f.name, v) :: rest := by simp
    rw [he] at g2 g3
    refine ⟨fun hd t => ?_, fun ht => ?_⟩
    · obtain ⟨n, ty, o, sz, e⟩ := f
      simp only [MField.listDelimited, Bool.and_eq_true] at hd
      refine runFields_cons_ok.mpr ⟨_, v, _, ?_, ?_, by rw [List.length_append]⟩
      · rw [List.append_assoc]; exact h2 hd.1 _
      · rw [List.append_assoc, List.drop_left]
        exact g2 hd.2 t
    · obtain ⟨n, ty, o, sz, e⟩ := f
      cases fs with
      | nil =>
        simp only [MField.listTailGreedy] at ht
        simp only [MField.ListEnc] at hrest
        obtain ⟨rfl, rfl⟩ := hrest
        rw [List.append_nil]
        refine runFields_cons_ok.mpr ⟨_, v, 0, h3 ht, ?_, by omega⟩
        simp [runFields]
      | cons f2 fs2 =>
        simp only [MField.listTailGreedy, Bool.and_eq_true] at ht
        refine runFields_cons_ok.mpr ⟨_, v, _, h2 ht.1 _, ?_, by rw [List.length_append]⟩
        rw [List.drop_left]
        exact g3 ht.2

theorem Parser.blocks_flatten {f : Parser Value} {items : List Bytes}
    (h : ∀ x ∈ items, ∃ y, ∀ t, f (x ++ t) = .ok ⟨x.length, y⟩) :
    ∃ vs : List Value, vs.length = items.length ∧ f.Blocks vs items.flatten := by
  induction items with
  | nil => exact ⟨[], rfl, .nil⟩
  | cons x xs ih =>
    obtain ⟨y, hy⟩ := h x (by simp)
    obtain ⟨vs, h1, h2⟩ := ih (fun z hz => h z (by simp [hz]))
    exact ⟨y :: vs, by simp [h1], .cons hy h2⟩

theorem acceptsInd (c : Ctx) : SchemaInd (Message.Accepts c) (MFieldTy.Accepts c) where
  fixed ty emb e env v w hw hr := by
    simp only [MFieldTy.Enc] at hr
    obtain ⟨n, rfl, hn, rfl⟩ := hr
    simp only [MFieldTy.parse]
    refine Takes.of_all (fun t => Parser.map_eq_ok.mpr ⟨n, ?_, rfl⟩)
    rw [Scalar.fromSlice_wire e hn]; simp
  struct s emb e env v w hw hr := by
    simp only [MFieldTy.Enc, Referenced.Enc] at hr
    obtain ⟨rfl, hb⟩ := hr
    simp only [MFieldTy.parse, Referenced.parse]
    refine Takes.of_all (fun t => ?_)
    refine Structure.parse_eq_ok.mpr ⟨by simp; omega, hb, ?_⟩
    rw [← hb]; simp
  message m h emb e env v w hw hr := by
    simp only [MFieldTy.Enc, Referenced.Enc] at hr
    simp only [MFieldTy.parse, Referenced.parse, MFieldTy.delimited, Referenced.delimited,
      MFieldTy.tailGreedy, Referenced.tailGreedy]
    exact h v w hw hr
  nul emb e env v w hw hr := by
    simp only [MFieldTy.Enc] at hr
    obtain ⟨s, rfl, hs, h0, rfl⟩ := hr
    simp only [MFieldTy.parse]
    refine Takes.of_all (fun t => Parser.map_eq_ok.mpr ⟨s, ?_, rfl⟩)
    exact NullTerminated.fromSlice_eq_ok.mpr ⟨t, by simp, h0, (validUtf8_iff s).mpr hs, by simp⟩
  varchar ty emb e env v w hw hr := by
    simp only [MFieldTy.Enc] at hr
    obtain ⟨s, rfl, hs, h1, rfl⟩ := hr
    simp only [MFieldTy.parse]
    refine Takes.of_all (fun t => Parser.map_eq_ok.mpr ⟨s, ?_, rfl⟩)
    exact (Varchar.fromSlice_eq_ok (by cases ty <;> decide)).mpr
      ⟨(validUtf8_iff s).mpr hs, by simp, h1, by simpa using hw, t, rfl⟩
  array ty s emb e env v w hw hr := by
    simp only [MFieldTy.Enc] at hr
    obtain ⟨n, d, rfl, h1, h2, rfl⟩ := hr
    simp only [MFieldTy.parse]
    have hl : (wireInt e ty.byteSize n).length = ty.byteSize := by simp
    rw [List.length_append, hl, h2] at hw
    refine Takes.of_all (fun t => Parser.map_eq_ok.mpr ⟨_, ?_, rfl⟩)
    refine Arr.fromSlice_eq_ok.mpr ⟨n * s.byteSize, by simp, ?_, ?_, ?_, by simp, ?_, ?_⟩
    · rw [List.append_assoc, List.take_append_of_le_length (by omega),
        List.take_of_length_le (by omega), intOfWire_wireInt, Nat.mod_eq_of_lt h1]
    · exact mulU_ok c.p (by show n * s.byteSize < 2 ^ 64; omega)
    · rw [List.length_append, hl, h2]; exact addU_ok c.p (by unfold usizeBits; omega)
    · rw [List.length_append]; omega
    · rw [List.append_assoc, List.drop_append_of_le_length (by omega),
        List.drop_of_length_le (by omega), List.nil_append, List.length_append, hl,
        Nat.add_sub_cancel_left]
      exact List.take_left.symm
  union n d cs sz on i h emb e env v w hw hr := by
    simp only [MFieldTy.Enc, Union.Enc] at hr
    obtain ⟨i, x, dv, rfl, hd, hr⟩ := hr
    simp only [MFieldTy.parse, Union.parse, MFieldTy.delimited, Union.delimited,
      MFieldTy.tailGreedy, Union.tailGreedy]
    have hcs := Union.cases_takes h hw hr 0
    rw [Nat.zero_add] at hcs
    simp only [hd, Res.bind_ok]
    exact ⟨fun hdel => hcs.1 (UCase.listDelimited_mem hdel),
      fun htg => hcs.2 (UCase.listTailGreedy_mem htg)⟩
  list ty m h emb e env v w hw hr := by
    simp only [MFieldTy.Enc] at hr
    obtain ⟨n, d, rfl, h1, rfl, h2⟩ := hr
    simp only [MFieldTy.parse, MFieldTy.delimited, MFieldTy.tailGreedy]
    have hl : (wireInt e ty.byteSize n).length = ty.byteSize := by simp
    rw [List.length_append, hl] at hw
    cases emb with
    | false =>
      refine ⟨fun hd => by simp at hd, fun _ => ?_⟩
      simp only [Bool.false_eq_true, if_false]
      refine Parser.map_eq_ok.mpr ⟨_, ?_, rfl⟩
      refine Lst.unsized_eq_ok.mpr ⟨by simp, rfl, ?_⟩
      rw [List.take_append_of_le_length (by omega), List.take_of_length_le (by omega),
        intOfWire_wireInt, Nat.mod_eq_of_lt h1, List.drop_append_of_le_length (by omega),
        List.drop_of_length_le (by omega), List.nil_append]
    | true =>
      obtain ⟨items, rfl, rfl, hrep⟩ := h2 rfl
      simp only [Bool.true_and, Bool.not_true, Bool.false_or, if_true]
      have key : m.delimited c.emb = true → ∀ t, Lst.fromSlice e ty.byteSize (m.parse c)
          (wireInt e ty.byteSize items.length ++ items.flatten ++ t) =
            .ok ⟨(wireInt e ty.byteSize items.length ++ items.flatten).length,
              ⟨items.flatten, items.length⟩⟩ := by
        intro hd t
        obtain ⟨vs, g1, g2⟩ := Parser.blocks_flatten (f := m.parse c) (items := items)
          (fun x hx => by
            obtain ⟨y, hy⟩ := hrep x hx
            have hle : x.length ≤ items.flatten.length := by
              obtain ⟨a, b, rfl⟩ := List.append_of_mem hx
              simp; omega
            exact ⟨y, (h y x (by omega) hy).1 hd⟩)
        have := Lst.fromSlice_blocks (Message.cut c m) (l := ⟨items.flatten, items.length⟩) g2 g1
          (e := e) h1 t
        rwa [Seq.writeTo_bytes] at this
      refine ⟨fun hd t => Parser.map_eq_ok.mpr ⟨_, key hd t, rfl⟩, fun hd => ?_⟩
      have := key hd []
      rw [List.append_nil] at this
      exact Parser.map_eq_ok.mpr ⟨_, this, rfl⟩
  payload emb e env v w hw hr := by
    simp only [MFieldTy.Enc] at hr
    subst hr
    simp only [MFieldTy.parse, MFieldTy.delimited]
    refine ⟨fun hd => by simp at hd, fun _ => Parser.map_eq_ok.mpr ⟨w, ?_, rfl⟩⟩
    exact Buffer.fromSlice_eq_ok.mpr ⟨rfl, rfl⟩
  msg id n fs sz h v w hw hr := by
    simp only [Message.Enc] at hr
    obtain ⟨vs, rfl, hr⟩ := hr
    obtain ⟨h2, h3⟩ := MField.list_takes h hw hr
    rw [List.nil_append] at h2 h3
    simp only [Message.delimited, Message.tailGreedy]
    exact ⟨fun hd t => Message.parse_eq_ok.mpr ⟨vs, rfl, h2 hd t⟩,
      fun ht => Message.parse_eq_ok.mpr ⟨vs, rfl, h3 ht⟩⟩

theorem Message.parse_enc {c : Ctx} {m : Message}
    (hx : c.p = .checked ∨ m.allFields MField.countFits = true) {b : Bytes} {n : Nat} {v : Value}
    (h : m.parse c b = .ok ⟨n, v⟩) : m.Enc c v (b.take n) := (encInd c).all m hx b n v h

theorem Message.takes (c : Ctx) (m : Message) : m.Accepts c := (acceptsInd c).all m

end Proto
