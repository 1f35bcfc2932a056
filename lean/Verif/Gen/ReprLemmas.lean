import Verif.Gen.SizeLemmas
import Verif.Gen.Totality

/-!
# Decoded values are representable
-/

namespace Proto

/-- The part of `countFits` and `plainItems` that speaks of the type. -/
def MFieldTy.exact : MFieldTy → Bool
  | .array ty s => decide ((256 ^ ty.byteSize - 1) * s.byteSize + ty.byteSize < 2 ^ 64)
  | .list _ m => m.allFields MField.notOptional
  | _ => true

theorem MField.exact_ty (f : MField) (h1 : f.countFits = true) (h2 : f.plainItems = true) :
    f.ty.exact = true := by
  unfold MField.countFits at h1
  unfold MField.plainItems at h2
  unfold MFieldTy.exact
  split <;> simp_all

theorem Union.parseCases_repr {c : Ctx} {cs : List UCase} {b : Bytes}
    (h : ∀ k ∈ cs, ∀ r, k.itemType = some r → ∀ n v, r.parse c b = .ok ⟨n, v⟩ → r.Repr c v)
    (d i0 : Nat) {n : Nat} {v : Value} (hv : Union.parseCases c cs i0 d b = .ok ⟨n, v⟩) :
    ∃ i x, v = .union (i0 + i) x ∧ UCase.ReprCase c cs i d x := by
  induction cs generalizing i0 with
  | nil => simp [Union.parseCases] at hv
  | cons k cs ih =>
    obtain ⟨nm, case, t⟩ := k
    by_cases hd : d = case
    · refine ⟨0, ?_⟩
      cases t with
      | none =>
        simp only [Union.parseCases, if_pos hd, Res.ok.injEq, Msg.mk.injEq] at hv
        exact ⟨.unit, by rw [← hv.2]; rfl, by simp [UCase.ReprCase, hd]⟩
      | some r =>
        simp only [Union.parseCases, if_pos hd] at hv
        obtain ⟨x, hx, rfl⟩ := Parser.map_eq_ok.mp hv
        refine ⟨x, rfl, ?_⟩
        simp only [UCase.ReprCase, if_true]
        exact ⟨hd, h (.mk nm case (some r)) (by simp) r rfl n x hx⟩
    · have hp : Union.parseCases c (.mk nm case t :: cs) i0 d = Union.parseCases c cs (i0 + 1) d := by
        cases t <;> simp only [Union.parseCases, if_neg hd]
      rw [hp] at hv
      obtain ⟨i, x, rfl, hr⟩ := ih (fun k hk => h k (by simp [hk])) (i0 + 1) hv
      refine ⟨i + 1, x, by congr 1; omega, ?_⟩
      cases t <;>
        simpa only [UCase.ReprCase, if_neg (Nat.succ_ne_zero i), Nat.add_sub_cancel] using ⟨hd, hr⟩

/-- The items found by scanning, if each is written as it was read. -/
theorem Lst.scanR_items {f : Parser Value} {w : Value → Out} {P : Value → Prop} {k0 : Nat}
    (h : ∀ b n v, b.length < k0 → f b = .ok ⟨n, v⟩ → P v ∧ (w v).bytes = b.take n) {n : Nat} {b : Bytes}
    (hb : b.length < k0) {k : Nat} (hs : Lst.scanR f n b = .ok k) :
    ∃ items : List Value, items.length = n ∧ (∀ x ∈ items, P x) ∧
      b.take k = items.flatMap fun x => (w x).bytes := by
  induction n generalizing b k with
  | zero => cases hs; exact ⟨[], rfl, by simp, by simp⟩
  | succ n ih =>
    obtain ⟨m, v, j, hf, hj, rfl⟩ := Lst.scanR_succ_eq_ok.mp hs
    obtain ⟨items, h1, h2, h3⟩ := ih (by simp; omega) hj
    obtain ⟨g1, g2⟩ := h b m v hb hf
    refine ⟨v :: items, by simp [h1], by simpa using ⟨g1, h2⟩, ?_⟩
    rw [List.flatMap_cons, g2, ← h3, ← List.take_add]

theorem MField.parse_repr {c : Ctx} {emb : Bool} {f : MField} {env : Env}
    (h : ∀ b n v, b.length < 2 ^ 64 → f.ty.parse c emb f.endian env b = .ok ⟨n, v⟩ →
      f.ty.Repr c emb env v) {b : Bytes} {n : Nat} {v : Value} (hb : b.length < 2 ^ 64)
    (hv : f.parse c emb env b = .ok ⟨n, v⟩) : f.Repr c emb env v := by
  obtain ⟨nm, ty, o, sz, e⟩ := f
  simp only [MField.ty, MField.endian] at h
  cases o with
  | false =>
    simp only [MField.parse, MField.Repr, Bool.false_eq_true, if_false] at hv ⊢
    exact h b n v hb hv
  | true =>
    simp only [MField.parse, MField.Repr, if_true] at hv ⊢
    obtain ⟨o, ho, rfl⟩ := Parser.map_eq_ok.mp hv
    rcases Optional.fromSlice_eq_ok.mp ho with ⟨t, rfl, rfl, rfl⟩ | ⟨x, t, m, w, rfl, hx, hm, rfl, rfl⟩
    · exact .inl rfl
    · exact .inr ⟨w, rfl, h t m w (by simp at hb; omega) hm⟩

theorem MField.list_repr {c : Ctx} {emb : Bool} {fs : List MField}
    (h : ∀ f ∈ fs, ∀ env b n v, b.length < 2 ^ 64 → f.parse c emb env b = .ok ⟨n, v⟩ →
      f.Repr c emb env v)
    {env vs : Env} {b : Bytes} {n : Nat} (hb : b.length < 2 ^ 64)
    (hr : runFields (MField.parse c emb) fs env b = .ok (n, env ++ vs)) :
    MField.ListRepr c emb fs env vs := by
  induction fs generalizing env vs b n with
  | nil =>
    simp only [runFields, Res.ok.injEq, Prod.mk.injEq] at hr
    simpa only [MField.ListRepr] using (List.append_cancel_left
      (by simpa using hr.2 : env ++ [] = env ++ vs)).symm
  | cons f fs ih =>
    obtain ⟨m, v, k, hv, hk, rfl⟩ := runFields_cons_ok.mp hr
    obtain ⟨rest, hrest⟩ := runFields_env hk
    have hvs : vs = (f.name, v) :: rest := by
      have := hrest
      rw [List.append_assoc] at this
      simpa using List.append_cancel_left this
    subst hvs
    have he : env ++ (f.name, v) :: rest = env ++ [(f.name, v)] ++ rest := by simp
    rw [he] at hk
    simp only [MField.ListRepr]
    exact ⟨v, rest, rfl, h f (by simp) env b m v hb hv,
      ih (fun g hg => h g (by simp [hg])) (by simp; omega) hk⟩

theorem reprInd (c : Ctx) : SchemaInd
    (fun m => m.allFields MField.countFits = true → m.allFields MField.plainItems = true →
      ∀ b n v, b.length < 2 ^ 64 → m.parse c b = .ok ⟨n, v⟩ → m.Repr c v)
    (fun t => t.exact = true → t.allFields MField.countFits = true →
      t.allFields MField.plainItems = true → ∀ emb e env b n v, b.length < 2 ^ 64 →
      t.parse c emb e env b = .ok ⟨n, v⟩ → t.Repr c emb env v) where
  fixed ty _ _ _ emb e env b n v _ hv := by
    simp only [MFieldTy.parse] at hv
    obtain ⟨x, hx, rfl⟩ := Parser.map_eq_ok.mp hv
    obtain ⟨h1, h2⟩ := Scalar.fromSlice_eq_ok.mp hx
    cases h2
    simp only [MFieldTy.Repr]
    refine ⟨_, rfl, ?_⟩
    have := intOfWire_lt e (b.take ty.byteSize)
    rwa [List.length_take, Nat.min_eq_left h1] at this
  struct s _ _ _ emb e env b n v _ hv := by
    simp only [MFieldTy.parse, Referenced.parse] at hv
    obtain ⟨h1, rfl, rfl⟩ := Structure.parse_eq_ok.mp hv
    simp only [MFieldTy.Repr, Referenced.Repr]
    exact ⟨_, rfl, by simp; omega⟩
  message m h _ h1 h2 emb e env b n v hb hv := by
    simp only [MFieldTy.parse, Referenced.parse] at hv
    simp only [MFieldTy.allFields, Referenced.allFields] at h1 h2
    simpa only [MFieldTy.Repr, Referenced.Repr] using h h1 h2 b n v hb hv
  nul _ _ _ emb e env b n v _ hv := by
    simp only [MFieldTy.parse] at hv
    obtain ⟨x, hx, rfl⟩ := Parser.map_eq_ok.mp hv
    obtain ⟨t, rfl, h1, h2, rfl⟩ := NullTerminated.fromSlice_eq_ok.mp hx
    simp only [MFieldTy.Repr]
    exact ⟨_, rfl, (validUtf8_iff _).mp h2, h1⟩
  varchar ty _ _ _ emb e env b n v _ hv := by
    simp only [MFieldTy.parse] at hv
    obtain ⟨x, hx, rfl⟩ := Parser.map_eq_ok.mp hv
    obtain ⟨h1, rfl, h2, h3, t, rfl⟩ := (Varchar.fromSlice_eq_ok (by cases ty <;> decide)).mp hx
    simp only [MFieldTy.Repr]
    exact ⟨_, rfl, (validUtf8_iff _).mp h1, h2, h3⟩
  array ty s hx _ _ emb e env b n v hb hv := by
    simp only [MFieldTy.exact, decide_eq_true_eq] at hx
    simp only [MFieldTy.parse] at hv
    obtain ⟨x, hx', rfl⟩ := Parser.map_eq_ok.mp hv
    obtain ⟨body, hsz, hlen, hm, ha, h1, h2, hd⟩ := Arr.fromSlice_eq_ok.mp hx'
    have hlt := intOfWire_lt e (b.take ty.byteSize)
    rw [List.length_take, Nat.min_eq_left hsz, ← hlen] at hlt
    have hle : x.len * s.byteSize ≤ (256 ^ ty.byteSize - 1) * s.byteSize :=
      Nat.mul_le_mul_right _ (by omega)
    have e1 : body = x.len * s.byteSize := by
      rw [mulU_ok _ (by show _ < 2 ^ 64; omega)] at hm
      exact (Res.ok.inj hm).symm
    have e2 : n = ty.byteSize + body := by
      rw [addU_ok _ (by show _ < 2 ^ 64; omega)] at ha
      exact (Res.ok.inj ha).symm
    simp only [MFieldTy.Repr]
    have e3 : x.data.length = body := by
      rw [hd]; simp; omega
    exact ⟨x, rfl, hlt, by omega, by omega⟩
  union nm d cs sz on i h hx h1 h2 emb e env b n v hb hv := by
    simp only [MFieldTy.parse, Union.parse] at hv
    obtain ⟨dv, hd, hv⟩ := Res.bind_eq_ok.mp hv
    simp only [MFieldTy.allFields, Union.allFields] at h1 h2
    obtain ⟨i, x, rfl, hr⟩ := Union.parseCases_repr (fun k hk r hr n v hv => by
      have := h k hk r hr rfl (by
        simpa only [MFieldTy.allFields] using UCase.listAllFields_mem h1 k hk r hr) (by
        simpa only [MFieldTy.allFields] using UCase.listAllFields_mem h2 k hk r hr)
        emb e [] b n v hb (by simpa only [MFieldTy.parse] using hv)
      simpa only [MFieldTy.Repr] using this) dv 0 hv
    simp only [MFieldTy.Repr, Union.Repr]
    exact ⟨i, x, dv, by rw [Nat.zero_add], hd, hr⟩
  list ty m h hx h1 h2 emb e env b n v hb hv := by
    simp only [MFieldTy.exact] at hx
    simp only [MFieldTy.allFields] at h1 h2
    simp only [MFieldTy.parse] at hv
    simp only [MFieldTy.Repr]
    cases emb with
    | false =>
      simp only [Bool.false_eq_true, if_false] at hv
      obtain ⟨x, hx, rfl⟩ := Parser.map_eq_ok.mp hv
      obtain ⟨hsz, rfl, rfl⟩ := Lst.unsized_eq_ok.mp hx
      have hlt := intOfWire_lt e (b.take ty.byteSize)
      rw [List.length_take, Nat.min_eq_left hsz] at hlt
      exact ⟨_, rfl, hlt, by simp⟩
    | true =>
      simp only [if_true] at hv
      obtain ⟨x, hx', rfl⟩ := Parser.map_eq_ok.mp hv
      obtain ⟨k, hsz, hlen, hk, rfl, hd⟩ := (Lst.fromSlice_eq_ok (Message.cut c m)).mp hx'
      have hlt := intOfWire_lt e (b.take ty.byteSize)
      rw [List.length_take, Nat.min_eq_left hsz, ← hlen] at hlt
      obtain ⟨items, g1, g2, g3⟩ := Lst.scanR_items (w := m.write c) (P := m.Repr c)
        (k0 := 2 ^ 64) (fun b n v hb hv =>
          ⟨h h1 h2 b n v hb hv, (Message.reencodes c m b n v hv).2.2.2.2 hx⟩) (by simp; omega) hk
      exact ⟨x, rfl, hlt, fun _ => ⟨items, g1, g2, by rw [hd, g3]⟩⟩
  payload _ _ _ emb e env b n v _ hv := by
    simp only [MFieldTy.parse] at hv
    obtain ⟨x, hx, rfl⟩ := Parser.map_eq_ok.mp hv
    simp only [MFieldTy.Repr]
    exact ⟨_, rfl⟩
  msg id nm fs sz h h1 h2 b n v hb hv := by
    obtain ⟨vs, rfl, hr⟩ := Message.parse_eq_ok.mp hv
    simp only [Message.id, Message.fields] at hr
    simp only [Message.allFields] at h1 h2
    simp only [Message.Repr]
    refine ⟨vs, rfl, MField.list_repr (env := []) (fun f hf env b n v hb hv => ?_) hb hr⟩
    obtain ⟨a1, a2⟩ := MField.listAllFields_mem h1 f hf
    obtain ⟨b1, b2⟩ := MField.listAllFields_mem h2 f hf
    exact MField.parse_repr (fun b n v hb hv =>
      h f hf (f.exact_ty a1 b1) a2 b2 _ _ env b n v hb hv) hb hv

theorem Message.parse_repr {c : Ctx} {m : Message} (h1 : m.allFields MField.countFits = true)
    (h2 : m.allFields MField.plainItems = true) {b : Bytes} {n : Nat} {v : Value}
    (hb : b.length < 2 ^ 64) (h : m.parse c b = .ok ⟨n, v⟩) : m.Repr c v :=
  (reprInd c).all m h1 h2 b n v hb h

end Proto
