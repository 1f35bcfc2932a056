import Verif.Gen.WireLemmas
import Verif.Gen.Reencode
import Verif.Gen.OffsetLemmas

/-!
# Decoded values are written in the wire form, and their offsets are those of the wire form
-/

namespace Proto

theorem Union.parseCases_wire {c : Ctx} {cs : List UCase}
    (h : ∀ k ∈ cs, ∀ r, k.itemType = some r → ∀ b n v, r.parse c b = .ok ⟨n, v⟩ →
      (r.wire v).length = n) (d i0 : Nat) {b : Bytes} {n : Nat} {v : Value}
    (hv : Union.parseCases c cs i0 d b = .ok ⟨n, v⟩) :
    ∃ i x, v = .union (i0 + i) x ∧ (UCase.wireAt cs i x).length = n := by
  induction cs generalizing i0 with
  | nil => simp [Union.parseCases] at hv
  | cons k cs ih =>
    obtain ⟨nm, case, t⟩ := k
    by_cases hd : d = case
    · refine ⟨0, ?_⟩
      cases t with
      | none =>
        simp only [Union.parseCases, if_pos hd, Res.ok.injEq, Msg.mk.injEq] at hv
        exact ⟨.unit, by rw [← hv.2]; rfl, by rw [← hv.1]; simp [UCase.wireAt]⟩
      | some r =>
        simp only [Union.parseCases, if_pos hd] at hv
        obtain ⟨x, hx, rfl⟩ := Parser.map_eq_ok.mp hv
        exact ⟨x, rfl, by
          simp only [UCase.wireAt, if_true]
          exact h (.mk nm case (some r)) (by simp) r rfl b n x hx⟩
    · have hp : Union.parseCases c (.mk nm case t :: cs) i0 d = Union.parseCases c cs (i0 + 1) d := by
        cases t <;> simp only [Union.parseCases, if_neg hd]
      rw [hp] at hv
      obtain ⟨i, x, rfl, hl⟩ := ih (fun k hk => h k (by simp [hk])) (i0 + 1) hv
      refine ⟨i + 1, x, by congr 1; omega, ?_⟩
      cases t <;> simpa only [UCase.wireAt, if_neg (Nat.succ_ne_zero i), Nat.add_sub_cancel] using hl

theorem MField.parse_wire {c : Ctx} {emb : Bool} {f : MField} {env : Env}
    (h : ∀ b n v, f.ty.parse c emb f.endian env b = .ok ⟨n, v⟩ → (f.ty.wire f.endian v).length = n)
    {b : Bytes} {n : Nat} {v : Value} (hv : f.parse c emb env b = .ok ⟨n, v⟩) :
    (f.wire v).length = n := by
  obtain ⟨nm, ty, o, sz, e⟩ := f
  simp only [MField.ty, MField.endian] at h
  cases o with
  | false =>
    simp only [MField.parse, MField.wire, Bool.false_eq_true, if_false] at hv ⊢
    exact h b n v hv
  | true =>
    simp only [MField.parse, MField.wire, if_true] at hv ⊢
    obtain ⟨o, ho, rfl⟩ := Parser.map_eq_ok.mp hv
    rcases Optional.fromSlice_eq_ok.mp ho with ⟨t, rfl, rfl, rfl⟩ | ⟨x, t, m, w, rfl, hx, hm, rfl, rfl⟩
    · rfl
    · simp only [Value.ofOption, List.length_cons, h t m w hm]

theorem MField.list_wire {c : Ctx} {emb : Bool} {fs : List MField}
    (h : ∀ f ∈ fs, ∀ env b n v, f.parse c emb env b = .ok ⟨n, v⟩ → (f.wire v).length = n)
    {env vs : Env} {b : Bytes} {n : Nat}
    (hr : runFields (MField.parse c emb) fs env b = .ok (n, env ++ vs)) :
    (MField.listWire fs vs).length = n := by
  induction fs generalizing env vs b n with
  | nil =>
    simp only [runFields, Res.ok.injEq, Prod.mk.injEq] at hr
    simp [MField.listWire, ← hr.1]
  | cons f fs ih =>
    obtain ⟨m, v, k, hv, hk, rfl⟩ := runFields_cons_ok.mp hr
    obtain ⟨rest, hrest⟩ := runFields_env hk
    have hvs : vs = (f.name, v) :: rest := by
      have := hrest
      rw [List.append_assoc] at this
      simpa using List.append_cancel_left this
    subst hvs
    have he : env ++ (f.name, v) :: rest = env ++ [(f.name, v)] ++ rest := by simp
    rw [he] at hk
    simp only [MField.listWire, List.length_append, h f (by simp) env b m v hv,
      ih (fun g hg => h g (by simp [hg])) hk]

theorem sizeInd (c : Ctx) : SchemaInd
    (fun m => ∀ b n v, m.parse c b = .ok ⟨n, v⟩ → (m.wire v).length = n)
    (fun t => ∀ emb e env b n v, t.parse c emb e env b = .ok ⟨n, v⟩ → (t.wire e v).length = n) where
  fixed ty emb e env b n v hv := by
    simp only [MFieldTy.parse] at hv
    obtain ⟨x, hx, rfl⟩ := Parser.map_eq_ok.mp hv
    obtain ⟨h1, h2⟩ := Scalar.fromSlice_eq_ok.mp hx
    cases h2
    simp [MFieldTy.wire]
  struct s emb e env b n v hv := by
    simp only [MFieldTy.parse, Referenced.parse] at hv
    obtain ⟨h1, rfl, rfl⟩ := Structure.parse_eq_ok.mp hv
    simp only [MFieldTy.wire, Referenced.wire, List.length_take]
    omega
  message m h emb e env b n v hv := by
    simp only [MFieldTy.parse, Referenced.parse] at hv
    simpa only [MFieldTy.wire, Referenced.wire] using h b n v hv
  nul emb e env b n v hv := by
    simp only [MFieldTy.parse] at hv
    obtain ⟨x, hx, rfl⟩ := Parser.map_eq_ok.mp hv
    obtain ⟨t, rfl, h1, h2, rfl⟩ := NullTerminated.fromSlice_eq_ok.mp hx
    simp [MFieldTy.wire]
  varchar ty emb e env b n v hv := by
    simp only [MFieldTy.parse] at hv
    obtain ⟨x, hx, rfl⟩ := Parser.map_eq_ok.mp hv
    obtain ⟨h1, rfl, h2, h3, t, rfl⟩ := (Varchar.fromSlice_eq_ok (by cases ty <;> decide)).mp hx
    simp [MFieldTy.wire]
  array ty s emb e env b n v hv := by
    simp only [MFieldTy.parse] at hv
    obtain ⟨x, hx, rfl⟩ := Parser.map_eq_ok.mp hv
    obtain ⟨body, hsz, hlen, hb, ht, h1, h2, hd⟩ := Arr.fromSlice_eq_ok.mp hx
    simp only [MFieldTy.wire, List.length_append, wireInt_length, hd, List.length_take,
      List.length_drop]
    omega
  union nm d cs sz on i h emb e env b n v hv := by
    simp only [MFieldTy.parse, Union.parse] at hv
    obtain ⟨dv, hd, hv⟩ := Res.bind_eq_ok.mp hv
    obtain ⟨i, x, rfl, hl⟩ := Union.parseCases_wire (fun k hk r hr b n v hv => by
      have := h k hk r hr emb e [] b n v (by simpa only [MFieldTy.parse] using hv)
      simpa only [MFieldTy.wire] using this) dv 0 hv
    simpa only [MFieldTy.wire, Union.wire, Nat.zero_add] using hl
  list ty m h emb e env b n v hv := by
    simp only [MFieldTy.parse] at hv
    cases emb with
    | false =>
      simp only [Bool.false_eq_true, if_false] at hv
      obtain ⟨x, hx, rfl⟩ := Parser.map_eq_ok.mp hv
      obtain ⟨hsz, rfl, rfl⟩ := Lst.unsized_eq_ok.mp hx
      simp only [MFieldTy.wire, List.length_append, wireInt_length, List.length_drop]
      omega
    | true =>
      simp only [if_true] at hv
      obtain ⟨x, hx, rfl⟩ := Parser.map_eq_ok.mp hv
      have hle := (Lst.cut (Message.cut c m) e _ b n x hx).1
      obtain ⟨k, hsz, hlen, hk, rfl, hd⟩ := (Lst.fromSlice_eq_ok (Message.cut c m)).mp hx
      simp only [MFieldTy.wire, List.length_append, wireInt_length, hd, List.length_take,
        List.length_drop]
      omega
  payload emb e env b n v hv := by
    simp only [MFieldTy.parse] at hv
    obtain ⟨x, hx, rfl⟩ := Parser.map_eq_ok.mp hv
    obtain ⟨rfl, rfl⟩ := Buffer.fromSlice_eq_ok.mp hx
    simp [MFieldTy.wire]
  msg id nm fs sz h b n v hv := by
    obtain ⟨vs, rfl, hr⟩ := Message.parse_eq_ok.mp hv
    simp only [Message.id, Message.fields] at hr
    simp only [Message.wire]
    exact MField.list_wire (env := []) (fun f hf env b n v hv =>
      MField.parse_wire (h f hf (c.emb id) f.endian env) hv) hr

/-- The size reported is the length of the wire form. -/
theorem Message.parse_wire {c : Ctx} {m : Message} {b : Bytes} {n : Nat} {v : Value}
    (h : m.parse c b = .ok ⟨n, v⟩) : (m.wire v).length = n := (sizeInd c).all m b n v h

theorem MField.parse_wire' {c : Ctx} {emb : Bool} {f : MField} {env : Env} {b : Bytes} {n : Nat}
    {v : Value} (h : f.parse c emb env b = .ok ⟨n, v⟩) : (f.wire v).length = n :=
  MField.parse_wire ((sizeInd c).ty f.ty emb f.endian env) h

/-! ## Offsets -/

theorem MField.parseOff_offsets {c : Ctx} {emb : Bool} {f : MField} {env : Env}
    (h : ∀ m, f.ty = .ref (.message m) → ∀ b n v o, m.parseOff c b = .ok ⟨n, (v, o)⟩ →
      o = m.offsetsOf v) {b : Bytes} {n : Nat} {v : Value} {o : Offsets}
    (hv : f.parseOff c emb env b = .ok ⟨n, (v, o)⟩) : o = f.offsetsOf v := by
  obtain ⟨nm, ty, op, sz, e⟩ := f
  simp only [MField.ty] at h
  have other : ∀ {p : Parser Value}, (p.map fun v => (v, Offsets.unit)) b = .ok ⟨n, (v, o)⟩ →
      o = Offsets.unit := by
    intro p hp
    obtain ⟨x, _, hvo⟩ := Parser.map_eq_ok.mp hp
    exact (Prod.mk.inj hvo).2
  cases ty with
  | ref r =>
    cases r with
    | struct s => simp only [MField.parseOff] at hv; simp only [MField.offsetsOf]; exact other hv
    | message m =>
      cases op with
      | false =>
        simp only [MField.parseOff, Bool.false_eq_true, if_false] at hv
        simp only [MField.offsetsOf, Bool.false_eq_true, if_false]
        exact h m rfl b n v o hv
      | true =>
        simp only [MField.parseOff, if_true] at hv
        obtain ⟨x, hx, hvo⟩ := Parser.map_eq_ok.mp hv
        obtain ⟨rfl, rfl⟩ := Prod.mk.inj hvo
        simp only [MField.offsetsOf, if_true]
        rcases Optional.offsets_eq_ok.mp hx with
          ⟨t, rfl, rfl, rfl⟩ | ⟨y, t, k, w, o, rfl, hy, hk, rfl, rfl⟩
        · rfl
        · simp only [Value.ofOption, Offsets.ofOption, h m rfl t k w o hk]
  | fixed _ => simp only [MField.parseOff] at hv; simp only [MField.offsetsOf]; exact other hv
  | nullTerminatedString =>
    simp only [MField.parseOff] at hv; simp only [MField.offsetsOf]; exact other hv
  | varcharString _ => simp only [MField.parseOff] at hv; simp only [MField.offsetsOf]; exact other hv
  | array _ _ => simp only [MField.parseOff] at hv; simp only [MField.offsetsOf]; exact other hv
  | union _ _ _ => simp only [MField.parseOff] at hv; simp only [MField.offsetsOf]; exact other hv
  | list _ _ => simp only [MField.parseOff] at hv; simp only [MField.offsetsOf]; exact other hv
  | payload => simp only [MField.parseOff] at hv; simp only [MField.offsetsOf]; exact other hv

theorem MField.runOff_offsets {c : Ctx} {emb : Bool} {fs : List MField}
    (h : ∀ f ∈ fs, ∀ env b n v o, f.parseOff c emb env b = .ok ⟨n, (v, o)⟩ → o = f.offsetsOf v)
    {env vs : Env} {off : Nat} {b : Bytes} {n : Nat} {offs : OffEnv}
    (hr : runOff (MField.parseOff c emb) fs env off b = .ok (n, env ++ vs, offs)) :
    offs = MField.listOffsets fs off vs := by
  induction fs generalizing env vs b n off offs with
  | nil =>
    simp only [runOff, Res.ok.injEq, Prod.mk.injEq] at hr
    simp [MField.listOffsets, ← hr.2.2]
  | cons f fs ih =>
    obtain ⟨m, v, o, k, rest, h1, h2, rfl, rfl⟩ := runOff_cons_ok.mp hr
    obtain ⟨ws, hws⟩ : ∃ ws, env ++ vs = env ++ [(f.name, v)] ++ ws := by
      have := runOff_fst (fun g (_ : g ∈ fs) env => MField.parseOff_fst c emb g env)
        (env ++ [(f.name, v)]) (off + m) (b.drop m)
      rw [h2] at this
      exact runFields_env this.symm
    have hvs : vs = (f.name, v) :: ws := by
      rw [List.append_assoc] at hws
      simpa using List.append_cancel_left hws
    subst hvs
    have hp : f.parse c emb env b = .ok ⟨m, v⟩ := by
      rw [← MField.parseOff_fst]
      exact Parser.map_eq_ok.mpr ⟨(v, o), h1, rfl⟩
    simp only [MField.listOffsets, MField.parse_wire' hp, ← h f (by simp) env b m v o h1,
      ← ih (fun g hg => h g (by simp [hg])) (by rw [← hws]; exact h2)]

theorem offsetsInd (c : Ctx) : SchemaInd
    (fun m => ∀ b n v o, m.parseOff c b = .ok ⟨n, (v, o)⟩ → o = m.offsetsOf v)
    (fun t => ∀ m, t = .ref (.message m) → ∀ b n v o, m.parseOff c b = .ok ⟨n, (v, o)⟩ →
      o = m.offsetsOf v) where
  fixed _ _ h := by cases h
  struct _ _ h := by cases h
  message m hm m' h := by cases h; exact hm
  nul _ h := by cases h
  varchar _ _ h := by cases h
  array _ _ _ h := by cases h
  union _ _ _ _ _ _ _ _ h := by cases h
  list _ _ _ _ h := by cases h
  payload _ h := by cases h
  msg id nm fs sz h b n v o hv := by
    obtain ⟨vs, offs, rfl, rfl, hr⟩ := Message.parseOff_eq_ok.mp hv
    simp only [Message.id, Message.fields] at hr
    simp only [Message.offsetsOf]
    rw [MField.runOff_offsets (env := []) (fun f hf env b n v o hv =>
      MField.parseOff_offsets (h f hf) hv) hr]

/-- The offsets reported are those of the wire form of the value. -/
theorem Message.parseOff_offsets {c : Ctx} {m : Message} {b : Bytes} {n : Nat} {v : Value}
    {o : Offsets} (h : m.parseOff c b = .ok ⟨n, (v, o)⟩) : o = m.offsetsOf v :=
  (offsetsInd c).all m b n v o h

end Proto
