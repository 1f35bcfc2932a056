import Verif.Gen.RoundTrip

/-!
# Encoding what was decoded
-/

namespace Proto

/-- Everything `f` decodes, `w` encodes again, to the same number of bytes, which decode to the same
value (also when followed by other bytes, if the original decoding stopped before the end); when
`canon`, to the very same bytes. -/
def Reencodes (f : Parser Value) (w : Value → Out) (canon : Prop) : Prop :=
  ∀ b n v, f b = .ok ⟨n, v⟩ →
    (w v).res = .ok () ∧ (w v).bytes.length = n ∧ f (w v).bytes = .ok ⟨n, v⟩ ∧
      (n < b.length → ∀ t, f ((w v).bytes ++ t) = .ok ⟨n, v⟩) ∧ (canon → (w v).bytes = b.take n)

theorem Reencodes.of_exact {f : Parser Value} {w : Value → Out} {canon : Prop} (hc : f.Cut)
    (hi : f.Insensitive)
    (h : ∀ b n v, f b = .ok ⟨n, v⟩ → (w v).res = .ok () ∧ (w v).bytes = b.take n) :
    Reencodes f w canon := by
  intro b n v hv
  obtain ⟨h1, h2⟩ := h b n v hv
  obtain ⟨h3, h4⟩ := hc b n v hv
  rw [h2]
  exact ⟨h1, by rw [List.length_take]; omega, h4 n (Nat.le_refl _), fun hn t => hi b n v hv hn t,
    fun _ => rfl⟩

theorem Reencodes.cases {c : Ctx} {cs : List UCase} {canon : Prop}
    (h : ∀ k ∈ cs, ∀ r, k.itemType = some r → Reencodes (r.parse c) (r.write c) canon) (d : Nat)
    (i0 : Nat) (b : Bytes) (n : Nat) (v : Value) (hv : Union.parseCases c cs i0 d b = .ok ⟨n, v⟩) :
      ∃ i x, v = .union (i0 + i) x ∧
      ((∀ k ∈ cs, k.itemType = none) → Union.writeCases c cs i d x = .done) ∧
      (Union.writeCases c cs i d x).res = .ok () ∧
      (Union.writeCases c cs i d x).bytes.length = n ∧
      Union.parseCases c cs i0 d (Union.writeCases c cs i d x).bytes = .ok ⟨n, v⟩ ∧
      (n < b.length → ∀ t, Union.parseCases c cs i0 d ((Union.writeCases c cs i d x).bytes ++ t) =
        .ok ⟨n, v⟩) ∧ (canon → (Union.writeCases c cs i d x).bytes = b.take n) := by
  induction cs generalizing i0 with
  | nil => simp [Union.parseCases] at hv
  | cons k cs ih =>
    obtain ⟨nm, case, t⟩ := k
    by_cases hd : d = case
    · cases t with
      | none =>
        simp only [Union.parseCases, if_pos hd] at hv ⊢
        cases hv
        refine ⟨0, .unit, rfl, ?_⟩
        simp only [Union.writeCases, if_true]
        exact ⟨fun _ => trivial, rfl, rfl, trivial, fun _ _ => trivial, fun _ => by simp⟩
      | some r =>
        simp only [Union.parseCases, if_pos hd] at hv ⊢
        obtain ⟨x, hx, rfl⟩ := Parser.map_eq_ok.mp hv
        obtain ⟨h1, h2, h3, h4, h5⟩ := h (.mk nm case (some r)) (by simp) r rfl b n x hx
        refine ⟨0, x, rfl, ?_⟩
        simp only [Union.writeCases, if_true, if_pos hd]
        refine ⟨fun hn => ?_, h1, h2, Parser.map_eq_ok.mpr ⟨x, h3, rfl⟩,
          fun hn t => Parser.map_eq_ok.mpr ⟨x, h4 hn t, rfl⟩, h5⟩
        have := hn (.mk nm case (some r)) (by simp)
        simp [UCase.itemType] at this
    · have hp : Union.parseCases c (.mk nm case t :: cs) i0 d = Union.parseCases c cs (i0 + 1) d := by
        cases t <;> simp only [Union.parseCases, if_neg hd]
      rw [hp] at hv ⊢
      obtain ⟨i, x, hv', h0, h1⟩ := ih (fun k hk => h k (by simp [hk])) (i0 + 1) hv
      have hw : Union.writeCases c (.mk nm case t :: cs) (i + 1) d x = Union.writeCases c cs i d x := by
        cases t <;> simp only [Union.writeCases, if_neg (Nat.succ_ne_zero i), Nat.add_sub_cancel]
      refine ⟨i + 1, x, by rw [hv']; congr 1; omega, ?_⟩
      rw [hw]
      exact ⟨fun hn => h0 (fun k hk => hn k (by simp [hk])), h1⟩

theorem MField.reencodes {c : Ctx} {emb : Bool} {f : MField} {canon : Prop} {env ext : Env}
    (h : Reencodes (f.ty.parse c emb f.endian env) (f.ty.write c f.endian (env ++ ext)) canon) :
    Reencodes (f.parse c emb env) (f.write c (env ++ ext)) (canon ∧ f.notOptional = true) := by
  obtain ⟨nm, ty, o, sz, e⟩ := f
  simp only [MField.ty, MField.endian] at h
  cases o with
  | false =>
    simp only [MField.parse, MField.write, Bool.false_eq_true, if_false]
    intro b n v hv
    obtain ⟨h1, h2, h3, h4, h5⟩ := h b n v hv
    exact ⟨h1, h2, h3, h4, fun hc => h5 hc.1⟩
  | true =>
    intro b n v hv
    simp only [MField.parse, MField.write, if_true] at hv ⊢
    obtain ⟨o, ho, rfl⟩ := Parser.map_eq_ok.mp hv
    rcases Optional.fromSlice_eq_ok.mp ho with ⟨t, rfl, rfl, rfl⟩ | ⟨x, t, m, w, rfl, hx, hm, rfl, rfl⟩
    · simp only [Value.ofOption, Optional.writeTo]
      refine ⟨rfl, by simp, ?_, fun _ t => ?_, fun hc => by simp [MField.notOptional, MField.optional] at hc⟩
      · rw [Out.write_bytes]
        exact Parser.map_eq_ok.mpr ⟨none, Optional.fromSlice_none _, rfl⟩
      · rw [Out.write_bytes]
        exact Parser.map_eq_ok.mpr ⟨none, Optional.fromSlice_none _, rfl⟩
    · obtain ⟨h1, h2, h3, h4, _⟩ := h t m w hm
      simp only [Value.ofOption, Optional.writeTo]
      have hb : ((Out.write [1]).andThen (ty.write c e (env ++ ext) w)).bytes =
          1 :: (ty.write c e (env ++ ext) w).bytes := by
        rw [Out.andThen_bytes rfl, Out.write_bytes]; rfl
      rw [hb]
      refine ⟨h1, by simp [h2], ?_, fun hn t' => ?_, fun hc => by simp [MField.notOptional, MField.optional] at hc⟩
      · exact Parser.map_eq_ok.mpr ⟨some w, Optional.fromSlice_some (by decide) h3, rfl⟩
      · exact Parser.map_eq_ok.mpr
          ⟨some w, Optional.fromSlice_some (by decide) (h4 (by simp at hn; omega) t'), rfl⟩

theorem runFields_env {step : MField → Env → Parser Value} {fs : List MField} {env : Env}
    {b : Bytes} {n : Nat} {env' : Env} (h : runFields step fs env b = .ok (n, env')) :
    ∃ vs, env' = env ++ vs := by
  induction fs generalizing env b n with
  | nil => cases h; exact ⟨[], by simp⟩
  | cons f fs ih =>
    obtain ⟨m, v, k, _, h2, _⟩ := runFields_cons_ok.mp h
    obtain ⟨vs, hvs⟩ := ih h2
    exact ⟨(f.name, v) :: vs, by rw [hvs]; simp⟩

theorem MField.list_reencodes {c : Ctx} {emb : Bool} {fs : List MField} {canon : Prop}
    (h : ∀ f ∈ fs, ∀ env ext, Reencodes (f.parse c emb env) (f.write c (env ++ ext)) canon)
    {env vs : Env} {b : Bytes} {n : Nat}
    (hr : runFields (MField.parse c emb) fs env b = .ok (n, env ++ vs)) :
    (MField.writeList c fs (env ++ vs) vs).res = .ok () ∧
    (MField.writeList c fs (env ++ vs) vs).bytes.length = n ∧
    runFields (MField.parse c emb) fs env (MField.writeList c fs (env ++ vs) vs).bytes =
      .ok (n, env ++ vs) ∧
    (n < b.length → ∀ t,
      runFields (MField.parse c emb) fs env ((MField.writeList c fs (env ++ vs) vs).bytes ++ t) =
        .ok (n, env ++ vs)) ∧
    (canon → (MField.writeList c fs (env ++ vs) vs).bytes = b.take n) := by
  induction fs generalizing env vs b n with
  | nil =>
    simp only [runFields, Res.ok.injEq, Prod.mk.injEq] at hr
    obtain ⟨rfl, hvs⟩ := hr
    have : vs = [] := by simpa using hvs
    subst this
    simp only [MField.writeList]
    refine ⟨rfl, rfl, ?_, fun _ t => ?_, fun _ => by simp⟩ <;> simp [runFields]
  | cons f fs ih =>
    obtain ⟨m, v, k, hv, hk, rfl⟩ := runFields_cons_ok.mp hr
    obtain ⟨rest, hrest⟩ := runFields_env hk
    have hvs : vs = (f.name, v) :: rest := by
      have := hrest
      rw [List.append_assoc] at this
      simpa using List.append_cancel_left this
    subst hvs
    have he : env ++ (f.name, v) :: rest = env ++ [(f.name, v)] ++ rest := by simp
    rw [he] at hk
    obtain ⟨g1, g2, g3, g4, g5⟩ := ih (fun g hg => h g (by simp [hg])) hk
    obtain ⟨h1, h2, h3, h4, h5⟩ := h f (by simp) env ((f.name, v) :: rest) b m v hv
    have hm := (MField.cut c emb f env b m v hv).1
    rw [← he] at g1 g2 g3 g4 g5
    have hb : (MField.writeList c (f :: fs) (env ++ (f.name, v) :: rest) ((f.name, v) :: rest)).bytes =
        (f.write c (env ++ (f.name, v) :: rest) v).bytes ++
          (MField.writeList c fs (env ++ (f.name, v) :: rest) rest).bytes := by
      simp only [MField.writeList]
      exact Out.andThen_bytes h1
    rw [hb]
    refine ⟨?_, by rw [List.length_append, h2, g2], ?_, fun hn t => ?_, fun hc => ?_⟩
    · simp only [MField.writeList]
      exact Out.andThen_res_eq_ok.mpr ⟨h1, g1⟩
    · refine runFields_cons_ok.mpr ⟨m, v, k, ?_, ?_, rfl⟩
      · by_cases hlt : m < b.length
        · exact h4 hlt _
        · have hk0 : k ≤ (b.drop m).length := runFields_le (fun f _ env => MField.cut c emb f env) hk
          have : (MField.writeList c fs (env ++ (f.name, v) :: rest) rest).bytes = [] := by
            apply List.eq_nil_of_length_eq_zero
            rw [g2]; simp at hk0; omega
          rw [this, List.append_nil]; exact h3
      · rw [List.drop_append_of_le_length (by omega), List.drop_of_length_le (by omega),
          List.nil_append]
        exact g3
    · rw [List.append_assoc]
      refine runFields_cons_ok.mpr ⟨m, v, k, h4 (by omega) _, ?_, rfl⟩
      rw [List.drop_append_of_le_length (by omega), List.drop_of_length_le (by omega),
          List.nil_append]
      exact g4 (by simp; omega) t
    · rw [h5 hc, g5 hc, List.take_add]

/-- The decoder of a type stops early only independently of what follows. -/
theorem MFieldTy.insensitive (c : Ctx) (emb : Bool) (e : Endian) (t : MFieldTy) (env : Env) :
    (t.parse c emb e env).Insensitive := (insensitiveInd c).ty t emb e env

theorem reencodeInd (c : Ctx) : SchemaInd
    (fun m => Reencodes (m.parse c) (m.write c) (m.allFields MField.notOptional = true))
    (fun t => ∀ emb e env ext, Reencodes (t.parse c emb e env) (t.write c e (env ++ ext))
      (t.allFields MField.notOptional = true)) where
  fixed ty emb e env ext := by
    refine Reencodes.of_exact (MFieldTy.cut c emb e _ env) (MFieldTy.insensitive c emb e _ env) ?_
    intro b n v hv
    simp only [MFieldTy.parse] at hv
    obtain ⟨x, hx, rfl⟩ := Parser.map_eq_ok.mp hv
    obtain ⟨h1, h2⟩ := Scalar.fromSlice_eq_ok.mp hx
    cases h2
    simp only [MFieldTy.write]
    refine ⟨rfl, ?_⟩
    rw [Scalar.writeTo_bytes]
    have := wireInt_intOfWire e (b.take ty.byteSize)
    rwa [List.length_take, Nat.min_eq_left h1] at this
  struct s emb e env ext := by
    refine Reencodes.of_exact (MFieldTy.cut c emb e _ env) (MFieldTy.insensitive c emb e _ env) ?_
    intro b n v hv
    simp only [MFieldTy.parse, Referenced.parse] at hv
    obtain ⟨h1, rfl, rfl⟩ := Structure.parse_eq_ok.mp hv
    simp only [MFieldTy.write, Referenced.write]
    rw [Structure.write_eq (by rw [List.length_take]; omega)]
    exact ⟨rfl, Out.write_bytes _⟩
  message m h emb e env ext := by
    intro b n v hv
    simp only [MFieldTy.parse, Referenced.parse, MFieldTy.allFields, Referenced.allFields,
      MFieldTy.write, Referenced.write] at hv ⊢
    exact h b n v hv
  nul emb e env ext := by
    refine Reencodes.of_exact (MFieldTy.cut c emb e _ env) (MFieldTy.insensitive c emb e _ env) ?_
    intro b n v hv
    simp only [MFieldTy.parse] at hv
    obtain ⟨x, hx, rfl⟩ := Parser.map_eq_ok.mp hv
    obtain ⟨t, rfl, h1, h2, rfl⟩ := NullTerminated.fromSlice_eq_ok.mp hx
    simp only [MFieldTy.write]
    refine ⟨rfl, ?_⟩
    rw [NullTerminated.writeTo_bytes, show x ++ 0 :: t = x ++ [0] ++ t by simp,
      List.take_append_of_le_length (by simp), List.take_of_length_le (by simp)]
  varchar ty emb e env ext := by
    refine Reencodes.of_exact (MFieldTy.cut c emb e _ env) (MFieldTy.insensitive c emb e _ env) ?_
    intro b n v hv
    simp only [MFieldTy.parse] at hv
    obtain ⟨x, hx, rfl⟩ := Parser.map_eq_ok.mp hv
    obtain ⟨h1, rfl, h2, h3, t, rfl⟩ := (Varchar.fromSlice_eq_ok (by cases ty <;> decide)).mp hx
    simp only [MFieldTy.write]
    refine ⟨rfl, ?_⟩
    rw [Varchar.writeTo_bytes, List.take_append_of_le_length (by simp), List.take_of_length_le (by simp)]
  array ty s emb e env ext := by
    refine Reencodes.of_exact (MFieldTy.cut c emb e _ env) (MFieldTy.insensitive c emb e _ env) ?_
    intro b n v hv
    simp only [MFieldTy.parse] at hv
    obtain ⟨x, hx, rfl⟩ := Parser.map_eq_ok.mp hv
    obtain ⟨body, hsz, hlen, hb, ht, h1, h2, hd⟩ := Arr.fromSlice_eq_ok.mp hx
    simp only [MFieldTy.write]
    refine ⟨rfl, ?_⟩
    rw [Seq.writeTo_bytes, hlen, hd]
    have := wireInt_intOfWire e (b.take ty.byteSize)
    rw [List.length_take, Nat.min_eq_left hsz] at this
    rw [this, ← List.take_add]
    congr 1; omega
  union nm d cs sz on i h emb e env ext := by
    intro b n v hv
    simp only [MFieldTy.parse, Union.parse, MFieldTy.allFields, Union.allFields] at hv ⊢
    obtain ⟨dv, hd, hv⟩ := Res.bind_eq_ok.mp hv
    have h' : ∀ k ∈ cs, ∀ r, k.itemType = some r →
        Reencodes (r.parse c) (r.write c) (UCase.listAllFields MField.notOptional cs = true) := by
      intro k hk r hr b n v hv
      have := h k hk r hr emb e [] [] b n v
      simp only [MFieldTy.parse, MFieldTy.write, MFieldTy.allFields] at this
      obtain ⟨h1, h2, h3, h4, h5⟩ := this hv
      exact ⟨h1, h2, h3, h4, fun hc => h5 (UCase.listAllFields_mem hc k hk r hr)⟩
    obtain ⟨j, x, hvj, h0, h1⟩ := Reencodes.cases h' dv 0 b n v hv
    subst hvj
    rw [Nat.zero_add] at h1 ⊢
    simp only [MFieldTy.write, Union.write, hd, Res.bind_ok]
    by_cases hany : cs.any (fun k => k.itemType.isSome) = true
    · rw [if_pos hany]
      simp only [Discriminant.read_append hd ext]
      exact h1
    · rw [if_neg hany]
      have hnone : ∀ k ∈ cs, k.itemType = none := by
        intro k hk
        cases hk' : k.itemType with
        | none => rfl
        | some r => exact absurd (List.any_eq_true.mpr ⟨k, hk, by simp [hk']⟩) hany
      rw [h0 hnone] at h1
      exact h1
  list ty m h emb e env ext := by
    refine Reencodes.of_exact (MFieldTy.cut c emb e _ env) (MFieldTy.insensitive c emb e _ env) ?_
    intro b n v hv
    simp only [MFieldTy.parse] at hv
    cases emb with
    | false =>
      simp only [Bool.false_eq_true, if_false] at hv
      obtain ⟨x, hx, rfl⟩ := Parser.map_eq_ok.mp hv
      obtain ⟨hsz, rfl, rfl⟩ := Lst.unsized_eq_ok.mp hx
      simp only [MFieldTy.write]
      refine ⟨rfl, ?_⟩
      rw [Seq.writeTo_bytes]
      have := wireInt_intOfWire e (b.take ty.byteSize)
      rw [List.length_take, Nat.min_eq_left hsz] at this
      simp only [this, List.take_append_drop, List.take_length]
    | true =>
      simp only [if_true] at hv
      obtain ⟨x, hx, rfl⟩ := Parser.map_eq_ok.mp hv
      obtain ⟨k, hsz, hlen, hk, rfl, hd⟩ := (Lst.fromSlice_eq_ok (Message.cut c m)).mp hx
      simp only [MFieldTy.write]
      refine ⟨rfl, ?_⟩
      rw [Seq.writeTo_bytes, hlen, hd]
      have := wireInt_intOfWire e (b.take ty.byteSize)
      rw [List.length_take, Nat.min_eq_left hsz] at this
      rw [this, ← List.take_add]
      congr 1; omega
  payload emb e env ext := by
    refine Reencodes.of_exact (MFieldTy.cut c emb e _ env) (MFieldTy.insensitive c emb e _ env) ?_
    intro b n v hv
    simp only [MFieldTy.parse] at hv
    obtain ⟨x, hx, rfl⟩ := Parser.map_eq_ok.mp hv
    obtain ⟨rfl, rfl⟩ := Buffer.fromSlice_eq_ok.mp hx
    simp only [MFieldTy.write]
    exact ⟨rfl, by simp [Buffer.writeTo]⟩
  msg id nm fs sz h b n v hv := by
    obtain ⟨vs, rfl, hr⟩ := Message.parse_eq_ok.mp hv
    simp only [Message.id, Message.fields] at hr
    have := MField.list_reencodes (canon := MField.listAllFields MField.notOptional fs = true)
      (env := []) (vs := vs) (fun f hf env ext b n v hv => by
        obtain ⟨h1, h2, h3, h4, h5⟩ := MField.reencodes (h f hf (c.emb id) f.endian env ext) b n v hv
        exact ⟨h1, h2, h3, h4, fun hc => h5 ((MField.listAllFields_mem hc f hf).symm)⟩) hr
    rw [List.nil_append] at this
    obtain ⟨h1, h2, h3, h4, h5⟩ := this
    simp only [Message.write, Message.allFields]
    exact ⟨h1, h2, Message.parse_eq_ok.mpr ⟨vs, rfl, h3⟩,
      fun hn t => Message.parse_eq_ok.mpr ⟨vs, rfl, h4 hn t⟩, h5⟩

theorem Message.reencodes (c : Ctx) (m : Message) :
    Reencodes (m.parse c) (m.write c) (m.allFields MField.notOptional = true) := (reencodeInd c).all m

end Proto
