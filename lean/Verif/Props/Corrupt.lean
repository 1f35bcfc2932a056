import Verif.Base.Lit
import Verif.Props.Finish
import Verif.Props.Patch

/-!
# C119: what changed bytes do to a message
-/

namespace Proto

/-! ## Messages that accept everything -/

/-- Whatever is given is decoded, or is too short. -/
def Parser.OnlyShort (f : Parser α) : Prop := ∀ b, (∃ r, f b = .ok r) ∨ f b = .err .truncated

/-- The field is no string and no union; if it is an array its size is a machine word. -/
def MField.unchecked (f : MField) : Bool :=
  match f.ty with
  | .nullTerminatedString => false
  | .varcharString _ => false
  | .union _ _ _ => false
  | .array ty s => decide ((256 ^ ty.byteSize - 1) * s.byteSize + ty.byteSize < 2 ^ 64)
  | _ => true

theorem Parser.OnlyShort.map {f : Parser α} (h : f.OnlyShort) {g : α → β} : (f.map g).OnlyShort := by
  intro b
  rcases h b with ⟨⟨n, v⟩, h⟩ | h
  · exact .inl ⟨⟨n, g v⟩, Parser.map_eq_ok.2 ⟨v, h, rfl⟩⟩
  · exact .inr (Parser.map_eq_err.2 h)

theorem Scalar.onlyShort (e : Endian) (sz : Nat) : (Scalar.fromSlice e sz).OnlyShort := by
  intro b
  rw [Scalar.fromSlice_eq]
  split
  · exact .inl ⟨_, rfl⟩
  · exact .inr rfl

theorem Structure.onlyShort (s : Structure) : s.parse.OnlyShort := by
  intro b
  unfold Structure.parse
  split
  · exact .inr rfl
  · next hb => exact .inl (by simp [Proto.slice, Nat.le_of_not_lt hb])

theorem Arr.onlyShort (p : Profile) (e : Endian) {sz isz : Nat} (hf : (256 ^ sz - 1) * isz + sz < 2 ^ 64) :
    (Arr.fromSlice p e sz isz).OnlyShort := by
  intro b
  by_cases hb : sz ≤ b.length
  · have hlt : intOfWire e (b.take sz) < 256 ^ sz := prefix_lt hb
    generalize hk : intOfWire e (b.take sz) = k at hlt
    have h1 : k * isz ≤ (256 ^ sz - 1) * isz := Nat.mul_le_mul_right _ (by omega)
    by_cases hn : k * isz + sz ≤ b.length
    · exact .inl ⟨⟨k * isz + sz, ⟨_, k⟩⟩, Arr.fromSlice_eq_ok.2 ⟨k * isz, hb, hk.symm,
        mulU_ok p (by simp only [usizeBits]; omega), by
          rw [Nat.add_comm]; exact addU_ok p (by simp only [usizeBits]; omega), by omega, by omega, rfl⟩⟩
    · refine .inr ?_
      unfold Arr.fromSlice
      have h2 : Scalar.fromSlice e sz b = .ok ⟨sz, k⟩ := Scalar.fromSlice_eq_ok.2 ⟨hb, by rw [hk]⟩
      have h3 : mulU p usizeBits k isz = (.ok (k * isz) : R Nat) := mulU_ok p (by simp only [usizeBits]; omega)
      have h4 : addU p usizeBits sz (k * isz) = (.ok (sz + k * isz) : R Nat) := addU_ok p (by simp only [usizeBits]; omega)
      simp only [h2, Res.bind_ok, h3, h4]
      rw [if_pos (by omega)]
  · refine .inr ?_
    unfold Arr.fromSlice
    rw [Scalar.fromSlice_eq, if_neg hb]
    rfl

theorem Lst.scanR_onlyShort {f : Parser α} (h : f.OnlyShort) (n : Nat) (b : Bytes) :
    (∃ k, scanR f n b = .ok k) ∨ scanR f n b = .err .truncated := by
  induction n generalizing b with
  | zero => exact .inl ⟨0, rfl⟩
  | succ n ih =>
    simp only [scanR]
    rcases h b with ⟨⟨k, v⟩, hb⟩ | hb
    · rw [hb]
      rcases ih (b.drop k) with ⟨j, hj⟩ | hj
      · simp only [hj]
        exact .inl ⟨_, rfl⟩
      · exact .inr (by simp only [hj])
    · rw [hb]
      exact .inr rfl

theorem Lst.onlyShort {f : Parser α} (h : f.OnlyShort) (hc : f.Cut) (e : Endian) (sz : Nat) :
    (Lst.fromSlice e sz f).OnlyShort := by
  intro b
  rw [Lst.fromSlice_eq hc]
  split
  · rcases Lst.scanR_onlyShort h (intOfWire e (b.take sz)) (b.drop sz) with ⟨k, hk⟩ | hk
    · rw [hk]
      exact .inl ⟨_, rfl⟩
    · rw [hk]
      exact .inr rfl
  · exact .inr rfl

theorem Optional.onlyShort {f : Parser α} (h : f.OnlyShort) : (Optional.fromSlice f).OnlyShort := by
  intro b
  cases b with
  | nil => exact .inr rfl
  | cons y r =>
    by_cases hy : y = 0
    · subst hy
      exact .inl ⟨_, Optional.fromSlice_none r⟩
    · rcases h r with ⟨⟨k, v⟩, hr⟩ | hr
      · exact .inl ⟨_, Optional.fromSlice_some hy hr⟩
      · refine .inr ?_
        have hy' : y.toNat > 0 := Nat.pos_of_ne_zero fun h => hy (UInt8.toNat_inj.1 h)
        simp only [Optional.fromSlice, if_pos hy', hr]
        rfl

theorem runFields_onlyShort {step : MField → Env → Parser Value} {fs : List MField}
    (h : ∀ f ∈ fs, ∀ env, (step f env).OnlyShort) (env : Env) (b : Bytes) :
    (∃ r, runFields step fs env b = .ok r) ∨ runFields step fs env b = .err .truncated := by
  induction fs generalizing env b with
  | nil => exact .inl ⟨_, rfl⟩
  | cons f fs ih =>
    simp only [runFields]
    rcases h f (by simp) env b with ⟨⟨k, v⟩, hb⟩ | hb
    · rw [hb]
      rcases ih (fun g hg => h g (by simp [hg])) (env ++ [(f.name, v)]) (b.drop k) with ⟨r, hr⟩ | hr
      · simp only [hr]
        exact .inl ⟨_, rfl⟩
      · exact .inr (by simp only [hr])
    · rw [hb]
      exact .inr rfl

theorem onlyShortInd (c : Ctx) : SchemaInd
    (fun m => m.allFields MField.unchecked = true → (m.parse c).OnlyShort)
    (fun ty => ∀ emb e env, ty.allFields MField.unchecked = true →
      MField.unchecked (.mk [] ty false ⟨false, false⟩ .little) = true → (ty.parse c emb e env).OnlyShort) where
  fixed ty emb e env _ _ := by simp only [MFieldTy.parse]; exact (Scalar.onlyShort e _).map
  struct s emb e env _ _ := by simp only [MFieldTy.parse, Referenced.parse]; exact s.onlyShort
  message m h emb e env ha _ := by
    simp only [MFieldTy.parse, Referenced.parse]
    simp only [MFieldTy.allFields, Referenced.allFields] at ha
    exact h ha
  nul emb e env _ hn := by simp [MField.unchecked, MField.ty] at hn
  varchar ty emb e env _ hn := by simp [MField.unchecked, MField.ty] at hn
  array ty s emb e env _ hn := by
    simp only [MFieldTy.parse]
    exact (Arr.onlyShort _ _ (of_decide_eq_true hn)).map
  union n d cs sz on i h emb e env _ hn := by simp [MField.unchecked, MField.ty] at hn
  list ty m h emb e env ha _ := by
    simp only [MFieldTy.allFields] at ha
    simp only [MFieldTy.parse]
    cases emb with
    | true =>
      simp only [if_true]
      exact (Lst.onlyShort (h ha) (Message.cut c m) e _).map
    | false =>
      simp only [Bool.false_eq_true, if_false]
      refine Parser.OnlyShort.map fun b => ?_
      rcases Scalar.onlyShort e ty.byteSize b with ⟨r, hr⟩ | hr
      · exact .inl ⟨_, Lst.unsized_eq_ok.2 ⟨(Scalar.fromSlice_eq_ok.1 hr).1, rfl, rfl⟩⟩
      · refine .inr ?_
        unfold Lst.unsizedFromSlice
        rw [hr]
        rfl
  payload emb e env _ _ := by
    simp only [MFieldTy.parse]
    exact Parser.OnlyShort.map fun b => .inl ⟨_, Buffer.fromSlice_eq_ok.2 ⟨rfl, rfl⟩⟩
  msg id n fs sz h ha := by
    have ha' := MField.listAllFields_mem (by simpa only [Message.allFields] using ha)
    intro b
    rw [Message.parse_eq]
    rcases runFields_onlyShort (fun f hf env => MField.optional_law (h f hf (c.emb id) f.endian env (ha' f hf).2 (ha' f hf).1)
      (fun _ => (Optional.onlyShort (h f hf (c.emb id) f.endian env (ha' f hf).2 (ha' f hf).1)).map)) [] b with ⟨r, hr⟩ | hr
    · simp only [Message.id, Message.fields, hr]
      exact .inl ⟨_, rfl⟩
    · simp only [Message.id, Message.fields, hr]
      exact .inr rfl

/-! ## What a value says about its bytes -/

/-- The same, but for what is written where a value is present. -/
inductive ButFlags : Bytes → Bytes → Prop
  | nil : ButFlags [] []
  | cons {x y : UInt8} {a b : Bytes} : (x = y ∨ x ≠ 0 ∧ y ≠ 0) → ButFlags a b → ButFlags (x :: a) (y :: b)

theorem ButFlags.append {a b a' b' : Bytes} (h : ButFlags a b) (h' : ButFlags a' b') : ButFlags (a ++ a') (b ++ b') := by
  induction h with
  | nil => exact h'
  | cons hx _ ih => exact .cons hx ih

theorem ButFlags.get {a b : Bytes} (h : ButFlags a b) (i : Nat) :
    a[i]? = b[i]? ∨ a[i]? ≠ some 0 ∧ b[i]? ≠ some 0 := by
  induction h generalizing i with
  | nil => exact .inl rfl
  | cons hx _ ih =>
    cases i with
    | zero => simpa using hx
    | succ i => simpa using ih i

theorem ButFlags.refl (b : Bytes) : ButFlags b b := by
  induction b with
  | nil => exact .nil
  | cons x b ih => exact .cons (.inl rfl) ih

/-- Inputs with the same value are as long, and the same but for flags. -/
def Parser.Pins (f : Parser α) : Prop := ∀ b b' n n' v, f b = .ok ⟨n, v⟩ → f b' = .ok ⟨n', v⟩ →
  n = n' ∧ ButFlags (b.take n) (b'.take n')

theorem Parser.Pins.of_exact {f : Parser α} {w : α → Bytes}
    (h : ∀ b n v, f b = .ok ⟨n, v⟩ → n ≤ b.length ∧ b.take n = w v) : f.Pins := by
  intro b b' n n' v h1 h2
  obtain ⟨h3, h4⟩ := h _ _ _ h1
  obtain ⟨h5, h6⟩ := h _ _ _ h2
  have h7 := congrArg List.length (h4.trans h6.symm)
  simp only [List.length_take] at h7
  exact ⟨by omega, by rw [h4, h6]; exact ButFlags.refl _⟩

theorem Reencodes.mono {f : Parser Value} {w : Value → Out} {canon : Prop} (h : Reencodes f w canon) (hc : canon) :
    Reencodes f w True := fun b n v hv =>
  let ⟨h1, h2, h3, h4, h5⟩ := h b n v hv
  ⟨h1, h2, h3, h4, fun _ => h5 hc⟩

theorem Reencodes.pins {f : Parser Value} {w : Value → Out} (h : Reencodes f w True) (hc : f.Cut) : f.Pins :=
  Parser.Pins.of_exact (w := fun v => (w v).bytes) fun b n v hv =>
    ⟨(hc b n v hv).1, ((h b n v hv).2.2.2.2 trivial).symm⟩

theorem Optional.pins {f : Parser α} (h : f.Pins) : (Optional.fromSlice f).Pins := by
  intro b b' n n' v h1 h2
  rcases Optional.fromSlice_eq_ok.1 h1 with ⟨t, rfl, rfl, rfl⟩ | ⟨x, t, m, w, rfl, hx, hm, rfl, rfl⟩
  · rcases Optional.fromSlice_eq_ok.1 h2 with ⟨t', rfl, rfl, _⟩ | ⟨x', t', m', w', rfl, hx', hm', hn', hv⟩
    · exact ⟨rfl, by simp only [List.take_succ_cons, List.take_zero]; exact ButFlags.refl _⟩
    · cases hv
  · rcases Optional.fromSlice_eq_ok.1 h2 with ⟨t', rfl, rfl, hv⟩ | ⟨x', t', m', w', rfl, hx', hm', rfl, hv⟩
    · cases hv
    · cases hv
      obtain ⟨rfl, h3⟩ := h _ _ _ _ _ hm hm'
      refine ⟨rfl, ?_⟩
      rw [List.take_succ_cons, List.take_succ_cons]
      exact .cons (.inr ⟨hx, hx'⟩) h3

theorem Parser.Pins.map {f : Parser α} (h : f.Pins) {g : α → β} (hg : ∀ a b, g a = g b → a = b) : (f.map g).Pins := by
  intro b b' n n' v h1 h2
  obtain ⟨x, hx, rfl⟩ := Parser.map_eq_ok.1 h1
  obtain ⟨y, hy, hv⟩ := Parser.map_eq_ok.1 h2
  cases hg _ _ hv
  exact h _ _ _ _ _ hx hy

theorem Union.parseCases_pins {c : Ctx} {cs : List UCase} (h : ∀ k ∈ cs, ∀ r, k.itemType = some r → (r.parse c).Pins)
    (i d : Nat) (b b' : Bytes) (n n' : Nat) (v : Value) (h1 : Union.parseCases c cs i d b = .ok ⟨n, v⟩)
    (h2 : Union.parseCases c cs i d b' = .ok ⟨n', v⟩) : n = n' ∧ ButFlags (b.take n) (b'.take n') := by
  induction cs generalizing i with
  | nil => simp [Union.parseCases] at h1
  | cons k cs ih =>
    obtain ⟨nm, case, t⟩ := k
    by_cases hd : d = case
    · cases t with
      | none =>
        simp only [Union.parseCases, if_pos hd] at h1 h2
        cases h1
        cases h2
        exact ⟨rfl, by simp only [List.take_zero]; exact .nil⟩
      | some r =>
        simp only [Union.parseCases, if_pos hd] at h1 h2
        exact (h (.mk nm case (some r)) (by simp) r rfl).map (g := Value.union i) (fun a b h => by cases h; rfl)
          _ _ _ _ _ h1 h2
    · have hp : Union.parseCases c (.mk nm case t :: cs) i d = Union.parseCases c cs (i + 1) d := by
        cases t <;> simp only [Union.parseCases, if_neg hd]
      rw [hp] at h1 h2
      exact ih (fun k hk => h k (by simp [hk])) (i + 1) h1 h2

theorem runFields_pins {step : MField → Env → Parser Value} {fs : List MField}
    (h : ∀ f ∈ fs, ∀ env, (step f env).Pins) {env env' : Env} {b b' : Bytes} {n n' : Nat}
    (h1 : runFields step fs env b = .ok (n, env')) (h2 : runFields step fs env b' = .ok (n', env')) :
    n = n' ∧ ButFlags (b.take n) (b'.take n') := by
  induction fs generalizing env b b' n n' with
  | nil =>
    cases h1
    cases h2
    exact ⟨rfl, by simp only [List.take_zero]; exact .nil⟩
  | cons f fs ih =>
    obtain ⟨m, v, k, h3, h4, rfl⟩ := runFields_cons_ok.1 h1
    obtain ⟨m', v', k', h5, h6, rfl⟩ := runFields_cons_ok.1 h2
    obtain ⟨vs, hvs⟩ := runFields_env h4
    obtain ⟨vs', hvs'⟩ := runFields_env h6
    have hv : v = v' := by
      rw [hvs, List.append_assoc, List.append_assoc] at hvs'
      have := List.append_cancel_left hvs'
      simp only [List.singleton_append, List.cons.injEq, Prod.mk.injEq, true_and] at this
      exact this.1
    subst hv
    obtain ⟨rfl, h7⟩ := h f (by simp) env _ _ _ _ _ h3 h5
    obtain ⟨rfl, h8⟩ := ih (fun g hg => h g (by simp [hg])) h4 h6
    exact ⟨rfl, by rw [List.take_add, List.take_add]; exact h7.append h8⟩

theorem pinsInd (c : Ctx) : SchemaInd (fun m => (m.parse c).Pins) (fun t => ∀ emb e env, (t.parse c emb e env).Pins) where
  fixed ty emb e env b b' n n' v h1 h2 :=
    ((reencodeInd c).fixed ty emb e env []).mono (by simp [MFieldTy.allFields]) |>.pins (MFieldTy.cut c emb e _ env) _ _ _ _ _ h1 h2
  struct s emb e env :=
    ((reencodeInd c).struct s emb e env []).mono (by simp [MFieldTy.allFields, Referenced.allFields]) |>.pins (MFieldTy.cut c emb e _ env)
  message m h emb e env := by simpa only [MFieldTy.parse, Referenced.parse] using h
  nul emb e env := ((reencodeInd c).nul emb e env []).mono (by simp [MFieldTy.allFields]) |>.pins (MFieldTy.cut c emb e _ env)
  varchar ty emb e env :=
    ((reencodeInd c).varchar ty emb e env []).mono (by simp [MFieldTy.allFields]) |>.pins (MFieldTy.cut c emb e _ env)
  array ty s emb e env :=
    ((reencodeInd c).array ty s emb e env []).mono (by simp [MFieldTy.allFields]) |>.pins (MFieldTy.cut c emb e _ env)
  union nm d cs sz on i h emb e env := by
    intro b b' n n' v h1 h2
    simp only [MFieldTy.parse, Union.parse] at h1 h2
    obtain ⟨dv, hd, h1⟩ := Res.bind_eq_ok.1 h1
    rw [hd, Res.bind_ok] at h2
    refine Union.parseCases_pins (fun k hk r hr => ?_) _ _ _ _ _ _ _ h1 h2
    have := h k hk r hr emb e []
    simpa only [MFieldTy.parse] using this
  list ty m h emb e env := by
    cases emb with
    | false =>
      simp only [MFieldTy.parse, Bool.false_eq_true, if_false]
      refine (Parser.Pins.of_exact (w := fun s => wireInt e ty.byteSize s.len ++ s.data) fun b n v hv => ?_).map
        (fun a b h => by cases h; rfl)
      obtain ⟨hsz, rfl, rfl⟩ := Lst.unsized_eq_ok.1 hv
      have := wireInt_intOfWire e (b.take ty.byteSize)
      rw [List.length_take, Nat.min_eq_left hsz] at this
      refine ⟨Nat.le_refl _, ?_⟩
      simp only [this, List.take_append_drop, List.take_length]
    | true =>
      simp only [MFieldTy.parse, if_true]
      refine (Parser.Pins.of_exact (w := fun s => wireInt e ty.byteSize s.len ++ s.data) fun b n v hv => ?_).map
        (fun a b h => by cases h; rfl)
      have hle := (Lst.cut (Message.cut c m) e _ b n v hv).1
      obtain ⟨k, hsz, hlen, hk, rfl, hd⟩ := (Lst.fromSlice_eq_ok (Message.cut c m)).1 hv
      have := wireInt_intOfWire e (b.take ty.byteSize)
      rw [List.length_take, Nat.min_eq_left hsz] at this
      refine ⟨hle, ?_⟩
      rw [hlen, hd, this, ← List.take_add]
      congr 1
      omega
  payload emb e env := ((reencodeInd c).payload emb e env []).mono (by simp [MFieldTy.allFields]) |>.pins (MFieldTy.cut c emb e _ env)
  msg id nm fs sz h b b' n n' v h1 h2 := by
    obtain ⟨vs, rfl, hr⟩ := Message.parse_eq_ok.1 h1
    obtain ⟨vs', hv, hr'⟩ := Message.parse_eq_ok.1 h2
    cases hv
    exact runFields_pins (fun f hf env => MField.optional_law (h f hf _ _ env)
      (fun _ => (Optional.pins (h f hf _ _ env)).map fun a b h => by cases a <;> cases b <;> cases h <;> rfl)) hr hr'

/-! ## Fields before the change -/

theorem runFields_reached_err {step : MField → Env → Parser Value} {pre post : List MField} {f : MField} {env env' : Env}
    {b : Bytes} {n : Nat} {e : Error} (h : runFields step pre env b = .ok (n, env'))
    (hf : step f env' (b.drop n) = .err e) : runFields step (pre ++ f :: post) env b = .err e := by
  induction pre generalizing env b n with
  | nil =>
    cases h
    rw [List.drop_zero] at hf
    simp only [List.nil_append, runFields, hf]
  | cons g pre ih =>
    obtain ⟨m, v, k, h3, h4, rfl⟩ := runFields_cons_ok.1 h
    simp only [List.cons_append, runFields, h3]
    rw [ih h4 (by rw [List.drop_drop]; exact hf)]

theorem MField.listOffsets_take (fs : List MField) (off : Nat) (vs : Env) (j : Nat) :
    MField.listOffsets (fs.take j) off (vs.take j) = (MField.listOffsets fs off vs).take j := by
  induction fs generalizing off vs j with
  | nil => simp [MField.listOffsets]
  | cons f fs ih =>
    cases j with
    | zero => simp [MField.listOffsets]
    | succ j =>
      cases vs with
      | nil => simp [MField.listOffsets]
      | cons v vs => simp only [List.take_succ_cons, MField.listOffsets, ih]

end Proto

namespace Proto.Props

/-! ## C119 -/

/-- C119: in messages without strings and unions, at any depth, nothing is refused for what it is: every
input is decoded or too short.  (Arrays are to have sizes that are machine words.) -/
theorem C119_unchecked (c : Ctx) {m : Message} (ha : m.allFields MField.unchecked = true) (b : Bytes) :
    (∃ r, m.parse c b = .ok r) ∨ m.parse c b = .err .truncated := (onlyShortInd c).all m ha b

/-- C119: hence every input as long as the longest encoding is decoded, whatever it holds. -/
theorem C119_anything (c : Ctx) {m : Message} {max : Nat} (ha : m.allFields MField.unchecked = true)
    (hm : m.most c.emb = some max) {b : Bytes} (hb : max ≤ b.length) : ∃ r, m.parse c b = .ok r :=
  (C119_unchecked c ha b).resolve_right (C118_enough c hm hb)

/-- C119: and those whose encodings all have one size decode exactly the inputs that are not shorter. -/
theorem C119_one_size (c : Ctx) {m : Message} (ha : m.allFields MField.unchecked = true)
    (hm : m.most c.emb = some m.least) (b : Bytes) :
    (m.least ≤ b.length → ∃ v, m.parse c b = .ok ⟨m.least, v⟩) ∧
      (b.length < m.least → m.parse c b = .err .truncated) := by
  constructor
  · intro hb
    obtain ⟨⟨n, v⟩, h⟩ := C119_anything c ha hm hb
    have h1 := C102_least c m h
    have h2 := (mostInd c).all m _ hm b n v h
    exact ⟨v, by rw [h, Nat.le_antisymm h2 h1]⟩
  · exact fun hb => (C119_unchecked c ha b).resolve_left fun ⟨r, h⟩ => C102_short c m hb r h

/-- A structure, a list of pairs of numbers, an optional number. -/
def Ex.raw : Message :=
  .mk 21 "Raw".toList
    [ .mk "k".toList (.ref (.struct Ex.keyS)) false ⟨false, false⟩ .little,
      .mk "l".toList (.list .u8 (.mk 20 "Pair".toList
        [ .mk "x".toList (.fixed .u16) false ⟨false, false⟩ .little,
          .mk "y".toList (.fixed .u8) false ⟨false, false⟩ .little ] ⟨false, false⟩)) false ⟨true, true⟩ .little,
      .mk "o".toList (.fixed .u32) true ⟨true, false⟩ .little ] ⟨true, true⟩

example (b : Bytes) (hb : 773 ≤ b.length) : ∃ r, Ex.raw.parse Ex.ctx b = .ok r :=
  C119_anything Ex.ctx (max := 773) (by decide) (by decide) hb

example : Ex.raw.parse Ex.ctx [7, 7, 1, 7, 7] = .err .truncated :=
  (C119_unchecked Ex.ctx (m := Ex.raw) (by decide) [7, 7, 1, 7, 7]).resolve_left fun ⟨r, h⟩ => by cases h

/-- Two structures. -/
def Ex.twin : Message :=
  .mk 41 "Twin".toList
    [ .mk "k".toList (.ref (.struct Ex.keyS)) false ⟨false, false⟩ .little,
      .mk "l".toList (.ref (.struct Ex.keyS)) false ⟨false, false⟩ .little ] ⟨false, false⟩

example (x y z w : UInt8) (t : Bytes) : ∃ v, Ex.twin.parse Ex.ctx (x :: y :: z :: w :: t) = .ok ⟨4, v⟩ :=
  (C119_one_size Ex.ctx (m := Ex.twin) (by decide) (by decide) _).1 (by simp [show Ex.twin.least = 4 from rfl])

/-- C119: a string that ends with a zero is enough to have inputs refused for what they are: behind
self-delimiting fields that can be decoded, every text that is not UTF-8 is, whatever follows it. -/
theorem C119_refused (c : Ctx) {id : Nat} {nm : Name} {pre post : List MField} {sz sz' szf : SizeInfo}
    {b s : Bytes} {n : Nat} {env : Env} {name : Name} {e : Endian}
    (hd : Message.delimited c.emb (.mk id nm pre sz) = true)
    (h : Message.parse c (.mk id nm pre sz) b = .ok ⟨n, .msg env⟩) (h0 : 0 ∉ s) (hs : ¬IsUtf8 s) (t : Bytes) :
    Message.parse c (.mk id nm (pre ++ .mk name .nullTerminatedString false szf e :: post) sz')
      (b.take n ++ s ++ 0 :: t) = .err .invalidUtf8 := by
  have hle := (Message.cut c _ _ _ _ h).1
  have hl : (b.take n).length = n := by simp; omega
  obtain ⟨vs, hvs, hr⟩ := Message.parse_eq_ok.1 (C23_accepted c hd h (s ++ 0 :: t)).2
  cases hvs
  rw [Message.parse_eq]
  simp only [Message.id, Message.fields, List.append_assoc] at hr ⊢
  rw [runFields_reached_err hr (e := .invalidUtf8)]
  · rfl
  · rw [List.drop_append_of_le_length (by omega), List.drop_of_length_le (by omega), List.nil_append]
    simp only [MField.parse, MFieldTy.parse, Bool.false_eq_true, if_false]
    exact Parser.map_eq_err.2 ((C19_invalid _).2 ⟨s, t, rfl, h0, hs⟩)

example (t : Bytes) : Ex.named.parse Ex.ctx (255 :: 0 :: t) = .err .invalidUtf8 :=
  C119_refused Ex.ctx (id := 40) (nm := "Named".toList) (pre := []) (sz := ⟨false, false⟩) (b := []) (s := [255]) (n := 0)
    (env := []) (szf := ⟨true, false⟩) (sz' := ⟨true, false⟩) (name := "n".toList) (e := .little)
    (post := [.mk "x".toList (.fixed .u8) false ⟨false, false⟩ .little]) rfl
    (by rfl) (by decide) (fun h => Ex.no_text ⟨[], h⟩) t

/-- C119: inputs decoded to the same value take the same number of bytes, and differ only in bytes that are
zero in neither. -/
theorem C119_same (c : Ctx) (m : Message) {b b' : Bytes} {n n' : Nat} {v : Value}
    (h : m.parse c b = .ok ⟨n, v⟩) (h' : m.parse c b' = .ok ⟨n', v⟩) :
    n = n' ∧ ∀ i, i < n → b[i]? = b'[i]? ∨ b[i]? ≠ some 0 ∧ b'[i]? ≠ some 0 := by
  obtain ⟨rfl, hb⟩ := (pinsInd c).all m _ _ _ _ _ h h'
  refine ⟨rfl, fun i hi => ?_⟩
  have := hb.get i
  rwa [List.getElem?_take_of_lt hi, List.getElem?_take_of_lt hi] at this

/-- The flag of the string is 1 or 9. -/
example : Ex.item.parse Ex.ctx [7, 0, 1, 104, 0] = Ex.item.parse Ex.ctx [7, 0, 9, 104, 0] ∧
    ∀ i, i < 5 → ([7, 0, 1, 104, 0] : Bytes)[i]? = ([7, 0, 9, 104, 0] : Bytes)[i]? ∨
      ([7, 0, 1, 104, 0] : Bytes)[i]? ≠ some 0 ∧ ([7, 0, 9, 104, 0] : Bytes)[i]? ≠ some 0 :=
  ⟨rfl, (C119_same Ex.ctx Ex.item (n := 5) (n' := 5) (b := [7, 0, 1, 104, 0]) (b' := [7, 0, 9, 104, 0])
    (v := .msg [("x".toList, .num 7), ("s".toList, .some (.str [104]))]) (by rfl) (by rfl)).2⟩

/-- C119: without optional fields every change of the bytes taken is seen: as an error, another value or
another size. -/
theorem C119_seen (c : Ctx) {m : Message} (ho : m.allFields MField.notOptional = true) {b b' : Bytes} {n : Nat}
    {v : Value} (h : m.parse c b = .ok ⟨n, v⟩) : m.parse c b' = .ok ⟨n, v⟩ → b'.take n = b.take n := fun h' => by
  rw [← (C27_reencode c m h).2.2.2.2 ho, ← (C27_reencode c m h').2.2.2.2 ho]

example (b : Bytes) (h : Ex.keyed.parse Ex.ctx b = .ok ⟨7, Ex.keyedV⟩) : b.take 7 = [1, 9, 3, 4, 1, 5, 6] :=
  C119_seen Ex.ctx (m := Ex.keyed) (b := [1, 9, 3, 4, 1, 5, 6, 77]) (by decide) (by rfl) h

/-- C119: fields that end before the first change, and before the end of the input, keep their values and
their places, if the changed input is decoded at all. -/
theorem C119_before (c : Ctx) (m : Message) {b b' : Bytes} {n n' : Nat} {vs vs' : Env} {offs offs' : OffEnv}
    (h : m.parseOff c b = .ok ⟨n, (.msg vs, .msg offs)⟩) (h' : m.parseOff c b' = .ok ⟨n', (.msg vs', .msg offs')⟩)
    {i : Nat} {name : Name} {r : FieldOffset} {o : Offsets} (hi : offs[i]? = some (name, r, o))
    (hr : r.stop < b.length) (hb : b'.take r.stop = b.take r.stop) :
    vs'[i]? = vs[i]? ∧ offs'[i]? = offs[i]? := by
  have key : ∀ {m : Message} {b n vs offs}, m.parseOff c b = .ok ⟨n, (.msg vs, .msg offs)⟩ →
      runFields (MField.parse c (c.emb m.id)) m.fields [] b = .ok (n, vs) ∧
        offs = MField.listOffsets m.fields 0 vs := by
    intro m b n vs offs h
    have hp : m.parse c b = .ok ⟨n, .msg vs⟩ := by rw [← C35_agree, h]; rfl
    rw [C35_exact, hp] at h
    obtain ⟨id, nm, fs, sz⟩ := m
    obtain ⟨vs', hv, hr⟩ := Message.parse_eq_ok.1 hp
    cases hv
    change Res.ok _ = _ at h
    simp only [Message.offsetsOf, Res.ok.injEq, Msg.mk.injEq, Prod.mk.injEq, Offsets.msg.injEq] at h
    exact ⟨hr, h.2.2.symm⟩
  obtain ⟨h1, rfl⟩ := key h
  obtain ⟨h2, rfl⟩ := key h'
  obtain ⟨id, nm, fs, sz⟩ := m
  simp only [Message.id, Message.fields] at h1 h2 hi ⊢
  rw [← List.take_append_drop (i + 1) fs] at h1 h2
  obtain ⟨k, l, env, h3, h4, rfl⟩ := runFields_split.1 h1
  obtain ⟨ws, rfl⟩ := runFields_env h4
  obtain ⟨vs0, offs0, hv0, ho0, _, hol, _⟩ := C35_tiles c (.mk id nm fs sz) h
  simp only [Message.fields] at hol
  cases hv0
  cases ho0
  have hlen : i < fs.length := by
    rw [← hol]
    exact (List.getElem?_eq_some_iff.1 hi).1
  have hp1 : (Message.mk id [] (fs.take (i + 1)) ⟨false, false⟩).parse c b = .ok ⟨k, .msg env⟩ :=
    Message.parse_eq_ok.2 ⟨env, rfl, h3⟩
  have hq1 : ∃ n, (Message.mk id [] (fs.take (i + 1)) ⟨false, false⟩).parseOff c b =
      .ok ⟨n, (.msg env, .msg (MField.listOffsets (fs.take (i + 1)) 0 env))⟩ := by
    rw [C35_exact, hp1]
    exact ⟨_, by simp only [Res.bind, Message.offsetsOf]; rfl⟩
  obtain ⟨k', hq1⟩ := hq1
  have hkk : k' = k := by
    have := C35_agree c (Message.mk id [] (fs.take (i + 1)) ⟨false, false⟩) b
    rw [hp1, hq1] at this
    simp only [Res.bind, Res.ok.injEq, Msg.mk.injEq] at this
    exact this.1
  subst hkk
  obtain ⟨vs1, offs1, hv1, ho1, hvl, _, _, ht⟩ := C35_tiles c _ hq1
  cases hv1
  cases ho1
  simp only [Message.fields, List.length_take, Nat.min_eq_left (show i + 1 ≤ fs.length from hlen)] at hvl ht
  have htake : ∀ ws : Env, (env ++ ws).take (i + 1) = env := fun ws => by rw [← hvl, List.take_left]
  have hoff : ∀ ws : Env, (MField.listOffsets fs 0 (env ++ ws))[i]? =
      (MField.listOffsets (fs.take (i + 1)) 0 env)[i]? := fun ws => by
    rw [← htake ws, MField.listOffsets_take, List.getElem?_take_of_lt (by omega), htake]
  obtain ⟨r', o', _, ho', _, _, _, _, _, hlast, _⟩ := ht i fs[i] (by simp [hlen])
  rw [hoff, ho'] at hi
  cases hi
  have hk := hlast rfl
  rw [hk] at hr hb
  have h5 := runFields_insensitive (fun f _ env => MField.insensitive c _ f env) h3 hr (b'.drop k')
  rw [← hb, List.take_append_drop] at h5
  obtain ⟨j, l', env', h6, h7, rfl⟩ := runFields_split.1 h2
  rw [h5] at h6
  cases h6
  obtain ⟨ws', rfl⟩ := runFields_env h7
  refine ⟨?_, by rw [hoff, hoff]⟩
  rw [List.getElem?_append_left (by omega), List.getElem?_append_left (by omega)]

/-- The input was `1 9 3 4 1 5 6`; the count of the array, at 4, and what follows are changed. -/
example (t : Bytes) (n : Nat) (vs : Env) (offs : OffEnv)
    (h : Ex.keyed.parseOff Ex.ctx (1 :: 9 :: 3 :: 4 :: t) = .ok ⟨n, (.msg vs, .msg offs)⟩) :
    vs[1]? = some ("l".toList, .struct [3, 4]) ∧ offs[1]? = some ("l".toList, ⟨2, 4⟩, .unit) :=
  C119_before Ex.ctx Ex.keyed (b := [1, 9, 3, 4, 1, 5, 6]) (i := 1) (n := 7)
    (vs := [("k".toList, .struct [1, 9]), ("l".toList, .struct [3, 4]), ("a".toList, .seq ⟨[5, 6], 1⟩)])
    (offs := [("k".toList, ⟨0, 2⟩, .unit), ("l".toList, ⟨2, 4⟩, .unit), ("a".toList, ⟨4, 7⟩, .unit)])
    (by rfl) h rfl (by decide) (by simp)

end Proto.Props
