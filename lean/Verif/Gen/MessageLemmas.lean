import Verif.Spec.Message
import Verif.Runtime.SeqLemmas

/-!
# Laws of the generated decoders
-/

namespace Proto

/-! ## Induction on schemas -/

/-- The induction steps of a property `P` of messages and `Q` of field types. -/
structure SchemaInd (P : Message → Prop) (Q : MFieldTy → Prop) : Prop where
  fixed : ∀ ty, Q (.fixed ty)
  struct : ∀ s, Q (.ref (.struct s))
  message : ∀ m, P m → Q (.ref (.message m))
  nul : Q .nullTerminatedString
  varchar : ∀ ty, Q (.varcharString ty)
  array : ∀ ty s, Q (.array ty s)
  union : ∀ n d cs sz on i, (∀ k ∈ cs, ∀ r, k.itemType = some r → Q (.ref r)) →
    Q (.union (.mk n d cs sz) on i)
  list : ∀ ty m, P m → Q (.list ty m)
  payload : Q .payload
  msg : ∀ id n fs sz, (∀ f ∈ fs, Q f.ty) → P (.mk id n fs sz)

namespace SchemaInd

variable {P : Message → Prop} {Q : MFieldTy → Prop}

mutual
theorem ref (h : SchemaInd P Q) : ∀ r, Q (.ref r)
  | .struct s => h.struct s
  | .message m => h.message m (h.all m)

theorem ty (h : SchemaInd P Q) : ∀ t, Q t
  | .fixed t => h.fixed t
  | .ref r => h.ref r
  | .nullTerminatedString => h.nul
  | .varcharString t => h.varchar t
  | .array t s => h.array t s
  | .union u on i => h.un u on i
  | .list t m => h.list t m (h.all m)
  | .payload => h.payload

theorem un (h : SchemaInd P Q) : ∀ u on i, Q (.union u on i)
  | .mk n d cs sz, on, i => h.union n d cs sz on i (h.cases cs)

theorem cases (h : SchemaInd P Q) : ∀ (cs : List UCase), ∀ k ∈ cs, ∀ r, k.itemType = some r → Q (.ref r)
  | [] => fun _ hk => absurd hk (List.not_mem_nil)
  | .mk _ _ none :: cs => fun k hk r hr => by
    rcases List.mem_cons.mp hk with rfl | hk
    · simp [UCase.itemType] at hr
    · exact h.cases cs k hk r hr
  | .mk _ _ (some r0) :: cs => fun k hk r hr => by
    rcases List.mem_cons.mp hk with rfl | hk
    · simp only [UCase.itemType, Option.some.injEq] at hr
      exact hr ▸ h.ref r0
    · exact h.cases cs k hk r hr

theorem fields (h : SchemaInd P Q) : ∀ (fs : List MField), ∀ f ∈ fs, Q f.ty
  | [] => fun _ hf => absurd hf (List.not_mem_nil)
  | .mk _ t _ _ _ :: fs => fun f hf => by
    rcases List.mem_cons.mp hf with rfl | hf
    · exact h.ty t
    · exact h.fields fs f hf

theorem all (h : SchemaInd P Q) : ∀ m, P m
  | .mk id n fs sz => h.msg id n fs sz (h.fields fs)
end

end SchemaInd

/-! ## Constructors around decoders -/

namespace Parser

variable {f : Parser α} {g : α → β}

theorem map_eq_ok {b : Bytes} {n : Nat} {v : β} :
    f.map g b = .ok ⟨n, v⟩ ↔ ∃ x, f b = .ok ⟨n, x⟩ ∧ v = g x := by
  unfold map
  cases f b with
  | ok m =>
    obtain ⟨k, x⟩ := m
    simp only [Res.bind, Msg.map, Res.ok.injEq, Msg.mk.injEq]
    constructor
    · rintro ⟨rfl, rfl⟩; exact ⟨x, ⟨rfl, rfl⟩, rfl⟩
    · rintro ⟨y, ⟨rfl, rfl⟩, rfl⟩; exact ⟨rfl, rfl⟩
  | err e => simp [Res.bind]
  | panic => simp [Res.bind]

theorem map_eq_err {b : Bytes} {e : Error} : f.map g b = .err e ↔ f b = .err e := by
  unfold map
  cases f b <;> simp [Res.bind]

theorem map_eq_panic {b : Bytes} : f.map g b = .panic ↔ f b = .panic := by
  unfold map
  cases f b <;> simp [Res.bind]

theorem Cut.map (h : f.Cut) : (f.map g).Cut := by
  intro b n v hv
  obtain ⟨x, hx, rfl⟩ := map_eq_ok.mp hv
  obtain ⟨h1, h2⟩ := h _ _ _ hx
  exact ⟨h1, fun k hk => map_eq_ok.mpr ⟨x, h2 k hk, rfl⟩⟩

theorem Insensitive.map (h : f.Insensitive) : (f.map g).Insensitive := by
  intro b n v hv hn t
  obtain ⟨x, hx, rfl⟩ := map_eq_ok.mp hv
  exact map_eq_ok.mpr ⟨x, h _ _ _ hx hn t, rfl⟩

theorem Delimits.map (h : f.Delimits) : (f.map g).Delimits := by
  intro b n v hv t
  obtain ⟨x, hx, rfl⟩ := map_eq_ok.mp hv
  exact map_eq_ok.mpr ⟨x, h _ _ _ hx t, rfl⟩

theorem Truncates.map {pan : Prop} (h : f.Truncates pan) : (f.map g).Truncates pan := by
  intro b n v hv k hk
  obtain ⟨x, hx, rfl⟩ := map_eq_ok.mp hv
  rcases h _ _ _ hx k hk with h | ⟨hp, h⟩
  · exact .inl (map_eq_err.mpr h)
  · exact .inr ⟨hp, map_eq_panic.mpr h⟩

theorem Total.map (h : f.Total) : (f.map g).Total := fun b hb => h b (map_eq_panic.mp hb)

theorem Truncates.mono {p q : Prop} (hpq : p → q) (h : f.Truncates p) : f.Truncates q := by
  intro b n v hv k hk
  exact (h b n v hv k hk).imp_right (fun h => ⟨hpq h.1, h.2⟩)

end Parser

/-! ## Structures -/

namespace Structure

theorem parse_eq (s : Structure) (b : Bytes) :
    s.parse b = if s.byteSize ≤ b.length then .ok ⟨s.byteSize, .struct (b.take s.byteSize)⟩
      else .err .truncated := by
  unfold parse
  by_cases h : s.byteSize ≤ b.length
  · rw [if_neg (by omega), if_pos h, slice_ok (by omega) h]; simp
  · rw [if_pos (by omega), if_neg h]

theorem parse_eq_ok {s : Structure} {b : Bytes} {n : Nat} {v : Value} :
    s.parse b = .ok ⟨n, v⟩ ↔ s.byteSize ≤ b.length ∧ n = s.byteSize ∧ v = .struct (b.take s.byteSize) := by
  rw [parse_eq]
  split
  · next h => simp [h, eq_comm]
  · next h => simp [h]

theorem cut (s : Structure) : s.parse.Cut := by
  intro b n v h
  obtain ⟨h1, rfl, rfl⟩ := parse_eq_ok.mp h
  refine ⟨h1, fun k hk => parse_eq_ok.mpr ⟨by simp; omega, rfl, ?_⟩⟩
  rw [List.take_take, Nat.min_eq_left hk]

theorem delimits (s : Structure) : s.parse.Delimits := by
  intro b n v h t
  obtain ⟨h1, rfl, rfl⟩ := parse_eq_ok.mp h
  refine parse_eq_ok.mpr ⟨by simp; omega, rfl, ?_⟩
  rw [List.take_append_of_le_length h1]

theorem truncates (s : Structure) (pan : Prop) : s.parse.Truncates pan := by
  intro b n v h k hk
  obtain ⟨h1, rfl, rfl⟩ := parse_eq_ok.mp h
  left
  rw [parse_eq, if_neg (by simp; omega)]

theorem total (s : Structure) : s.parse.Total := by
  intro b
  rw [parse_eq]; split <;> simp

theorem write_eq {s : Structure} {b : Bytes} (h : b.length = s.byteSize) : s.write b = .write b := by
  unfold write
  rw [slice_ok (by omega) (by omega)]
  simp [← h]

end Structure

/-! ## Sequences of fields -/

/-- Decoding fields one after the other, each from where the previous one stopped. -/
def runFields (step : MField → Env → Parser Value) : List MField → Env → Bytes → R (Nat × Env)
  | [], env, _ => .ok (0, env)
  | f :: fs, env, b =>
    match step f env b with
    | .ok msg =>
      match runFields step fs (env ++ [(f.name, msg.data)]) (b.drop msg.size) with
      | .ok r => .ok (msg.size + r.1, r.2)
      | .err e => .err e
      | .panic => .panic
    | .err e => .err e
    | .panic => .panic

section Fields

variable {step : MField → Env → Parser Value}

theorem runFields_cons_ok {f : MField} {fs : List MField} {env : Env} {b : Bytes} {n : Nat}
    {env' : Env} :
    runFields step (f :: fs) env b = .ok (n, env') ↔
      ∃ m v k, step f env b = .ok ⟨m, v⟩ ∧
        runFields step fs (env ++ [(f.name, v)]) (b.drop m) = .ok (k, env') ∧ n = m + k := by
  simp only [runFields]
  cases hs : step f env b with
  | ok msg =>
    obtain ⟨m, v⟩ := msg
    simp only
    cases hr : runFields step fs (env ++ [(f.name, v)]) (b.drop m) with
    | ok r =>
      obtain ⟨k, e⟩ := r
      simp only [Res.ok.injEq, Prod.mk.injEq, Msg.mk.injEq]
      constructor
      · rintro ⟨rfl, rfl⟩; exact ⟨m, v, k, ⟨rfl, rfl⟩, hr, rfl⟩
      · rintro ⟨m', v', k', ⟨rfl, rfl⟩, hr', rfl⟩
        rw [hr] at hr'; cases hr'; exact ⟨rfl, rfl⟩
    | err e =>
      simp only [reduceCtorEq, false_iff]
      rintro ⟨m', v', k', h, hr', rfl⟩
      cases h; rw [hr] at hr'; cases hr'
    | panic =>
      simp only [reduceCtorEq, false_iff]
      rintro ⟨m', v', k', h, hr', rfl⟩
      cases h; rw [hr] at hr'; cases hr'
  | err e => simp
  | panic => simp

theorem runFields_le {fs : List MField} (hc : ∀ f ∈ fs, ∀ env, (step f env).Cut) {env : Env}
    {b : Bytes} {n : Nat} {env' : Env} (h : runFields step fs env b = .ok (n, env')) :
    n ≤ b.length := by
  induction fs generalizing env b n with
  | nil => cases h; omega
  | cons f fs ih =>
    obtain ⟨m, v, k, h1, h2, rfl⟩ := runFields_cons_ok.mp h
    have := (hc f (by simp) env _ _ _ h1).1
    have := ih (fun g hg => hc g (by simp [hg])) h2
    simp at this; omega

theorem runFields_take {fs : List MField} (hc : ∀ f ∈ fs, ∀ env, (step f env).Cut) {env : Env}
    {b : Bytes} {n : Nat} {env' : Env} (h : runFields step fs env b = .ok (n, env')) {j : Nat}
    (hj : n ≤ j) : runFields step fs env (b.take j) = .ok (n, env') := by
  induction fs generalizing env b n j with
  | nil => exact h
  | cons f fs ih =>
    obtain ⟨m, v, k, h1, h2, rfl⟩ := runFields_cons_ok.mp h
    refine runFields_cons_ok.mpr ⟨m, v, k, (hc f (by simp) env _ _ _ h1).2 j (by omega), ?_, rfl⟩
    rw [List.drop_take]
    exact ih (fun g hg => hc g (by simp [hg])) h2 (by omega)

theorem runFields_append {fs : List MField} (hc : ∀ f ∈ fs, ∀ env, (step f env).Cut)
    (hd : ∀ f ∈ fs, ∀ env, (step f env).Delimits) {env : Env}
    {b : Bytes} {n : Nat} {env' : Env} (h : runFields step fs env b = .ok (n, env')) (t : Bytes) :
    runFields step fs env (b ++ t) = .ok (n, env') := by
  induction fs generalizing env b n with
  | nil => exact h
  | cons f fs ih =>
    obtain ⟨m, v, k, h1, h2, rfl⟩ := runFields_cons_ok.mp h
    refine runFields_cons_ok.mpr ⟨m, v, k, hd f (by simp) env _ _ _ h1 t, ?_, rfl⟩
    rw [List.drop_append_of_le_length (hc f (by simp) env _ _ _ h1).1]
    exact ih (fun g hg => hc g (by simp [hg])) (fun g hg => hd g (by simp [hg])) h2

theorem runFields_insensitive {fs : List MField} (hi : ∀ f ∈ fs, ∀ env, (step f env).Insensitive)
    {env : Env} {b : Bytes} {n : Nat} {env' : Env} (h : runFields step fs env b = .ok (n, env'))
    (hn : n < b.length) (t : Bytes) : runFields step fs env (b.take n ++ t) = .ok (n, env') := by
  induction fs generalizing env b n with
  | nil => exact h
  | cons f fs ih =>
    obtain ⟨m, v, k, h1, h2, rfl⟩ := runFields_cons_ok.mp h
    have e1 : b.take (m + k) ++ t = b.take m ++ ((b.drop m).take k ++ t) := by
      rw [List.take_add, List.append_assoc]
    have hl : (b.take m).length = m := by simp; omega
    refine runFields_cons_ok.mpr ⟨m, v, k, ?_, ?_, rfl⟩
    · rw [e1]; exact hi f (by simp) env _ _ _ h1 (by omega) _
    · rw [e1, List.drop_append_of_le_length (by omega), List.drop_of_length_le (by omega),
        List.nil_append]
      exact ih (fun g hg => hi g (by simp [hg])) h2 (by simp; omega)

theorem runFields_truncates {pan : Prop} {fs : List MField}
    (hc : ∀ f ∈ fs, ∀ env, (step f env).Cut)
    (ht : ∀ f ∈ fs, ∀ env, (step f env).Truncates pan) {env : Env} {b : Bytes} {n : Nat}
    {env' : Env} (h : runFields step fs env b = .ok (n, env')) {k : Nat} (hk : k < n) :
    runFields step fs env (b.take k) = .err .truncated ∨
      (pan ∧ runFields step fs env (b.take k) = .panic) := by
  induction fs generalizing env b n k with
  | nil => cases h; omega
  | cons f fs ih =>
    obtain ⟨m, v, j, h1, h2, rfl⟩ := runFields_cons_ok.mp h
    by_cases hkm : k < m
    · rcases ht f (by simp) env _ _ _ h1 k hkm with h' | ⟨hp, h'⟩
      · left; simp only [runFields, h']
      · right; exact ⟨hp, by simp only [runFields, h']⟩
    · have h1' := (hc f (by simp) env _ _ _ h1).2 k (by omega)
      have := ih (fun g hg => hc g (by simp [hg])) (fun g hg => ht g (by simp [hg])) h2
        (k := k - m) (by omega)
      rw [← List.drop_take] at this
      rcases this with h' | ⟨hp, h'⟩
      · left; simp only [runFields, h1', h']
      · right; exact ⟨hp, by simp only [runFields, h1', h']⟩

/-- The statement-by-statement decoder is `runFields`. -/
theorem MField.parseList_eq {c : Ctx} {emb : Bool} {fs : List MField}
    (hc : ∀ f ∈ fs, ∀ env, (MField.parse c emb f env).Cut) {env : Env} {off : Nat} {b : Bytes}
    (h : off ≤ b.length) :
    MField.parseList c emb fs env off b =
      (runFields (MField.parse c emb) fs env (b.drop off)).bind fun r => .ok (off + r.1, r.2) := by
  induction fs generalizing env off with
  | nil => simp [MField.parseList, runFields, Res.bind]
  | cons f fs ih =>
    simp only [MField.parseList, dropFrom_ok h, Res.bind_ok, runFields]
    cases hs : MField.parse c emb f env (b.drop off) with
    | ok msg =>
      obtain ⟨m, v⟩ := msg
      have hm := (hc f (by simp) env _ _ _ hs).1
      simp at hm
      simp only [Res.bind_ok]
      rw [ih (fun g hg => hc g (by simp [hg])) (by omega), List.drop_drop]
      cases runFields (MField.parse c emb) fs (env ++ [(f.name, v)]) (b.drop (off + m)) with
      | ok r => simp [Res.bind]; omega
      | err e => rfl
      | panic => rfl
    | err e => rfl
    | panic => rfl

end Fields

/-! ## Unions -/

/-- A law that constants satisfy and constructors preserve holds of a union decoder when it holds of
its contents. -/
theorem Union.parseCases_law {L : Parser Value → Prop} {c : Ctx} {cs : List UCase}
    (h0 : ∀ v, L (fun _ => .ok ⟨0, v⟩)) (he : ∀ e, L (fun _ => .err e))
    (hm : ∀ f i, L f → L (f.map (.union i)))
    (hcs : ∀ k ∈ cs, ∀ r, k.itemType = some r → L (r.parse c)) (i d : Nat) :
    L (Union.parseCases c cs i d) := by
  induction cs generalizing i with
  | nil => simp only [Union.parseCases]; exact he _
  | cons k cs ih =>
    have ih' := fun i => ih (fun k hk => hcs k (by simp [hk])) i
    obtain ⟨n, v, t⟩ := k
    cases t with
    | none =>
      simp only [Union.parseCases]
      split
      · exact h0 _
      · exact ih' _
    | some r =>
      simp only [Union.parseCases]
      split
      · exact hm _ _ (hcs (.mk n v (some r)) (by simp) r rfl)
      · exact ih' _

theorem Union.parse_law {L : Parser Value → Prop} {c : Ctx} {n : Name} {disc : Discriminant}
    {cs : List UCase} {sz : SizeInfo} (h0 : ∀ v, L (fun _ => .ok ⟨0, v⟩))
    (he : ∀ e, L (fun _ => .err e)) (hm : ∀ f i, L f → L (f.map (.union i)))
    (hcs : ∀ k ∈ cs, ∀ r, k.itemType = some r → L (r.parse c)) (env : Env) (on : Name)
    (hp : disc.read c.p env on = .panic → L (fun _ => .panic)) :
    L (Union.parse c (.mk n disc cs sz) env on) := by
  simp only [Union.parse]
  cases hr : disc.read c.p env on with
  | ok d => exact Union.parseCases_law h0 he hm hcs 0 d
  | err e => exact he e
  | panic => exact hp hr

/-! ## Messages -/

theorem MField.optional_law {L : Parser Value → Prop} {c : Ctx} {emb : Bool} {f : MField} {env : Env}
    (hty : L (f.ty.parse c emb f.endian env))
    (ho : f.optional = true →
      L ((Optional.fromSlice (f.ty.parse c emb f.endian env)).map Value.ofOption)) :
    L (f.parse c emb env) := by
  obtain ⟨n, ty, o, sz, e⟩ := f
  simp only [MField.parse]
  cases o with
  | true => exact ho rfl
  | false => exact hty

/-- Every decoder is local: it never reports more than it was given, and needs no more than it
reports. -/
theorem cutInd (c : Ctx) : SchemaInd (fun m => (m.parse c).Cut)
    (fun t => ∀ emb e env, (t.parse c emb e env).Cut) where
  fixed ty emb e env := by simp only [MFieldTy.parse]; exact (Scalar.cut e _).map
  struct s emb e env := by simp only [MFieldTy.parse, Referenced.parse]; exact s.cut
  message m h emb e env := by simp only [MFieldTy.parse, Referenced.parse]; exact h
  nul emb e env := by simp only [MFieldTy.parse]; exact NullTerminated.cut.map
  varchar ty emb e env := by
    simp only [MFieldTy.parse]; exact (Varchar.cut c.p e (by cases ty <;> decide)).map
  array ty s emb e env := by simp only [MFieldTy.parse]; exact (Arr.cut _ _ _ _).map
  union n d cs sz on i h emb e env := by
    simp only [MFieldTy.parse]
    refine Union.parse_law (L := Parser.Cut) (fun v b n w h => ?_) (fun e b n w h => ?_)
      (fun f i hf => hf.map) (fun k hk r hr => ?_) env on (fun _ b n w h => ?_)
    · cases h; exact ⟨by omega, fun _ _ => rfl⟩
    · cases h
    · have := h k hk r hr emb e env; simpa only [MFieldTy.parse] using this
    · cases h
  list ty m h emb e env := by
    simp only [MFieldTy.parse]
    split
    · exact (Lst.cut h e _).map
    · exact (Lst.unsized_cut e _).map
  payload emb e env := by simp only [MFieldTy.parse]; exact Buffer.cut.map
  msg id n fs sz h := by
    have hc : ∀ f ∈ fs, ∀ env, (MField.parse c (c.emb id) f env).Cut := fun f hf env =>
      MField.optional_law (h f hf _ _ _) (fun _ => (Optional.cut (h f hf _ _ _)).map)
    have heq : ∀ b, Message.parse c (.mk id n fs sz) b =
        (runFields (MField.parse c (c.emb id)) fs [] b).bind fun r => .ok ⟨r.1, .msg r.2⟩ := by
      intro b
      simp only [Message.parse]
      rw [MField.parseList_eq hc (by omega)]
      simp only [List.drop_zero]
      cases runFields (MField.parse c (c.emb id)) fs [] b with
      | ok r => simp [Res.bind]
      | err e => rfl
      | panic => rfl
    intro b n v hv
    rw [heq] at hv
    obtain ⟨r, hr, hv⟩ := Res.bind_eq_ok.mp hv
    cases hv
    refine ⟨runFields_le hc hr, fun k hk => ?_⟩
    rw [heq, runFields_take hc hr hk]; rfl

theorem Message.cut (c : Ctx) (m : Message) : (m.parse c).Cut := (cutInd c).all m

theorem MFieldTy.cut (c : Ctx) (emb : Bool) (e : Endian) (t : MFieldTy) (env : Env) :
    (t.parse c emb e env).Cut := (cutInd c).ty t emb e env

theorem MField.cut (c : Ctx) (emb : Bool) (f : MField) (env : Env) : (f.parse c emb env).Cut :=
  MField.optional_law (MFieldTy.cut _ _ _ _ _) (fun _ => (Optional.cut (MFieldTy.cut _ _ _ _ _)).map)

/-- A message decoder runs its fields in sequence. -/
theorem Message.parse_eq (c : Ctx) (m : Message) (b : Bytes) :
    m.parse c b = (runFields (MField.parse c (c.emb m.id)) m.fields [] b).bind
      fun r => .ok ⟨r.1, .msg r.2⟩ := by
  obtain ⟨id, n, fs, sz⟩ := m
  simp only [Message.parse, Message.id, Message.fields]
  rw [MField.parseList_eq (fun f _ env => MField.cut c _ f env) (by omega)]
  simp only [List.drop_zero]
  cases runFields (MField.parse c (c.emb id)) fs [] b with
  | ok r => simp [Res.bind]
  | err e => rfl
  | panic => rfl

theorem Message.parse_eq_ok {c : Ctx} {m : Message} {b : Bytes} {n : Nat} {v : Value} :
    m.parse c b = .ok ⟨n, v⟩ ↔
      ∃ vs, v = .msg vs ∧ runFields (MField.parse c (c.emb m.id)) m.fields [] b = .ok (n, vs) := by
  rw [Message.parse_eq]
  cases h : runFields (MField.parse c (c.emb m.id)) m.fields [] b with
  | ok r =>
    obtain ⟨k, e⟩ := r
    simp only [Res.bind, Res.ok.injEq, Msg.mk.injEq, Prod.mk.injEq]
    constructor
    · rintro ⟨rfl, rfl⟩; exact ⟨e, rfl, rfl, rfl⟩
    · rintro ⟨vs, rfl, rfl, rfl⟩; exact ⟨rfl, rfl⟩
  | err e => simp [Res.bind]
  | panic => simp [Res.bind]

/-- A decoder that stopped before the end of its input does not depend on what follows. -/
theorem insensitiveInd (c : Ctx) : SchemaInd (fun m => (m.parse c).Insensitive)
    (fun t => ∀ emb e env, (t.parse c emb e env).Insensitive) where
  fixed ty emb e env := by
    simp only [MFieldTy.parse]
    exact (Parser.insensitive_of_delimits (Scalar.cut e _) (Scalar.delimits e _)).map
  struct s emb e env := by
    simp only [MFieldTy.parse, Referenced.parse]
    exact Parser.insensitive_of_delimits s.cut s.delimits
  message m h emb e env := by simp only [MFieldTy.parse, Referenced.parse]; exact h
  nul emb e env := by
    simp only [MFieldTy.parse]
    exact (Parser.insensitive_of_delimits NullTerminated.cut NullTerminated.delimits).map
  varchar ty emb e env := by
    simp only [MFieldTy.parse]
    have h8 : ty.byteSize ≤ 8 := by cases ty <;> decide
    exact (Parser.insensitive_of_delimits (Varchar.cut c.p e h8) (Varchar.delimits c.p e h8)).map
  array ty s emb e env := by
    simp only [MFieldTy.parse]
    exact (Parser.insensitive_of_delimits (Arr.cut _ _ _ _) (Arr.delimits _ _ _ _)).map
  union n d cs sz on i h emb e env := by
    simp only [MFieldTy.parse]
    refine Union.parse_law (L := Parser.Insensitive) (fun v b n w h _ t => ?_) (fun e b n w h => ?_)
      (fun f i hf => hf.map) (fun k hk r hr => ?_) env on (fun _ b n w h => ?_)
    · cases h; rfl
    · cases h
    · have := h k hk r hr emb e env; simpa only [MFieldTy.parse] using this
    · cases h
  list ty m h emb e env := by
    simp only [MFieldTy.parse]
    split
    · exact (Lst.insensitive (Message.cut c m) h e _).map
    · exact (Lst.unsized_insensitive e _).map
  payload emb e env := by
    simp only [MFieldTy.parse]
    refine Parser.Insensitive.map (fun b n v h hn => ?_)
    cases h; exact absurd hn (Nat.lt_irrefl _)
  msg id n fs sz h := by
    intro b k v hv hk t
    obtain ⟨vs, rfl, hr⟩ := Message.parse_eq_ok.mp hv
    exact Message.parse_eq_ok.mpr ⟨vs, rfl, runFields_insensitive
      (fun f hf env => MField.optional_law (h f hf _ _ _) (fun _ => (Optional.insensitive (h f hf _ _ _)).map))
      hr hk t⟩

theorem Message.insensitive (c : Ctx) (m : Message) : (m.parse c).Insensitive := (insensitiveInd c).all m

/-! ## Self-delimiting messages -/

theorem UCase.listDelimited_mem {emb : Nat → Bool} {cs : List UCase}
    (h : UCase.listDelimited emb cs = true) :
    ∀ k ∈ cs, ∀ r, k.itemType = some r → r.delimited emb = true := by
  induction cs with
  | nil => simp
  | cons k cs ih =>
    obtain ⟨n, v, t⟩ := k
    cases t with
    | none =>
      simp only [UCase.listDelimited] at h
      intro k hk r hr
      rcases List.mem_cons.mp hk with rfl | hk
      · simp [UCase.itemType] at hr
      · exact ih h k hk r hr
    | some r0 =>
      simp only [UCase.listDelimited, Bool.and_eq_true] at h
      intro k hk r hr
      rcases List.mem_cons.mp hk with rfl | hk
      · simp only [UCase.itemType, Option.some.injEq] at hr
        exact hr ▸ h.1
      · exact ih h.2 k hk r hr

theorem MField.listDelimited_mem {emb : Nat → Bool} {here : Bool} {fs : List MField}
    (h : MField.listDelimited emb here fs = true) : ∀ f ∈ fs, f.ty.delimited emb here = true := by
  induction fs with
  | nil => simp
  | cons f fs ih =>
    obtain ⟨n, ty, o, sz, e⟩ := f
    simp only [MField.listDelimited, Bool.and_eq_true] at h
    intro f hf
    rcases List.mem_cons.mp hf with rfl | hf
    · exact h.1
    · exact ih h.2 f hf

theorem delimitsInd (c : Ctx) : SchemaInd (fun m => m.delimited c.emb = true → (m.parse c).Delimits)
    (fun t => ∀ emb e env, t.delimited c.emb emb = true → (t.parse c emb e env).Delimits) where
  fixed ty emb e env _ := by simp only [MFieldTy.parse]; exact (Scalar.delimits e _).map
  struct s emb e env _ := by simp only [MFieldTy.parse, Referenced.parse]; exact s.delimits
  message m h emb e env hd := by
    simp only [MFieldTy.parse, Referenced.parse]
    simp only [MFieldTy.delimited, Referenced.delimited] at hd
    exact h hd
  nul emb e env _ := by simp only [MFieldTy.parse]; exact NullTerminated.delimits.map
  varchar ty emb e env _ := by
    simp only [MFieldTy.parse]; exact (Varchar.delimits c.p e (by cases ty <;> decide)).map
  array ty s emb e env _ := by simp only [MFieldTy.parse]; exact (Arr.delimits _ _ _ _).map
  union n d cs sz on i h emb e env hd := by
    simp only [MFieldTy.delimited, Union.delimited] at hd
    simp only [MFieldTy.parse]
    refine Union.parse_law (L := Parser.Delimits) (fun v b n w h t => ?_) (fun e b n w h => ?_)
      (fun f i hf => hf.map) (fun k hk r hr => ?_) env on (fun _ b n w h => ?_)
    · cases h; rfl
    · cases h
    · have := h k hk r hr emb e env (by
        simp only [MFieldTy.delimited]; exact UCase.listDelimited_mem hd k hk r hr)
      simpa only [MFieldTy.parse] using this
    · cases h
  list ty m h emb e env hd := by
    simp only [MFieldTy.delimited, Bool.and_eq_true] at hd
    simp only [MFieldTy.parse, hd.1, if_true]
    exact (Lst.delimits (Message.cut c m) (h hd.2) e _).map
  payload emb e env hd := by simp [MFieldTy.delimited] at hd
  msg id n fs sz h hd := by
    simp only [Message.delimited] at hd
    have hm := MField.listDelimited_mem hd
    intro b k v hv t
    obtain ⟨vs, rfl, hr⟩ := Message.parse_eq_ok.mp hv
    exact Message.parse_eq_ok.mpr ⟨vs, rfl, runFields_append (fun f _ env => MField.cut c _ f env)
      (fun f hf env => MField.optional_law (h f hf _ _ _ (hm f hf))
        (fun _ => (Optional.delimits (h f hf _ _ _ (hm f hf))).map)) hr t⟩

theorem Message.delimits {c : Ctx} {m : Message} (h : m.delimited c.emb = true) :
    (m.parse c).Delimits := (delimitsInd c).all m h

/-! ## Truncation -/

theorem UCase.listAllFields_mem {q : MField → Bool} {cs : List UCase}
    (h : UCase.listAllFields q cs = true) :
    ∀ k ∈ cs, ∀ r, k.itemType = some r → r.allFields q = true := by
  induction cs with
  | nil => simp
  | cons k cs ih =>
    obtain ⟨n, v, t⟩ := k
    cases t with
    | none =>
      simp only [UCase.listAllFields] at h
      intro k hk r hr
      rcases List.mem_cons.mp hk with rfl | hk
      · simp [UCase.itemType] at hr
      · exact ih h k hk r hr
    | some r0 =>
      simp only [UCase.listAllFields, Bool.and_eq_true] at h
      intro k hk r hr
      rcases List.mem_cons.mp hk with rfl | hk
      · simp only [UCase.itemType, Option.some.injEq] at hr
        exact hr ▸ h.1
      · exact ih h.2 k hk r hr

theorem MField.listAllFields_mem {q : MField → Bool} {fs : List MField}
    (h : MField.listAllFields q fs = true) : ∀ f ∈ fs, q f = true ∧ f.ty.allFields q = true := by
  induction fs with
  | nil => simp
  | cons f fs ih =>
    obtain ⟨n, ty, o, sz, e⟩ := f
    simp only [MField.listAllFields, Bool.and_eq_true] at h
    intro f hf
    rcases List.mem_cons.mp hf with rfl | hf
    · exact h.1
    · exact ih h.2 f hf

/-- The field type itself is not a length-prefixed string. -/
def MFieldTy.notVarchar : MFieldTy → Bool
  | .varcharString _ => false
  | _ => true

theorem truncatesInd (c : Ctx) (pan : Prop) : SchemaInd
    (fun m => m.delimited c.emb = true → (pan ∨ m.allFields MField.notVarchar = true) →
      (m.parse c).Truncates pan)
    (fun t => ∀ emb e env, t.delimited c.emb emb = true →
      (pan ∨ (t.notVarchar = true ∧ t.allFields MField.notVarchar = true)) →
      (t.parse c emb e env).Truncates pan) where
  fixed ty emb e env _ _ := by simp only [MFieldTy.parse]; exact (Scalar.truncates e _ _).map
  struct s emb e env _ _ := by simp only [MFieldTy.parse, Referenced.parse]; exact s.truncates pan
  message m h emb e env hd hp := by
    simp only [MFieldTy.parse, Referenced.parse]
    simp only [MFieldTy.delimited, Referenced.delimited] at hd
    simp only [MFieldTy.allFields, Referenced.allFields] at hp
    exact h hd (hp.imp_right And.right)
  nul emb e env _ _ := by simp only [MFieldTy.parse]; exact (NullTerminated.truncates _).map
  varchar ty emb e env _ hp := by
    have hp : pan := by simpa [MFieldTy.notVarchar] using hp
    simp only [MFieldTy.parse]
    exact (Varchar.truncates c.p e (by cases ty <;> decide) hp).map
  array ty s emb e env _ _ := by simp only [MFieldTy.parse]; exact (Arr.truncates _ _ _ _ _).map
  union n d cs sz on i h emb e env hd hp := by
    simp only [MFieldTy.delimited, Union.delimited] at hd
    simp only [MFieldTy.parse]
    refine Union.parse_law (L := Parser.Truncates pan) (fun v b n w h k hk => ?_) (fun e b n w h => ?_)
      (fun f i hf => hf.map) (fun k hk r hr => ?_) env on (fun _ b n w h => ?_)
    · cases h; omega
    · cases h
    · have := h k hk r hr emb e env (by
        simp only [MFieldTy.delimited]; exact UCase.listDelimited_mem hd k hk r hr)
        (hp.imp_right fun hp => ⟨rfl, by
          simp only [MFieldTy.allFields, Union.allFields] at hp ⊢
          exact UCase.listAllFields_mem hp.2 k hk r hr⟩)
      simpa only [MFieldTy.parse] using this
    · cases h
  list ty m h emb e env hd hp := by
    simp only [MFieldTy.delimited, Bool.and_eq_true] at hd
    simp only [MFieldTy.parse, hd.1, if_true]
    exact (Lst.truncates (Message.cut c m) (h hd.2 (hp.imp_right fun hp => by
      simpa only [MFieldTy.allFields] using hp.2)) e _).map
  payload emb e env hd := by simp [MFieldTy.delimited] at hd
  msg id n fs sz h hd hp := by
    simp only [Message.delimited] at hd
    have hm := MField.listDelimited_mem hd
    have hf : ∀ f ∈ fs, ∀ env, (MField.parse c (c.emb id) f env).Truncates pan := by
      intro f hf env
      have hq : pan ∨ (f.ty.notVarchar = true ∧ f.ty.allFields MField.notVarchar = true) :=
        hp.imp_right fun hp => by
          simp only [Message.allFields] at hp
          obtain ⟨h1, h2⟩ := MField.listAllFields_mem hp f hf
          refine ⟨?_, h2⟩
          unfold MField.notVarchar at h1
          unfold MFieldTy.notVarchar
          exact h1
      exact MField.optional_law (h f hf _ _ _ (hm f hf) hq)
        (fun _ => (Optional.truncates (h f hf _ _ _ (hm f hf) hq)).map)
    intro b k v hv j hj
    obtain ⟨vs, rfl, hr⟩ := Message.parse_eq_ok.mp hv
    rw [Message.parse_eq]
    rcases runFields_truncates (fun f _ env => MField.cut c _ f env) hf hr hj with h | ⟨hpan, h⟩
    · left; simp only [Message.id, Message.fields] at h ⊢; rw [h]; rfl
    · right; simp only [Message.id, Message.fields] at h ⊢; rw [h]; exact ⟨hpan, rfl⟩

theorem Message.truncates {c : Ctx} {m : Message} (pan : Prop) (h : m.delimited c.emb = true)
    (hp : pan ∨ m.allFields MField.notVarchar = true) : (m.parse c).Truncates pan :=
  (truncatesInd c pan).all m h hp

end Proto
