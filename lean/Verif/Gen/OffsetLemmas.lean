import Verif.Gen.MessageLemmas

/-!
# Decoding with offsets
-/

namespace Proto

namespace Parser

theorem map_map {f : Parser α} {g : α → β} {h : β → γ} : (f.map g).map h = f.map (h ∘ g) := by
  funext b
  unfold map
  cases f b <;> rfl

theorem map_id' {f : Parser α} {g : α → α} (hg : ∀ x, g x = x) : f.map g = f := by
  funext b
  unfold map
  cases f b with
  | ok m => simp [Res.bind, Msg.map, hg]
  | err e => rfl
  | panic => rfl

end Parser

namespace Optional

variable {f : Parser (α × ω)}

theorem offsets_fst : (fromSliceWithOffsets f).map Prod.fst = fromSlice (f.map Prod.fst) := by
  funext b
  unfold Parser.map fromSliceWithOffsets fromSlice
  cases b with
  | nil => rfl
  | cons x t =>
    simp only
    split
    · cases f t <;> rfl
    · rfl

theorem offsets_eq_ok {b : Bytes} {n : Nat} {v : Option α × Option ω} :
    fromSliceWithOffsets f b = .ok ⟨n, v⟩ ↔
      (∃ t, b = 0 :: t ∧ n = 1 ∧ v = (none, none)) ∨
      (∃ x t m w o, b = x :: t ∧ x ≠ 0 ∧ f t = .ok ⟨m, (w, o)⟩ ∧ n = m + 1 ∧ v = (some w, some o)) := by
  unfold fromSliceWithOffsets
  cases b with
  | nil => simp
  | cons x t =>
    simp only
    by_cases hx : x = 0
    · subst hx
      simp only [show ¬ ((0 : UInt8).toNat > 0) by decide, if_false]
      constructor
      · intro h; cases h; exact .inl ⟨t, rfl, rfl, rfl⟩
      · rintro (⟨t', _, rfl, rfl⟩ | ⟨x', _, _, _, _, h, hx, _⟩)
        · rfl
        · exact absurd (List.cons.inj h).1.symm hx
    · have hpos : x.toNat > 0 := by
        rcases Nat.eq_zero_or_pos x.toNat with h | h
        · exact absurd (UInt8.toNat_inj.mp (by simpa using h)) hx
        · exact h
      simp only [hpos, if_true]
      constructor
      · intro h
        obtain ⟨⟨m, w, o⟩, hm, h⟩ := Res.bind_eq_ok.mp h
        cases h
        exact .inr ⟨x, t, m, w, o, rfl, hx, hm, rfl, rfl⟩
      · rintro (⟨t', h, _, _⟩ | ⟨x', t', m, w, o, h, _, hm, rfl, rfl⟩)
        · exact absurd (List.cons.inj h).1 hx
        · obtain ⟨rfl, rfl⟩ := List.cons.inj h
          rw [hm]; rfl

theorem offsets_cut (hf : f.Cut) : (fromSliceWithOffsets f).Cut := by
  intro b n v h
  rcases offsets_eq_ok.mp h with ⟨t, rfl, rfl, rfl⟩ | ⟨x, t, m, w, o, rfl, hx, hm, rfl, rfl⟩
  · refine ⟨by simp, fun k hk => offsets_eq_ok.mpr (.inl ?_)⟩
    obtain ⟨k, rfl⟩ : ∃ j, k = j + 1 := ⟨k - 1, by omega⟩
    exact ⟨t.take k, rfl, rfl, rfl⟩
  · obtain ⟨h1, h2⟩ := hf t m (w, o) hm
    refine ⟨by simp; omega, fun k hk => offsets_eq_ok.mpr (.inr ?_)⟩
    obtain ⟨k, rfl⟩ : ∃ j, k = j + 1 := ⟨k - 1, by omega⟩
    exact ⟨x, t.take k, m, w, o, rfl, hx, h2 k (by omega), rfl, rfl⟩

end Optional

/-- The fields in sequence, each with its range. -/
def runOff (step : MField → Env → Parser (Value × Offsets)) :
    List MField → Env → Nat → Bytes → R (Nat × Env × OffEnv)
  | [], env, _, _ => .ok (0, env, [])
  | f :: fs, env, off, b =>
    match step f env b with
    | .ok msg =>
      match runOff step fs (env ++ [(f.name, msg.data.1)]) (off + msg.size) (b.drop msg.size) with
      | .ok r => .ok (msg.size + r.1, r.2.1, (f.name, ⟨off, off + msg.size⟩, msg.data.2) :: r.2.2)
      | .err e => .err e
      | .panic => .panic
    | .err e => .err e
    | .panic => .panic

section

variable {step : MField → Env → Parser (Value × Offsets)}

theorem runOff_cons_ok {f : MField} {fs : List MField} {env : Env} {off : Nat} {b : Bytes} {n : Nat}
    {env' : Env} {offs : OffEnv} :
    runOff step (f :: fs) env off b = .ok (n, env', offs) ↔
      ∃ m v o k rest, step f env b = .ok ⟨m, (v, o)⟩ ∧
        runOff step fs (env ++ [(f.name, v)]) (off + m) (b.drop m) = .ok (k, env', rest) ∧
        n = m + k ∧ offs = (f.name, ⟨off, off + m⟩, o) :: rest := by
  simp only [runOff]
  cases hs : step f env b with
  | ok msg =>
    obtain ⟨m, v, o⟩ := msg
    simp only
    cases hr : runOff step fs (env ++ [(f.name, v)]) (off + m) (b.drop m) with
    | ok r =>
      obtain ⟨k, e, rest⟩ := r
      simp only [Res.ok.injEq, Prod.mk.injEq, Msg.mk.injEq]
      constructor
      · rintro ⟨rfl, rfl, rfl⟩
        exact ⟨m, v, o, k, rest, ⟨rfl, rfl, rfl⟩, hr, rfl, rfl⟩
      · rintro ⟨m', v', o', k', rest', ⟨rfl, rfl, rfl⟩, h2, rfl, rfl⟩
        rw [hr] at h2
        cases h2
        exact ⟨rfl, rfl, rfl⟩
    | err e =>
      simp only [Res.ok.injEq, Msg.mk.injEq, Prod.mk.injEq, reduceCtorEq, false_iff]
      rintro ⟨m', v', o', k', rest', ⟨rfl, rfl, rfl⟩, h2, _⟩
      rw [hr] at h2; cases h2
    | panic =>
      simp only [Res.ok.injEq, Msg.mk.injEq, Prod.mk.injEq, reduceCtorEq, false_iff]
      rintro ⟨m', v', o', k', rest', ⟨rfl, rfl, rfl⟩, h2, _⟩
      rw [hr] at h2; cases h2
  | err e => simp
  | panic => simp

theorem runOff_le {fs : List MField} (hc : ∀ f ∈ fs, ∀ env, (step f env).Cut) {env : Env}
    {off : Nat} {b : Bytes} {n : Nat} {r : Env × OffEnv} (h : runOff step fs env off b = .ok (n, r)) :
    n ≤ b.length := by
  induction fs generalizing env b n off r with
  | nil => cases h; omega
  | cons f fs ih =>
    obtain ⟨m, v, o, k, rest, h1, h2, rfl, _⟩ := runOff_cons_ok.mp h
    have := (hc f (by simp) env _ _ _ h1).1
    have := ih (fun g hg => hc g (by simp [hg])) h2
    simp at this; omega

theorem runOff_take {fs : List MField} (hc : ∀ f ∈ fs, ∀ env, (step f env).Cut) {env : Env}
    {off : Nat} {b : Bytes} {n : Nat} {env' : Env} {offs : OffEnv}
    (h : runOff step fs env off b = .ok (n, env', offs)) {j : Nat} (hj : n ≤ j) :
    runOff step fs env off (b.take j) = .ok (n, env', offs) := by
  induction fs generalizing env b n off j offs with
  | nil => exact h
  | cons f fs ih =>
    obtain ⟨m, v, o, k, rest, h1, h2, rfl, rfl⟩ := runOff_cons_ok.mp h
    refine runOff_cons_ok.mpr ⟨m, v, o, k, rest, (hc f (by simp) env _ _ _ h1).2 j (by omega), ?_,
      rfl, rfl⟩
    rw [List.drop_take]
    exact ih (fun g hg => hc g (by simp [hg])) h2 (by omega)

/-- Forgetting the offsets. -/
theorem runOff_fst {pstep : MField → Env → Parser Value} {fs : List MField}
    (h : ∀ f ∈ fs, ∀ env, (step f env).map Prod.fst = pstep f env) (env : Env) (off : Nat) (b : Bytes) :
    (runOff step fs env off b).bind (fun r => .ok (r.1, r.2.1)) = runFields pstep fs env b := by
  induction fs generalizing env b off with
  | nil => rfl
  | cons f fs ih =>
    simp only [runOff, runFields]
    rw [← h f (by simp) env]
    unfold Parser.map
    cases hs : step f env b with
    | ok msg =>
      obtain ⟨m, v, o⟩ := msg
      simp only [Res.bind, Msg.map]
      rw [← ih (fun g hg => h g (by simp [hg])) _ (off + m)]
      cases runOff step fs (env ++ [(f.name, v)]) (off + m) (b.drop m) <;> rfl
    | err e => rfl
    | panic => rfl

end

theorem MField.parseOffList_eq {c : Ctx} {emb : Bool} {fs : List MField}
    (hc : ∀ f ∈ fs, ∀ env, (MField.parseOff c emb f env).Cut) {env : Env} {offs : OffEnv} {off : Nat}
    {b : Bytes} (h : off ≤ b.length) :
    MField.parseOffList c emb fs env offs off b =
      (runOff (MField.parseOff c emb) fs env off (b.drop off)).bind
        fun r => .ok (off + r.1, r.2.1, offs ++ r.2.2) := by
  induction fs generalizing env off offs with
  | nil => simp [MField.parseOffList, runOff, Res.bind]
  | cons f fs ih =>
    simp only [MField.parseOffList, dropFrom_ok h, Res.bind_ok, runOff]
    cases hs : f.parseOff c emb env (b.drop off) with
    | err e => rfl
    | panic => rfl
    | ok msg =>
      obtain ⟨m, v, o⟩ := msg
      have hle := (hc f (by simp) env _ _ _ hs).1
      rw [List.length_drop] at hle
      simp only [Res.bind_ok]
      rw [ih (fun g hg => hc g (by simp [hg])) (by omega), List.drop_drop]
      cases hr : runOff (MField.parseOff c emb) fs (env ++ [(f.name, v)]) (off + m)
        (b.drop (off + m)) with
      | ok r => simp [Res.bind, Nat.add_assoc]
      | err e => rfl
      | panic => rfl

/-- Decoding with offsets agrees with plain decoding. -/
def Message.OffOk (c : Ctx) (m : Message) : Prop :=
  (m.parseOff c).Cut ∧ (m.parseOff c).map Prod.fst = m.parse c

theorem MField.off_ok {c : Ctx} {emb : Bool} {f : MField}
    (h : ∀ m, f.ty = .ref (.message m) → m.OffOk c) (env : Env) :
    (f.parseOff c emb env).Cut ∧ (f.parseOff c emb env).map Prod.fst = f.parse c emb env := by
  obtain ⟨n, ty, o, sz, e⟩ := f
  have other : ((MField.parse c emb (.mk n ty o sz e) env).map fun v => (v, Offsets.unit)).Cut ∧
      (((MField.parse c emb (.mk n ty o sz e) env).map fun v => (v, Offsets.unit)).map Prod.fst =
        MField.parse c emb (.mk n ty o sz e) env) := by
    refine ⟨(MField.cut c emb _ env).map, ?_⟩
    rw [Parser.map_map]; exact Parser.map_id' (fun x => rfl)
  cases ty with
  | ref r =>
    cases r with
    | struct s => simp only [MField.parseOff]; exact other
    | message m =>
      obtain ⟨h1, h2⟩ := h m rfl
      cases o with
      | false =>
        simp only [MField.parseOff, MField.parse, MFieldTy.parse, Referenced.parse,
          Bool.false_eq_true, if_false]
        exact ⟨h1, h2⟩
      | true =>
        simp only [MField.parseOff, MField.parse, MFieldTy.parse, Referenced.parse, if_true]
        refine ⟨(Optional.offsets_cut h1).map, ?_⟩
        rw [← h2, ← Optional.offsets_fst, Parser.map_map, Parser.map_map]
        rfl
  | fixed _ => simp only [MField.parseOff]; exact other
  | nullTerminatedString => simp only [MField.parseOff]; exact other
  | varcharString _ => simp only [MField.parseOff]; exact other
  | array _ _ => simp only [MField.parseOff]; exact other
  | union _ _ _ => simp only [MField.parseOff]; exact other
  | list _ _ => simp only [MField.parseOff]; exact other
  | payload => simp only [MField.parseOff]; exact other

theorem Message.parseOff_eq_of {c : Ctx} {m : Message}
    (hc : ∀ f ∈ m.fields, ∀ env, (MField.parseOff c (c.emb m.id) f env).Cut) (b : Bytes) :
    m.parseOff c b = (runOff (MField.parseOff c (c.emb m.id)) m.fields [] 0 b).bind
      fun r => .ok ⟨r.1, (.msg r.2.1, .msg r.2.2)⟩ := by
  obtain ⟨id, n, fs, sz⟩ := m
  simp only [Message.id, Message.fields] at hc ⊢
  simp only [Message.parseOff]
  rw [MField.parseOffList_eq hc (by omega)]
  simp only [List.drop_zero]
  cases runOff (MField.parseOff c (c.emb id)) fs [] 0 b with
  | ok r => simp [Res.bind]
  | err e => rfl
  | panic => rfl

theorem offInd (c : Ctx) : SchemaInd (Message.OffOk c)
    (fun t => ∀ m, t = .ref (.message m) → m.OffOk c) where
  fixed _ _ h := by cases h
  struct _ _ h := by cases h
  message m hm m' h := by cases h; exact hm
  nul _ h := by cases h
  varchar _ _ h := by cases h
  array _ _ _ h := by cases h
  union _ _ _ _ _ _ _ _ h := by cases h
  list _ _ _ _ h := by cases h
  payload _ h := by cases h
  msg id n fs sz h := by
    have hf : ∀ f ∈ fs, ∀ env, (f.parseOff c (c.emb id) env).Cut ∧
        (f.parseOff c (c.emb id) env).map Prod.fst = f.parse c (c.emb id) env :=
      fun f hf env => MField.off_ok (h f hf) env
    have heq := Message.parseOff_eq_of (c := c) (m := .mk id n fs sz) (fun f hf' env => (hf f hf' env).1)
    simp only [Message.id, Message.fields] at heq
    constructor
    · intro b n v hv
      rw [heq] at hv
      obtain ⟨⟨k, env, offs⟩, hr, hv⟩ := Res.bind_eq_ok.mp hv
      cases hv
      refine ⟨runOff_le (fun f hf' env => (hf f hf' env).1) hr, fun k hk => ?_⟩
      rw [heq, runOff_take (fun f hf' env => (hf f hf' env).1) hr hk]; rfl
    · funext b
      rw [Message.parse_eq]
      simp only [Message.id, Message.fields]
      rw [← runOff_fst (fun f hf' env => (hf f hf' env).2) [] 0 b]
      unfold Parser.map
      rw [heq]
      cases runOff (MField.parseOff c (c.emb id)) fs [] 0 b <;> rfl

theorem Message.offOk (c : Ctx) (m : Message) : m.OffOk c := (offInd c).all m

theorem MField.parseOff_cut (c : Ctx) (emb : Bool) (f : MField) (env : Env) :
    (f.parseOff c emb env).Cut := (MField.off_ok (fun m _ => Message.offOk c m) env).1

theorem MField.parseOff_fst (c : Ctx) (emb : Bool) (f : MField) (env : Env) :
    (f.parseOff c emb env).map Prod.fst = f.parse c emb env :=
  (MField.off_ok (fun m _ => Message.offOk c m) env).2

theorem Message.parseOff_eq_ok {c : Ctx} {m : Message} {b : Bytes} {n : Nat} {v : Value}
    {o : Offsets} :
    m.parseOff c b = .ok ⟨n, (v, o)⟩ ↔ ∃ vs offs, v = .msg vs ∧ o = .msg offs ∧
      runOff (MField.parseOff c (c.emb m.id)) m.fields [] 0 b = .ok (n, vs, offs) := by
  rw [Message.parseOff_eq_of (fun f _ env => MField.parseOff_cut c _ f env)]
  cases h : runOff (MField.parseOff c (c.emb m.id)) m.fields [] 0 b with
  | ok r =>
    obtain ⟨k, e, os⟩ := r
    simp only [Res.bind, Res.ok.injEq, Msg.mk.injEq, Prod.mk.injEq]
    constructor
    · rintro ⟨rfl, rfl, rfl⟩; exact ⟨e, os, rfl, rfl, rfl, rfl, rfl⟩
    · rintro ⟨vs, offs, rfl, rfl, rfl, rfl, rfl⟩; exact ⟨rfl, rfl, rfl⟩
  | err e => simp [Res.bind]
  | panic => simp [Res.bind]

end Proto
