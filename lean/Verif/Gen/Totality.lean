import Verif.Gen.Reencode
import Verif.Gen.EffLemmas

/-!
# Absence of panics, and fields that take the rest of the input
-/

namespace Proto

open Spec

/-! ## Discriminants -/

theorem Structure.walk_hasAccess {is : List Nat} {s : Structure} {a : Access}
    (h : s.walk is = some a) : s.HasAccess a := by
  induction is generalizing s a with
  | nil => simp [Structure.walk] at h
  | cons i is ih =>
    simp only [Structure.walk] at h
    split at h
    · next f hf =>
      split at h
      · cases h; exact .fixed (List.mem_of_getElem? hf)
      · cases h
    · next n r loc hf =>
      simp only [Option.map_eq_some_iff] at h
      obtain ⟨a', ha', rfl⟩ := h
      exact .nested (List.mem_of_getElem? hf) (ih ha')
    · cases h

theorem Discriminant.read_eq {p : Profile} {d : Discriminant} {env : Env} {on : Name} {key : Bytes}
    {a : Access} (hk : env.lookup on = some (.struct key)) (ha : d.access = some a)
    (hu : d.root.Usable) (hlen : key.length = d.root.byteSize) :
    d.read p env on = .ok (bitsLE key a.effOffset a.effWidth) := by
  unfold Discriminant.read
  rw [hk, ha]
  exact (Access.exact_eff p (Structure.walk_hasAccess ha) hu.1 hu.2.1 (by omega)
    (by have := hu.2.2; omega)).1

/-! ## Environments -/

/-- The environment holds the values of the fields `before`, structures with their size. -/
inductive Aligned : List MField → Env → Prop where
  | nil : Aligned [] []
  | cons {f : MField} {v : Value} {fs : List MField} {env : Env} :
      (f.optional = false → ∀ s, f.ty = .ref (.struct s) → ∃ b, v = .struct b ∧ b.length = s.byteSize) →
      Aligned fs env → Aligned (f :: fs) ((f.name, v) :: env)

theorem Aligned.snoc {fs : List MField} {env : Env} (h : Aligned fs env) {f : MField} {v : Value}
    (hv : f.optional = false → ∀ s, f.ty = .ref (.struct s) →
      ∃ b, v = .struct b ∧ b.length = s.byteSize) : Aligned (fs ++ [f]) (env ++ [(f.name, v)]) := by
  induction h with
  | nil => exact .cons hv .nil
  | cons h _ ih => exact .cons h ih

theorem Aligned.lookup {before : List MField} {env : Env} (h : Aligned before env) {on : Name}
    {g : MField} (hg : before.find? (fun g => g.name == on) = some g) {s : Structure}
    (ho : g.optional = false) (ht : g.ty = .ref (.struct s)) :
    ∃ b, env.lookup on = some (.struct b) ∧ b.length = s.byteSize := by
  induction h with
  | nil => simp at hg
  | @cons f v fs ps hv _ ih =>
    simp only [List.find?_cons] at hg
    simp only [List.lookup_cons]
    by_cases hn : f.name = on
    · rw [show (f.name == on) = true by simp [hn]] at hg
      cases hg
      obtain ⟨b, hb, hl⟩ := hv ho s ht
      rw [show (on == g.name) = true by simp [hn]]
      exact ⟨b, by rw [← hb], hl⟩
    · rw [show (f.name == on) = false by simp [hn]] at hg
      rw [show (on == f.name) = false by simp [Ne.symm hn]]
      exact ih hg

theorem MField.keyed_read {c : Ctx} {before : List MField} {env : Env} (h : Aligned before env)
    {f : MField} (hk : f.Keyed before) {u : Union} {on : Name} {i : Nat} (ht : f.ty = .union u on i) :
    u.discriminant.read c.p env on ≠ .panic := by
  unfold MField.Keyed at hk
  rw [ht] at hk
  obtain ⟨g, hg, ho, hty, hu, ha⟩ := hk
  obtain ⟨b, hb, hl⟩ := h.lookup hg ho hty
  cases hacc : u.discriminant.access with
  | none => exact absurd hacc ha
  | some a => rw [Discriminant.read_eq hb hacc hu hl]; simp

/-! ## Totality -/

theorem UCase.listAllMessages_mem {q : Message → Prop} {cs : List UCase}
    (h : UCase.ListAllMessages q cs) : ∀ k ∈ cs, ∀ r, k.itemType = some r → r.AllMessages q := by
  induction cs with
  | nil => simp
  | cons k cs ih =>
    obtain ⟨n, v, t⟩ := k
    cases t with
    | none =>
      simp only [UCase.ListAllMessages] at h
      intro k hk r hr
      rcases List.mem_cons.mp hk with rfl | hk
      · simp [UCase.itemType] at hr
      · exact ih h k hk r hr
    | some r0 =>
      simp only [UCase.ListAllMessages] at h
      intro k hk r hr
      rcases List.mem_cons.mp hk with rfl | hk
      · simp only [UCase.itemType, Option.some.injEq] at hr
        exact hr ▸ h.1
      · exact ih h.2 k hk r hr

theorem MField.listAllMessages_mem {q : Message → Prop} {fs : List MField}
    (h : MField.ListAllMessages q fs) : ∀ f ∈ fs, f.ty.AllMessages q := by
  induction fs with
  | nil => simp
  | cons f fs ih =>
    obtain ⟨n, ty, o, sz, e⟩ := f
    simp only [MField.ListAllMessages] at h
    intro f hf
    rcases List.mem_cons.mp hf with rfl | hf
    · exact h.1
    · exact ih h.2 f hf

/-- No length-prefixed string, and array sizes fit the machine word. -/
def MField.safe (f : MField) : Bool := f.notVarchar && f.countFits

/-- The type of a safe field. -/
def MFieldTy.safe (t : MFieldTy) : Bool :=
  MField.safe (.mk [] t false ⟨false, false⟩ .little)

theorem MField.safe_ty (f : MField) : f.safe = f.ty.safe := by
  obtain ⟨n, t, o, sz, e⟩ := f
  cases t <;> rfl

theorem runFields_total {c : Ctx} {emb : Bool} {fs before : List MField} {env : Env}
    (hal : Aligned before env)
    (hk : ∀ pre f post, fs = pre ++ f :: post → f.Keyed (before ++ pre))
    (ht : ∀ f ∈ fs, ∀ env, (∀ u on i, f.ty = .union u on i → u.discriminant.read c.p env on ≠ .panic) →
      (f.parse c emb env).Total) (b : Bytes) :
    runFields (MField.parse c emb) fs env b ≠ .panic := by
  induction fs generalizing before env b with
  | nil => simp [runFields]
  | cons f fs ih =>
    have hkf : f.Keyed before := by simpa using hk [] f fs rfl
    have htot := ht f (by simp) env (fun u on i hu => MField.keyed_read hal hkf hu)
    simp only [runFields]
    cases hs : f.parse c emb env b with
    | panic => exact absurd hs (htot b)
    | err e => simp
    | ok msg =>
      obtain ⟨m, v⟩ := msg
      have hal' : Aligned (before ++ [f]) (env ++ [(f.name, v)]) := by
        refine hal.snoc (fun ho s hty => ?_)
        obtain ⟨n, ty, o, sz, e⟩ := f
        simp only [MField.optional] at ho
        simp only [MField.ty] at hty
        subst ho hty
        simp only [MField.parse, Bool.false_eq_true, if_false, MFieldTy.parse, Referenced.parse] at hs
        obtain ⟨h1, rfl, rfl⟩ := Structure.parse_eq_ok.mp hs
        exact ⟨_, rfl, by rw [List.length_take]; omega⟩
      have := ih hal' (fun pre g post heq => by
        have := hk (f :: pre) g post (by rw [heq]; rfl)
        simpa using this) (fun g hg => ht g (by simp [hg])) (b.drop m)
      simp only
      cases hr : runFields (MField.parse c emb) fs (env ++ [(f.name, v)]) (b.drop m) with
      | panic => exact absurd hr this
      | ok r => simp
      | err e => simp

theorem totalInd (c : Ctx) : SchemaInd
    (fun m => m.allFields MField.safe = true → m.AllMessages Message.Keyed → (m.parse c).Total)
    (fun t => ∀ emb e env, t.safe = true → t.allFields MField.safe = true →
      t.AllMessages Message.Keyed →
      (∀ u on i, t = .union u on i → u.discriminant.read c.p env on ≠ .panic) →
      (t.parse c emb e env).Total) where
  fixed ty emb e env _ _ _ _ := by simp only [MFieldTy.parse]; exact (Scalar.total e _).map
  struct s emb e env _ _ _ _ := by simp only [MFieldTy.parse, Referenced.parse]; exact s.total
  message m h emb e env _ hs hk _ := by
    simp only [MFieldTy.parse, Referenced.parse]
    simp only [MFieldTy.allFields, Referenced.allFields] at hs
    simp only [MFieldTy.AllMessages, Referenced.AllMessages] at hk
    exact h hs hk
  nul emb e env _ _ _ _ := by simp only [MFieldTy.parse]; exact NullTerminated.total.map
  varchar ty emb e env h _ _ _ := by
    simp [MFieldTy.safe, MField.safe, MField.notVarchar, MField.ty] at h
  array ty s emb e env h _ _ _ := by
    simp only [MFieldTy.parse]
    refine (Arr.total _ _ _ _ ?_).map
    simpa [MFieldTy.safe, MField.safe, MField.notVarchar, MField.countFits, MField.ty] using h
  union n d cs sz on i h emb e env _ hs hk hr := by
    simp only [MFieldTy.parse]
    simp only [MFieldTy.allFields, Union.allFields] at hs
    simp only [MFieldTy.AllMessages, Union.AllMessages] at hk
    refine Union.parse_law (L := Parser.Total) (fun v b => by simp) (fun e b => by simp)
      (fun f i hf => hf.map) (fun k hk' r hr' => ?_) env on (fun hp => absurd hp (hr _ _ _ rfl))
    have h' := h k hk' r hr' emb e env (by rfl)
      (by simpa only [MFieldTy.allFields] using UCase.listAllFields_mem hs k hk' r hr')
      (by simpa only [MFieldTy.AllMessages] using UCase.listAllMessages_mem hk k hk' r hr')
      (by intro u on i hu; cases hu)
    simpa only [MFieldTy.parse] using h'
  list ty m h emb e env _ hs hk _ := by
    simp only [MFieldTy.parse]
    simp only [MFieldTy.allFields] at hs
    simp only [MFieldTy.AllMessages] at hk
    split
    · exact (Lst.total (Message.cut c m) (h hs hk) e _).map
    · exact (Lst.unsized_total e _).map
  payload emb e env _ _ _ _ := by
    simp only [MFieldTy.parse]
    exact Parser.Total.map (fun b => by simp [Buffer.fromSlice])
  msg id n fs sz h hs hk b := by
    simp only [Message.allFields] at hs
    simp only [Message.AllMessages] at hk
    rw [Message.parse_eq]
    have := runFields_total (c := c) (emb := c.emb id) (fs := fs) (before := []) (env := []) .nil
      (fun pre f post heq => by simpa using hk.1 pre f post heq) (fun f hf env hr => by
        obtain ⟨h1, h2⟩ := MField.listAllFields_mem hs f hf
        have ht := h f hf (c.emb id) f.endian env (by rw [← MField.safe_ty]; exact h1) h2
          (MField.listAllMessages_mem hk.2 f hf) hr
        exact MField.optional_law (L := Parser.Total) ht (fun _ => (Optional.total ht).map)) b
    simp only [Message.id, Message.fields]
    cases hr : runFields (MField.parse c (c.emb id)) fs [] b with
    | panic => exact absurd hr this
    | ok r => simp [Res.bind]
    | err e => simp [Res.bind]

theorem Message.total (c : Ctx) {m : Message} (h : m.allFields MField.safe = true)
    (hk : m.AllMessages Message.Keyed) : (m.parse c).Total := (totalInd c).all m h hk

theorem andInd (q r : MField → Bool) : SchemaInd
    (fun m => m.allFields q = true → m.allFields r = true → m.allFields (fun f => q f && r f) = true)
    (fun t => t.allFields q = true → t.allFields r = true → t.allFields (fun f => q f && r f) = true) where
  fixed _ _ _ := by simp [MFieldTy.allFields]
  struct _ _ _ := by simp [MFieldTy.allFields, Referenced.allFields]
  message m h hq hr := by
    simp only [MFieldTy.allFields, Referenced.allFields] at hq hr ⊢; exact h hq hr
  nul _ _ := by simp [MFieldTy.allFields]
  varchar _ _ _ := by simp [MFieldTy.allFields]
  array _ _ _ _ := by simp [MFieldTy.allFields]
  union n d cs sz on i h hq hr := by
    simp only [MFieldTy.allFields, Union.allFields] at hq hr ⊢
    induction cs with
    | nil => simp [UCase.listAllFields]
    | cons k cs ih =>
      obtain ⟨n, v, t⟩ := k
      cases t with
      | none =>
        simp only [UCase.listAllFields] at hq hr ⊢
        exact ih (fun k hk => h k (by simp [hk])) hq hr
      | some r0 =>
        simp only [UCase.listAllFields, Bool.and_eq_true] at hq hr ⊢
        have := h (.mk n v (some r0)) (by simp) r0 rfl
        simp only [MFieldTy.allFields] at this
        exact ⟨this hq.1 hr.1, ih (fun k hk => h k (by simp [hk])) hq.2 hr.2⟩
  list ty m h hq hr := by simp only [MFieldTy.allFields] at hq hr ⊢; exact h hq hr
  payload _ _ := by simp [MFieldTy.allFields]
  msg id n fs sz h hq hr := by
    simp only [Message.allFields] at hq hr ⊢
    induction fs with
    | nil => simp [MField.listAllFields]
    | cons f fs ih =>
      have hf := h f (by simp)
      obtain ⟨n, ty, o, sz, e⟩ := f
      simp only [MField.listAllFields, Bool.and_eq_true] at hq hr ⊢
      exact ⟨⟨⟨hq.1.1, hr.1.1⟩, hf hq.1.2 hr.1.2⟩, ih (fun g hg => h g (by simp [hg])) hq.2 hr.2⟩

theorem Message.allFields_and {q r : MField → Bool} {m : Message} (hq : m.allFields q = true)
    (hr : m.allFields r = true) : m.allFields (fun f => q f && r f) = true :=
  (andInd q r).all m hq hr

/-! ## Greedy fields -/

/-- The decoder always takes the whole input. -/
def Parser.Eats (f : Parser α) : Prop := ∀ b n v, f b = .ok ⟨n, v⟩ → n = b.length

/-- The decoder always takes at least one byte. -/
def Parser.Needs (f : Parser α) : Prop := ∀ b n v, f b = .ok ⟨n, v⟩ → 0 < n

theorem Parser.Eats.map {f : Parser α} {g : α → β} (h : f.Eats) : (f.map g).Eats := by
  intro b n v hv
  obtain ⟨x, hx, _⟩ := Parser.map_eq_ok.mp hv
  exact h b n x hx

theorem Parser.Needs.map {f : Parser α} {g : α → β} (h : f.Needs) : (f.map g).Needs := by
  intro b n v hv
  obtain ⟨x, hx, _⟩ := Parser.map_eq_ok.mp hv
  exact h b n x hx

theorem MField.listGreedy_split {emb : Nat → Bool} {here : Bool} {fs : List MField}
    (h : MField.listGreedy emb here fs = true) :
    ∃ pre f post, fs = pre ++ f :: post ∧ f.optional = false ∧ f.ty.greedy emb here = true := by
  induction fs with
  | nil => simp [MField.listGreedy] at h
  | cons f fs ih =>
    obtain ⟨n, ty, o, sz, e⟩ := f
    simp only [MField.listGreedy, Bool.or_eq_true, Bool.and_eq_true, Bool.not_eq_true'] at h
    rcases h with h | h
    · exact ⟨[], .mk n ty o sz e, fs, rfl, h.1, h.2⟩
    · obtain ⟨pre, f, post, rfl, h1, h2⟩ := ih h
      exact ⟨.mk n ty o sz e :: pre, f, post, rfl, h1, h2⟩

theorem runFields_split {step : MField → Env → Parser Value} {fs gs : List MField} {env env' : Env}
    {b : Bytes} {n : Nat} :
    runFields step (fs ++ gs) env b = .ok (n, env') ↔
      ∃ k l e, runFields step fs env b = .ok (k, e) ∧ runFields step gs e (b.drop k) = .ok (l, env') ∧
        n = k + l := by
  induction fs generalizing env b n with
  | nil =>
    constructor
    · intro h; exact ⟨0, n, env, rfl, by simpa using h, by omega⟩
    · rintro ⟨k, l, e, h1, h2, rfl⟩
      cases h1
      simpa using h2
  | cons f fs ih =>
    simp only [List.cons_append]
    constructor
    · intro h
      obtain ⟨m, v, k, h1, h2, rfl⟩ := runFields_cons_ok.mp h
      obtain ⟨k', l, e, h3, h4, rfl⟩ := ih.mp h2
      refine ⟨m + k', l, e, runFields_cons_ok.mpr ⟨m, v, k', h1, h3, rfl⟩, ?_, by omega⟩
      rwa [List.drop_drop] at h4
    · rintro ⟨k, l, e, h1, h2, rfl⟩
      obtain ⟨m, v, k', h3, h4, rfl⟩ := runFields_cons_ok.mp h1
      refine runFields_cons_ok.mpr ⟨m, v, k' + l, h3, ih.mpr ⟨k', l, e, h4, ?_, rfl⟩, by omega⟩
      rwa [List.drop_drop]

/-- After a field that takes the rest, the remaining fields take nothing. -/
theorem runFields_eats {c : Ctx} {emb : Bool} {pre post : List MField} {f : MField}
    (h : ∀ env, (f.parse c emb env).Eats) {env env' : Env} {b : Bytes} {n : Nat}
    (hr : runFields (MField.parse c emb) (pre ++ f :: post) env b = .ok (n, env')) :
    n = b.length ∧ ∃ e, runFields (MField.parse c emb) post e [] = .ok (0, env') := by
  obtain ⟨k, l, e, h1, h2, rfl⟩ := runFields_split.mp hr
  obtain ⟨m, v, j, h3, h4, rfl⟩ := runFields_cons_ok.mp h2
  have hm := h _ _ _ _ h3
  have hk := runFields_le (fun f _ env => MField.cut c emb f env) h1
  rw [List.drop_of_length_le (by omega)] at h4
  have hj := runFields_le (fun f _ env => MField.cut c emb f env) h4
  simp only [List.length_nil, Nat.le_zero] at hj
  subst hj
  refine ⟨?_, _, h4⟩
  rw [List.length_drop] at hm; omega

theorem eatsInd (c : Ctx) : SchemaInd (fun m => m.greedy c.emb = true → (m.parse c).Eats)
    (fun t => ∀ emb e env, t.greedy c.emb emb = true → (t.parse c emb e env).Eats) where
  fixed ty emb e env h := by simp [MFieldTy.greedy] at h
  struct s emb e env h := by simp [MFieldTy.greedy, Referenced.greedy] at h
  message m h emb e env hg := by
    simp only [MFieldTy.parse, Referenced.parse]
    simp only [MFieldTy.greedy, Referenced.greedy] at hg
    exact h hg
  nul emb e env h := by simp [MFieldTy.greedy] at h
  varchar ty emb e env h := by simp [MFieldTy.greedy] at h
  array ty s emb e env h := by simp [MFieldTy.greedy] at h
  union n d cs sz on i h emb e env hg := by simp [MFieldTy.greedy] at hg
  list ty m h emb e env hg := by
    simp only [MFieldTy.greedy, Bool.not_eq_true'] at hg
    subst hg
    simp only [MFieldTy.parse, Bool.false_eq_true, if_false]
    exact Parser.Eats.map (fun b n v hv => (Lst.unsized_eq_ok.mp hv).2.1)
  payload emb e env _ := by
    simp only [MFieldTy.parse]
    exact Parser.Eats.map (fun b n v hv => (Buffer.fromSlice_eq_ok.mp hv).1)
  msg id n fs sz h hg b n v hv := by
    simp only [Message.greedy] at hg
    obtain ⟨pre, f, post, rfl, ho, hf⟩ := MField.listGreedy_split hg
    obtain ⟨vs, rfl, hr⟩ := Message.parse_eq_ok.mp hv
    simp only [Message.id, Message.fields] at hr
    have hty := h f (by simp)
    refine (runFields_eats (fun env => ?_) hr).1
    obtain ⟨n, ty, o, sz, e⟩ := f
    simp only [MField.optional] at ho
    subst ho
    simp only [MField.parse, Bool.false_eq_true, if_false]
    exact hty _ _ _ hf

theorem MField.eats {c : Ctx} {emb : Bool} {f : MField} (ho : f.optional = false)
    (hg : f.ty.greedy c.emb emb = true) (env : Env) : (f.parse c emb env).Eats := by
  obtain ⟨n, ty, o, sz, e⟩ := f
  simp only [MField.optional] at ho
  subst ho
  simp only [MField.parse, Bool.false_eq_true, if_false]
  exact (eatsInd c).ty ty _ _ _ hg

theorem runFields_needs {step : MField → Env → Parser Value} {fs : List MField}
    (h : ∃ f ∈ fs, ∀ env, (step f env).Needs) {env env' : Env} {b : Bytes} {n : Nat}
    (hr : runFields step fs env b = .ok (n, env')) : 0 < n := by
  induction fs generalizing env b n with
  | nil => simp at h
  | cons f fs ih =>
    obtain ⟨m, v, k, h1, h2, rfl⟩ := runFields_cons_ok.mp hr
    obtain ⟨g, hg, hn⟩ := h
    rcases List.mem_cons.mp hg with rfl | hg
    · have := hn _ _ _ _ h1; omega
    · have := ih ⟨g, hg, hn⟩ h2; omega

theorem MField.needs {c : Ctx} {emb : Bool} {f : MField} {env : Env}
    (h : f.optional = true ∨ (f.ty.parse c emb f.endian env).Needs) : (f.parse c emb env).Needs := by
  obtain ⟨n, ty, o, sz, e⟩ := f
  simp only [MField.parse]
  cases o with
  | true =>
    simp only [if_true]
    refine Parser.Needs.map (fun b n v hv => ?_)
    rcases Optional.fromSlice_eq_ok.mp hv with ⟨_, _, rfl, _⟩ | ⟨_, _, _, _, _, _, _, rfl, _⟩ <;> omega
  | false =>
    simp only [Bool.false_eq_true, if_false]
    simpa [MField.optional, MField.ty, MField.endian] using h

theorem needsInd (c : Ctx) : SchemaInd (fun m => m.nonEmpty = true → (m.parse c).Needs)
    (fun t => ∀ emb e env, t.nonEmpty = true → (t.parse c emb e env).Needs) where
  fixed ty emb e env _ := by
    simp only [MFieldTy.parse]
    refine Parser.Needs.map (fun b n v hv => ?_)
    obtain ⟨_, h⟩ := Scalar.fromSlice_eq_ok.mp hv
    cases h
    cases ty <;> decide
  struct s emb e env h := by
    simp only [MFieldTy.nonEmpty, Referenced.nonEmpty, decide_eq_true_eq] at h
    simp only [MFieldTy.parse, Referenced.parse]
    intro b n v hv
    obtain ⟨_, rfl, _⟩ := Structure.parse_eq_ok.mp hv
    exact h
  message m h emb e env hg := by
    simp only [MFieldTy.parse, Referenced.parse]
    simp only [MFieldTy.nonEmpty, Referenced.nonEmpty] at hg
    exact h hg
  nul emb e env _ := by
    simp only [MFieldTy.parse]
    refine Parser.Needs.map (fun b n v hv => ?_)
    obtain ⟨_, _, _, _, rfl⟩ := NullTerminated.fromSlice_eq_ok.mp hv
    omega
  varchar ty emb e env _ := by
    simp only [MFieldTy.parse]
    refine Parser.Needs.map (fun b n v hv => ?_)
    obtain ⟨_, rfl, _⟩ := (Varchar.fromSlice_eq_ok (by cases ty <;> decide)).mp hv
    have : 0 < ty.byteSize := by cases ty <;> decide
    omega
  array ty s emb e env _ := by
    simp only [MFieldTy.parse]
    refine Parser.Needs.map (fun b n v hv => ?_)
    obtain ⟨_, _, _, _, _, _, h, _⟩ := Arr.fromSlice_eq_ok.mp hv
    have : 0 < ty.byteSize := by cases ty <;> decide
    omega
  union n d cs sz on i h emb e env hg := by simp [MFieldTy.nonEmpty] at hg
  list ty m h emb e env _ := by
    have : 0 < ty.byteSize := by cases ty <;> decide
    simp only [MFieldTy.parse]
    split
    · refine Parser.Needs.map (fun b n v hv => ?_)
      obtain ⟨_, _, _, _, rfl, _⟩ := (Lst.fromSlice_eq_ok (Message.cut c m)).mp hv
      omega
    · refine Parser.Needs.map (fun b n v hv => ?_)
      obtain ⟨_, rfl, _⟩ := Lst.unsized_eq_ok.mp hv
      omega
  payload emb e env h := by simp [MFieldTy.nonEmpty] at h
  msg id n fs sz h hg b n v hv := by
    simp only [Message.nonEmpty] at hg
    obtain ⟨vs, rfl, hr⟩ := Message.parse_eq_ok.mp hv
    refine runFields_needs ?_ hr
    simp only [Message.fields, Message.id]
    clear hr hv
    induction fs with
    | nil => simp [MField.listNonEmpty] at hg
    | cons f fs ih =>
      obtain ⟨n, ty, o, sz, e⟩ := f
      simp only [MField.listNonEmpty, Bool.or_eq_true] at hg
      rcases hg with hg | hg
      · refine ⟨.mk n ty o sz e, by simp, fun env => MField.needs ?_⟩
        rcases hg with hg | hg
        · exact .inl hg
        · exact .inr (h _ (by simp) _ _ _ hg)
      · obtain ⟨f, hf, hn⟩ := ih (fun f hf => h f (by simp [hf])) hg
        exact ⟨f, by simp [hf], hn⟩

theorem MField.listNonEmpty_needs {c : Ctx} {emb : Bool} {fs : List MField}
    (hg : MField.listNonEmpty fs = true) : ∃ f ∈ fs, ∀ env, (f.parse c emb env).Needs := by
  induction fs with
  | nil => simp [MField.listNonEmpty] at hg
  | cons f fs ih =>
    obtain ⟨n, ty, o, sz, e⟩ := f
    simp only [MField.listNonEmpty, Bool.or_eq_true] at hg
    rcases hg with hg | hg
    · refine ⟨.mk n ty o sz e, by simp, fun env => MField.needs ?_⟩
      rcases hg with hg | hg
      · exact .inl hg
      · exact .inr ((needsInd c).ty ty _ _ _ hg)
    · obtain ⟨f, hf, hn⟩ := ih hg
      exact ⟨f, by simp [hf], hn⟩

end Proto
