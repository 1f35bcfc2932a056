import Verif.Lang.Code
import Verif.Gen.Totality

/-!
# What the generated functions do
-/

namespace Proto.Rs

/-! ## Runs -/

namespace Run

@[simp] theorem bind_mk_ok (cs : List Bytes) (a : α) (f : α → Run β) :
    ((⟨cs, .ok a⟩ : Run α) >>= f) = ⟨cs ++ (f a).chunks, (f a).res⟩ := rfl
@[simp] theorem bind_mk_err (cs : List Bytes) (s : Stop) (f : α → Run β) :
    ((⟨cs, .err s⟩ : Run α) >>= f) = ⟨cs, .err s⟩ := rfl
@[simp] theorem bind_mk_panic (cs : List Bytes) (f : α → Run β) :
    ((⟨cs, .panic⟩ : Run α) >>= f) = ⟨cs, .panic⟩ := rfl
@[simp] theorem bind_pure (a : α) (f : α → Run β) : (Run.pure a >>= f) = f a := rfl
@[simp] theorem bind_pure' (a : α) (f : α → Run β) : ((Pure.pure a : Run α) >>= f) = f a := rfl
@[simp] theorem bind_stuck (f : α → Run β) : ((stuck : Run α) >>= f) = stuck := rfl
@[simp] theorem bind_panic (f : α → Run β) : ((panic : Run α) >>= f) = panic := rfl
@[simp] theorem get_some (a : α) : get (some a) = pure a := rfl
@[simp] theorem get_none : (get (none : Option α)) = stuck := rfl

theorem bind_assoc (x : Run α) (f : α → Run β) (h : β → Run γ) :
    (x >>= f) >>= h = x >>= fun a => f a >>= h := by
  obtain ⟨cs, r⟩ := x
  cases r with
  | ok a =>
    simp only [bind_mk_ok]
    obtain ⟨ds, q⟩ := f a
    cases q <;> simp
  | err s => rfl
  | panic => rfl

end Run

@[simp] theorem lift_ok (a : α) : lift (.ok a) = Run.pure a := rfl
@[simp] theorem lift_panic : lift (.panic : R α) = Run.panic := rfl
@[simp] theorem decoded_ok (h : α → Val) (m : Msg α) :
    decoded h (.ok m) = Run.pure (.ok (.sized m.size (h m.data))) := rfl
@[simp] theorem decoded_err (h : α → Val) (e : Error) : decoded h (.err e) = Run.pure (.err e) := rfl
@[simp] theorem decoded_panic (h : α → Val) : decoded h .panic = Run.panic := rfl

theorem runAll_append (g : Globals) (ρ : Locals) (a b : List Stmt) :
    runAll g ρ (a ++ b) = runAll g ρ a >>= fun ρ => runAll g ρ b := by
  induction a generalizing ρ with
  | nil => rfl
  | cons s ss ih =>
    simp only [List.cons_append, runAll, ih, Run.bind_assoc]

/-! ## Names -/

theorem suffixed_ne (x : Name) {s : String} (h : s.toList ≠ []) : suffixed x s ≠ x := by
  intro e
  unfold suffixed at e
  exact h (List.append_right_eq_self.mp e)

theorem lookup_cons_ne {ρ : Locals} {x y : Name} (v : Val) (h : x ≠ y) :
    List.lookup x ((y, v) :: ρ) = ρ.lookup x := by
  rw [List.lookup_cons, show (x == y) = false by simp [h]]

theorem lookup_cons_eq {ρ : Locals} (x : Name) (v : Val) :
    List.lookup x ((x, v) :: ρ) = some v := by
  simp

theorem lookup_assign_ne {ρ : Locals} {x y : Name} (v : Val) (h : x ≠ y) :
    (assign y v ρ).lookup x = ρ.lookup x := by
  induction ρ with
  | nil => rfl
  | cons b ρ ih =>
    obtain ⟨z, w⟩ := b
    unfold assign
    split
    · next e => subst e; rw [lookup_cons_ne _ h, lookup_cons_ne _ h]
    · simp only [List.lookup_cons, ih]

theorem lookup_assign_eq {ρ : Locals} {x : Name} (v : Val) {w : Val} (h : ρ.lookup x = some w) :
    (assign x v ρ).lookup x = some v := by
  induction ρ with
  | nil => cases h
  | cons b ρ ih =>
    obtain ⟨z, u⟩ := b
    unfold assign
    split
    · next e => subst e; simp
    · next e =>
      rw [lookup_cons_ne _ e] at h ⊢
      exact ih h

/-! ## Hypotheses -/

/-- Paths lead to the types a field refers to. -/
def Resolves (g : Globals) (paths : List (Name × Name)) : MFieldTy → Prop
  | .ref (.struct s) => g.items (pathOf paths s.name) = some (.struct s)
  | .ref (.message m) => g.items (pathOf paths m.name) = some (.message m)
  | .array _ s => g.items (pathOf paths s.name) = some (.struct s)
  | .list _ m => g.items (pathOf paths m.name) = some (.message m)
  | .union u _ _ => g.items (pathOf paths u.name) = some (.union u)
  | _ => True

/-- A union field is not optional, and the first field called as its key is an earlier one that is
not optional and is a structure. -/
def KeyHeld (before : List MField) (f : MField) : Prop :=
  match f.ty with
  | .union _ on _ => f.optional = false ∧ ∃ k s, before.find? (fun k => k.name == on) = some k ∧
      k.optional = false ∧ k.ty = .ref (.struct s)
  | _ => True

/-- The names of the fields do not collide with each other or with the decoder's own variables: they
are distinct, none is `byte_offset`, only the last may be `slice`, and none is the name of a later
field followed by `_msg`. -/
structure Hygienic (fs : List MField) : Prop where
  distinct : (fs.map MField.name).Nodup
  offset : ∀ f ∈ fs, f.name ≠ id "byte_offset"
  slice : ∀ before f after, fs = before ++ f :: after → after ≠ [] → f.name ≠ id "slice"
  msg : ∀ before f after, fs = before ++ f :: after → ∀ k ∈ after, f.name ≠ msgVar k

/-! ## Decoding one field -/

section
variable {g : Globals} {paths : List (Name × Name)}

theorem tyOf_fromSlice {emb : Bool} {e : Endian} {t : MFieldTy} (hr : Resolves g paths t)
    (hu : ∀ u on i, t ≠ .union u on i) (env : Env) :
    (tyOf paths emb e t).fromSlice g = some (t.parse g.c emb e env) := by
  cases t with
  | ref r => cases r <;> simp only [Resolves] at hr <;> simp [tyOf, Ty.fromSlice, hr, MFieldTy.parse, Referenced.parse]
  | union u on i => exact absurd rfl (hu u on i)
  | list ty m =>
    simp only [Resolves] at hr
    cases emb <;> simp [tyOf, Ty.fromSlice, hr, MFieldTy.parse]
  | array ty s => simp only [Resolves] at hr; simp [tyOf, Ty.fromSlice, hr, MFieldTy.parse]
  | _ => simp [tyOf, Ty.fromSlice, MFieldTy.parse]

theorem codecOf_fromSlice {emb : Bool} {f : MField} (hr : Resolves g paths f.ty)
    (hu : ∀ u on i, f.ty ≠ .union u on i) (env : Env) :
    (codecOf paths emb f).fromSlice g = some (f.parse g.c emb env) := by
  obtain ⟨n, t, o, sz, e⟩ := f
  have := tyOf_fromSlice (emb := emb) (e := e) hr hu env
  simp only [MField.ty] at this
  cases o <;> simp [codecOf, MField.optional, MField.parse, Ty.fromSlice, MField.ty, MField.endian, this]

theorem read_single (p : Profile) (d : Discriminant) {env : Env} {on : Name} {k : Bytes}
    (h : env.lookup on = some (.struct k)) :
    d.read p env on = d.read p [([], .struct k)] [] := by
  simp [Discriminant.read, h]

theorem union_parse_single (c : Ctx) (u : Union) {env : Env} {on : Name} {k : Bytes}
    (h : env.lookup on = some (.struct k)) (b : Bytes) :
    u.parse c env on b = u.parse c [([], .struct k)] [] b := by
  obtain ⟨n, d, cs, sz⟩ := u
  simp only [Union.parse, read_single c.p d h]

theorem union_write_single (c : Ctx) (u : Union) {env : Env} {on : Name} {k : Bytes}
    (h : env.lookup on = some (.struct k)) (v : Value) :
    u.write c env on v = u.write c [([], .struct k)] [] v := by
  obtain ⟨n, d, cs, sz⟩ := u
  cases v <;> simp only [Union.write, read_single c.p d h]

/-- The variables the decoder needs. -/
structure Holds (ρ : Locals) (env : Env) (off : Nat) : Prop where
  offset : ρ.lookup (id "byte_offset") = some (.usize off)
  env : ∀ x v, env.lookup x = some v → ρ.lookup x = some (.data v)

/-- What `?` makes of the result of a call. -/
def attempt (h : α → Val) : R (Msg α) → Run Val
  | .ok m => .pure (.sized m.size (h m.data))
  | .err e => ⟨[], .err (.ret (.err e))⟩
  | .panic => .panic

theorem eval_try (ρ : Locals) (e : Expr) (h : α → Val) (r : R (Msg α))
    (he : e.eval g ρ = decoded h r) : (Expr.try e).eval g ρ = attempt h r := by
  rw [Expr.eval, he]
  cases r <;> rfl

theorem restE_eval {ρ : Locals} {b : Bytes} {off : Nat} (hs : ρ.lookup (id "slice") = some (.data (.buf b)))
    (ho : ρ.lookup (id "byte_offset") = some (.usize off)) (hle : off ≤ b.length) :
    restE.eval g ρ = .pure (.data (.buf (b.drop off))) := by
  simp [restE, Expr.eval, hs, ho, dropFrom_ok hle]

theorem callOf_eval {emb : Bool} {f : MField} {ρ : Locals} {env : Env} {b : Bytes} {off : Nat}
    {before : List MField} (hr : Resolves g paths f.ty) (hk : KeyHeld before f) (hal : Aligned before env)
    (hs : ρ.lookup (id "slice") = some (.data (.buf b))) (h : Holds ρ env off) (hle : off ≤ b.length) :
    (callOf paths emb f).eval g ρ = attempt .data (f.parse g.c emb env (b.drop off)) := by
  have hrest := restE_eval (g := g) hs h.offset hle
  by_cases hu : ∃ u on i, f.ty = .union u on i
  · obtain ⟨u, on, i, ht⟩ := hu
    unfold KeyHeld at hk
    rw [ht] at hk hr
    obtain ⟨ho, k, s, hf, hko, hkt⟩ := hk
    obtain ⟨kb, hkb, _⟩ := hal.lookup hf hko hkt
    unfold callOf
    simp only [ht]
    apply eval_try
    have hv := h.env on _ hkb
    simp only [Resolves] at hr
    rw [Expr.eval, hrest]
    simp only [Run.bind_pure, Expr.eval, hv, Run.get_some, codecOf, ho, ht, tyOf,
      Bool.false_eq_true, if_false, callTwo, hr]
    obtain ⟨n, t, o, sz, e⟩ := f
    simp only [MField.ty] at ht
    simp only [MField.optional] at ho
    subst ht ho
    simp only [MField.parse, Bool.false_eq_true, if_false, MFieldTy.parse, union_parse_single g.c u hkb]
  · have hu' : ∀ u on i, f.ty ≠ .union u on i := fun u on i e => hu ⟨u, on, i, e⟩
    have hc : callOf paths emb f = .try (.call1 (codecOf paths emb f) .fromSlice restE) := by
      unfold callOf
      split
      · next u on i e => exact absurd e (hu' u on i)
      · rfl
    rw [hc]
    apply eval_try
    rw [Expr.eval, hrest]
    simp only [Run.bind_pure, callOne, codecOf_fromSlice hr hu' env, Run.get_some]

theorem size_eval {ρ : Locals} {x : Name} {n : Nat} {v : Val} (h : ρ.lookup x = some (.sized n v)) :
    (Expr.method (.var x) (id "size")).eval g ρ = .pure (.usize n) := by
  simp [Expr.eval, h, callMethod, id]

theorem intoInner_eval {ρ : Locals} {x : Name} {n : Nat} {v : Val} (h : ρ.lookup x = some (.sized n v)) :
    (Expr.method (.var x) (id "into_inner")).eval g ρ = .pure v := by
  simp [Expr.eval, h, callMethod, id]

theorem msgVar_ne_name (f : MField) : msgVar f ≠ f.name := suffixed_ne _ (by decide)

theorem msgVar_ne {f : MField} {s : String} (h : ¬ "_msg".toList <:+ s.toList) : msgVar f ≠ id s := by
  intro e
  exact h ⟨f.name, e⟩

theorem decodeField_run {emb : Bool} {f : MField} {ρ : Locals} {env : Env} {b : Bytes} {off : Nat}
    {before : List MField} (hr : Resolves g paths f.ty) (hk : KeyHeld before f) (hal : Aligned before env)
    (hs : ρ.lookup (id "slice") = some (.data (.buf b))) (h : Holds ρ env off) (hle : off ≤ b.length)
    (hb : b.length < 2 ^ 64) (hoff : f.name ≠ id "byte_offset")
    (hnew : ∀ x v, env.lookup x = some v → x ≠ f.name ∧ x ≠ msgVar f) :
    match f.parse g.c emb env (b.drop off) with
    | .ok msg => ∃ ρ', runAll g ρ (decodeField paths emb f) = .pure ρ' ∧
        (f.name ≠ id "slice" → ρ'.lookup (id "slice") = some (.data (.buf b))) ∧
        Holds ρ' (env ++ [(f.name, msg.data)]) (off + msg.size)
    | .err e => runAll g ρ (decodeField paths emb f) = ⟨[], .err (.ret (.err e))⟩
    | .panic => runAll g ρ (decodeField paths emb f) = .panic := by
  have hcall := callOf_eval (emb := emb) hr hk hal hs h hle
  cases hp : f.parse g.c emb env (b.drop off) with
  | err e => simp only [decodeField, runAll, Stmt.run, hcall, hp, attempt]; rfl
  | panic => simp only [decodeField, runAll, Stmt.run, hcall, hp, attempt]; rfl
  | ok msg =>
    have hsz : off + msg.size ≤ b.length := by
      have := (MField.cut g.c emb f env _ _ _ hp).1
      simp at this; omega
    have ho1 : List.lookup (id "byte_offset") ((msgVar f, .sized msg.size (.data msg.data)) :: ρ) =
        some (.usize off) := by
      rw [lookup_cons_ne _ (Ne.symm (msgVar_ne (by decide)))]; exact h.offset
    refine ⟨(f.name, .data msg.data) :: assign (id "byte_offset") (.usize (off + msg.size))
      ((msgVar f, .sized msg.size (.data msg.data)) :: ρ), ?_, ?_, ?_, ?_⟩
    · simp only [decodeField, runAll, Stmt.run, hcall, hp, attempt, Run.bind_pure]
      rw [size_eval (lookup_cons_eq _ _)]
      simp only [Run.bind_pure, ho1, addU_ok g.c.p (show off + msg.size < 2 ^ usizeBits by
        unfold usizeBits; omega), lift_ok]
      rw [intoInner_eval (n := msg.size) (v := .data msg.data)]
      · rfl
      · rw [lookup_assign_ne _ (msgVar_ne (by decide)), lookup_cons_eq]
    · intro hn
      rw [lookup_cons_ne _ (Ne.symm hn), lookup_assign_ne _ (by decide),
        lookup_cons_ne _ (Ne.symm (msgVar_ne (by decide)))]
      exact hs
    · rw [lookup_cons_ne _ (Ne.symm hoff), lookup_assign_eq _ ho1]
    · intro x v hx
      rw [List.lookup_append] at hx
      cases hxe : env.lookup x with
      | some w =>
        rw [hxe] at hx
        cases hx
        obtain ⟨h1, h2⟩ := hnew x v hxe
        have h3 : x ≠ id "byte_offset" := fun e => by
          have := h.env x v hxe
          rw [e, h.offset] at this
          cases this
        rw [lookup_cons_ne _ h1, lookup_assign_ne _ h3, lookup_cons_ne _ h2]
        exact h.env x v hxe
      | none =>
        rw [hxe] at hx
        by_cases hn : x = f.name
        · subst hn
          simp at hx
          rw [lookup_cons_eq, hx]
        · simp only [Option.none_or, List.lookup_cons, show (x == f.name) = false by simp [hn],
            List.lookup_nil, reduceCtorEq] at hx

/-! ## Decoding all fields -/

theorem Aligned.names {before : List MField} {env : Env} (h : Aligned before env) :
    env.map Prod.fst = before.map MField.name := by
  induction h with
  | nil => rfl
  | cons _ _ ih => simp [ih]

theorem mem_names_of_lookup {env : List (Name × α)} {x : Name} {v : α} (h : env.lookup x = some v) :
    x ∈ env.map Prod.fst := by
  induction env with
  | nil => cases h
  | cons a env ih =>
    obtain ⟨y, w⟩ := a
    by_cases e : x = y
    · simp [e]
    · rw [List.lookup_cons, show (x == y) = false by simp [e]] at h
      simp only [List.map_cons, List.mem_cons]
      exact .inr (ih h)

theorem lookup_of_mem {env : List (Name × α)} (hn : (env.map Prod.fst).Nodup) {a : Name × α}
    (h : a ∈ env) : env.lookup a.1 = some a.2 := by
  induction env with
  | nil => cases h
  | cons b env ih =>
    rw [List.map_cons, List.nodup_cons] at hn
    rcases List.mem_cons.mp h with rfl | h
    · rw [List.lookup_cons, beq_self_eq_true]
    · have : a.1 ≠ b.1 := fun e => hn.1 (e ▸ List.mem_map_of_mem h)
      rw [List.lookup_cons, show (a.1 == b.1) = false by simp [this]]
      exact ih hn.2 h

theorem hygienic_new {before fs : List MField} {f : MField} {env : Env} (hh : Hygienic (before ++ f :: fs))
    (hal : Aligned before env) {x : Name} {v : Value} (hx : env.lookup x = some v) :
    x ≠ f.name ∧ x ≠ msgVar f := by
  have hmem := mem_names_of_lookup hx
  rw [Aligned.names hal, List.mem_map] at hmem
  obtain ⟨k, hk, rfl⟩ := hmem
  refine ⟨fun e => ?_, ?_⟩
  · have := hh.distinct
    rw [List.map_append, List.nodup_append] at this
    exact this.2.2 k.name (List.mem_map_of_mem hk) f.name (by simp) e
  · obtain ⟨pre, post, rfl⟩ := List.append_of_mem hk
    exact hh.msg pre k (post ++ f :: fs) (by simp) f (by simp)

/-- What a run of the statements of all fields leaves. -/
theorem decodeFields_run {emb : Bool} {fs before : List MField} {ρ : Locals} {env : Env} {b : Bytes}
    {off : Nat} (hr : ∀ f ∈ fs, Resolves g paths f.ty)
    (hk : ∀ pre f post, fs = pre ++ f :: post → KeyHeld (before ++ pre) f) (hal : Aligned before env)
    (hh : Hygienic (before ++ fs))
    (hs : fs ≠ [] → ρ.lookup (id "slice") = some (.data (.buf b))) (h : Holds ρ env off)
    (hle : off ≤ b.length) (hb : b.length < 2 ^ 64) :
    match MField.parseList g.c emb fs env off b with
    | .ok r => ∃ ρ', runAll g ρ (fs.flatMap (decodeField paths emb)) = .pure ρ' ∧ Holds ρ' r.2 r.1 ∧
        r.1 ≤ b.length ∧ Aligned (before ++ fs) r.2
    | .err e => runAll g ρ (fs.flatMap (decodeField paths emb)) = ⟨[], .err (.ret (.err e))⟩
    | .panic => runAll g ρ (fs.flatMap (decodeField paths emb)) = .panic := by
  induction fs generalizing before ρ env off with
  | nil => exact ⟨ρ, rfl, h, hle, by simpa using hal⟩
  | cons f fs ih =>
    have hstep := decodeField_run (emb := emb) (hr f (by simp)) (by simpa using hk [] f fs rfl) hal
      (hs (by simp)) h hle hb (hh.offset f (by simp)) (fun x v hx => hygienic_new hh hal hx)
    simp only [MField.parseList, dropFrom_ok hle, Res.bind_ok, List.flatMap_cons]
    cases hp : f.parse g.c emb env (b.drop off) with
    | err e =>
      simp only [hp] at hstep
      rw [runAll_append, hstep]; rfl
    | panic =>
      simp only [hp] at hstep
      rw [runAll_append, hstep]; rfl
    | ok msg =>
      simp only [hp] at hstep
      obtain ⟨ρ1, hrun, hslice, hholds⟩ := hstep
      have hsz := (MField.cut g.c emb f env _ _ _ hp).1
      simp at hsz
      have hal' : Aligned (before ++ [f]) (env ++ [(f.name, msg.data)]) := by
        refine hal.snoc (fun ho s hty => ?_)
        obtain ⟨n, ty, o, sz, e⟩ := f
        simp only [MField.optional] at ho
        simp only [MField.ty] at hty
        subst ho hty
        simp only [MField.parse, Bool.false_eq_true, if_false, MFieldTy.parse, Referenced.parse] at hp
        obtain ⟨h1, h2, h3⟩ := Structure.parse_eq_ok.mp hp
        exact ⟨_, h3, by rw [List.length_take]; omega⟩
      have := ih (before := before ++ [f]) (ρ := ρ1) (fun k hk => hr k (by simp [hk]))
        (fun pre k post heq => by
          have := hk (f :: pre) k post (by rw [heq]; rfl)
          simpa using this) hal' (by simpa using hh)
        (fun hne => hslice (hh.slice before f fs rfl hne)) hholds (by omega)
      rw [runAll_append, hrun]
      simpa using this

theorem record_eval {ρ : Locals} {env : Env} (h : ∀ x v, env.lookup x = some v → ρ.lookup x = some (.data v))
    (hn : (env.map Prod.fst).Nodup) (hname : g.name = n) (hf : g.fields = env.map Prod.fst) :
    (Expr.record n (env.map Prod.fst)).eval g ρ = .pure (.data (.msg env)) := by
  have : (env.map Prod.fst).mapM (held ρ) = some env := by
    have aux : ∀ l : Env, (∀ a ∈ l, ρ.lookup a.1 = some (.data a.2)) →
        (l.map Prod.fst).mapM (held ρ) = some l := by
      intro l hl
      induction l with
      | nil => rfl
      | cons a l ih =>
        simp only [List.map_cons, List.mapM_cons, held, hl a (by simp), ih fun b hb => hl b (by simp [hb])]
        rfl
    exact aux env fun a ha => h _ _ (lookup_of_mem hn ha)
  rw [Expr.eval, if_pos ⟨hname.symm, hf.symm, hn⟩, this]
  rfl

/-- The decoder of a message does what the model says. -/
theorem decoder_call {m : Message} {b : Bytes} (hr : ∀ f ∈ m.fields, Resolves g paths f.ty)
    (hk : ∀ pre f post, m.fields = pre ++ f :: post → KeyHeld pre f) (hh : Hygienic m.fields)
    (hname : g.name = m.name) (hf : g.fields = m.fields.map MField.name) (hb : b.length < 2 ^ 64) :
    (decoder paths (g.c.emb m.id) m).call g [(id "slice", .data (.buf b))] =
      decoded .data (m.parse g.c b) := by
  obtain ⟨mid, n, fs, sz⟩ := m
  have hrun := decodeFields_run (g := g) (paths := paths) (emb := g.c.emb mid) (before := [])
    (ρ := [(id "byte_offset", .usize 0), (id "slice", .data (.buf b))]) (env := []) (off := 0) (b := b)
    hr (by simpa using hk) .nil (by simpa using hh)
    (fun _ => rfl) ⟨rfl, fun x v hx => by cases hx⟩ (by omega) hb
  simp only [Message.fields] at hrun
  simp only [Body.call, decoder, List.cons_append, runAll, Stmt.run, Expr.eval, Run.bind_pure, runAll_append,
    Message.parse, Message.fields, Message.id, Message.name]
  cases hp : MField.parseList g.c (g.c.emb mid) fs [] 0 b with
  | err e =>
    simp only [hp] at hrun
    rw [hrun]; rfl
  | panic =>
    simp only [hp] at hrun
    rw [hrun]; rfl
  | ok r =>
    simp only [hp] at hrun
    obtain ⟨ρ', hrun, hholds, hle, hal⟩ := hrun
    have hnames := Aligned.names hal
    simp only [List.nil_append] at hnames
    have hd : (r.2.map Prod.fst).Nodup := by rw [hnames]; exact hh.distinct
    have hrec := record_eval (g := g) (n := n) hholds.env hd hname (by rw [hnames]; exact hf)
    rw [hrun]
    simp only [Run.bind_pure, ← hnames, Tail.run]
    rw [Expr.eval] at hrec
    rw [hrec]
    simp only [Run.bind_pure, Expr.eval, lookup_cons_eq, Run.get_some]
    rw [lookup_cons_ne _ (by decide), hholds.offset]
    rfl

/-! ## Encoding -/

theorem tyOf_writeTo {e : Endian} {t : MFieldTy} (hr : Resolves g paths t)
    (hu : ∀ u on i, t ≠ .union u on i) (env : Env) :
    (tyOf paths true e t).writeTo g = some (t.write g.c e env) := by
  cases t with
  | ref r =>
    cases r <;> simp only [Resolves] at hr <;> simp only [tyOf, Ty.writeTo, hr, Option.some.injEq] <;>
    funext v <;> cases v <;> simp [MFieldTy.write, Referenced.write]
  | union u on i => exact absurd rfl (hu u on i)
  | list ty m =>
    simp only [Resolves] at hr
    simp only [tyOf, if_true, Ty.writeTo, hr, Option.some.injEq]
    funext v; cases v <;> simp [MFieldTy.write]
  | array ty s =>
    simp only [Resolves] at hr
    simp only [tyOf, Ty.writeTo, hr, Option.some.injEq]
    funext v; cases v <;> simp [MFieldTy.write]
  | _ =>
    simp only [tyOf, Ty.writeTo, Option.some.injEq]
    funext v; cases v <;> simp [MFieldTy.write]

theorem codecOf_writeTo {f : MField} (hr : Resolves g paths f.ty)
    (hu : ∀ u on i, f.ty ≠ .union u on i) (env : Env) :
    (codecOf paths true f).writeTo g = some (f.write g.c env) := by
  obtain ⟨n, t, o, sz, e⟩ := f
  have := tyOf_writeTo (e := e) hr hu env
  simp only [MField.ty] at this
  cases o
  · simp only [codecOf, MField.optional, MField.ty, MField.endian, this, Bool.false_eq_true, if_false,
      Option.some.injEq]
    funext v; simp [MField.write]
  · simp only [codecOf, MField.optional, MField.ty, MField.endian, this, if_true, Ty.writeTo, Option.map,
      Option.some.injEq]
    funext v; cases v <;> simp [MField.write]

/-- What `?` makes of the result of an encoder. -/
def attemptOut (o : Out) : Run Val :=
  match o.res with
  | .ok () => ⟨o.chunks, .ok .unit⟩
  | .err e => ⟨o.chunks, .err (.ret (.err e))⟩
  | .panic => ⟨o.chunks, .panic⟩

theorem eval_tryOut (ρ : Locals) (e : Expr) (o : Out) (he : e.eval g ρ = encoded o) :
    (Expr.try e).eval g ρ = attemptOut o := by
  rw [Expr.eval, he]
  obtain ⟨cs, r⟩ := o
  cases r with
  | ok u => cases u; simp [encoded, attemptOut, Run.pure]
  | err e => simp [encoded, attemptOut]
  | panic => rfl

theorem inputE_eval {ρ : Locals} {env : Env} (hi : ρ.lookup (id "input") = some (.data (.msg env)))
    {x : Name} {v : Value} (hx : env.lookup x = some v) : (inputE x).eval g ρ = .pure (.data v) := by
  simp [inputE, Expr.eval, hi, hx]

/-- A union field is not optional, and the value called as its key is a structure. -/
def KeyValue (env : Env) (f : MField) : Prop :=
  match f.ty with
  | .union _ on _ => f.optional = false ∧ ∃ k, env.lookup on = some (.struct k)
  | _ => True

theorem encodeField_run {f : MField} {ρ : Locals} {env : Env} {v : Value} (hr : Resolves g paths f.ty)
    (hi : ρ.lookup (id "input") = some (.data (.msg env))) (ho : ρ.lookup (id "out") = some .writer)
    (hk : KeyValue env f) (hv : env.lookup f.name = some v) :
    (encodeField paths f).run g ρ = attemptOut (f.write g.c env v) >>= fun _ => .pure ρ := by
  have hout : outE.eval g ρ = .pure .writer := by simp [outE, Expr.eval, ho]
  by_cases hu : ∃ u on i, f.ty = .union u on i
  · obtain ⟨u, on, i, ht⟩ := hu
    unfold KeyValue at hk
    rw [ht] at hk hr
    obtain ⟨hopt, k, hkey⟩ := hk
    simp only [Resolves] at hr
    unfold encodeField
    simp only [ht]
    rw [Stmt.run, eval_tryOut (o := f.write g.c env v)]
    · rw [Expr.eval, inputE_eval hi hv, Run.bind_pure, inputE_eval hi hkey, Run.bind_pure, hout,
        Run.bind_pure]
      simp only [callThree, codecOf, hopt, ht, tyOf, Bool.false_eq_true, if_false, hr]
      obtain ⟨n, t, o, sz, e⟩ := f
      simp only [MField.ty] at ht
      simp only [MField.optional] at hopt
      subst ht hopt
      simp only [MField.write, Bool.false_eq_true, if_false, MFieldTy.write, union_write_single g.c u hkey]
    · intro e m a h; cases h
  · have hu' : ∀ u on i, f.ty ≠ .union u on i := fun u on i e => hu ⟨u, on, i, e⟩
    have hc : encodeField paths f =
        .expr (.try (.call2 (codecOf paths true f) .writeTo (inputE f.name) outE)) := by
      unfold encodeField
      split
      · next u on i e => exact absurd e (hu' u on i)
      · rfl
    rw [hc, Stmt.run, eval_tryOut (o := f.write g.c env v)]
    · rw [Expr.eval, inputE_eval hi hv, Run.bind_pure, hout, Run.bind_pure]
      simp only [callTwo, codecOf_writeTo hr hu' env, Run.get_some, Run.bind_pure]
    · intro e m a h; cases h

theorem encodeFields_run {fs : List MField} {ρ : Locals} {env vs : Env}
    (hr : ∀ f ∈ fs, Resolves g paths f.ty)
    (hi : ρ.lookup (id "input") = some (.data (.msg env))) (ho : ρ.lookup (id "out") = some .writer)
    (hk : ∀ f ∈ fs, KeyValue env f) (hnames : vs.map Prod.fst = fs.map MField.name)
    (hv : ∀ a ∈ vs, env.lookup a.1 = some a.2) :
    runAll g ρ (fs.map (encodeField paths)) =
      attemptOut (MField.writeList g.c fs env vs) >>= fun _ => .pure ρ := by
  induction fs generalizing vs with
  | nil => rfl
  | cons f fs ih =>
    cases vs with
    | nil => cases hnames
    | cons a vs =>
      obtain ⟨x, v⟩ := a
      simp only [List.map_cons, List.cons.injEq] at hnames
      obtain ⟨rfl, hnames⟩ := hnames
      have h1 := encodeField_run (hr f (by simp)) hi ho (hk f (by simp)) (hv _ (List.mem_cons_self ..))
      have h2 := ih (fun k hk => hr k (by simp [hk])) (fun k hm => hk k (by simp [hm])) hnames
        (fun a ha => hv a (by simp [ha]))
      simp only [List.map_cons, runAll, h1, h2, Run.bind_assoc, MField.writeList, Run.bind_pure]
      unfold attemptOut Out.andThen
      cases h : (f.write g.c env v).res with
      | ok u =>
        cases u
        cases h' : (MField.writeList g.c fs env vs).res <;> simp [Run.pure]
      | err e => simp
      | panic => simp

/-- The encoder of a message does what the model says. -/
theorem encoder_call {m : Message} {vs : Env} (hr : ∀ f ∈ m.fields, Resolves g paths f.ty)
    (hd : (m.fields.map MField.name).Nodup) (hnames : vs.map Prod.fst = m.fields.map MField.name)
    (hk : ∀ f ∈ m.fields, KeyValue vs f) :
    (encoder paths m).call g [(id "input", .data (.msg vs)), (id "out", .writer)] =
      encoded (m.write g.c (.msg vs)) := by
  obtain ⟨mid, n, fs, sz⟩ := m
  have hrun := encodeFields_run (g := g) (paths := paths)
    (ρ := [(id "input", .data (.msg vs)), (id "out", .writer)]) hr (env := vs) rfl rfl hk hnames
    (fun a ha => lookup_of_mem (by rw [hnames]; exact hd) ha)
  simp only [Message.fields] at hrun
  simp only [Body.call, encoder, Message.fields, runAll_append, hrun, Run.bind_assoc, runAll, Stmt.run,
    Run.bind_pure, Tail.run, Expr.eval, Message.write]
  simp only [attemptOut, encoded, Message.fields]
  obtain ⟨cs, r⟩ := MField.writeList g.c fs vs vs
  cases r with
  | ok u => cases u; simp only [Run.bind_mk_ok, Run.pure, List.append_nil]; rfl
  | err e => rfl
  | panic => rfl

end

end Proto.Rs
