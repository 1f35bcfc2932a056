import Verif.Lang.Run
import Verif.Gen.OffsetLemmas

/-!
# What the generated decoder with offsets does
-/

namespace Proto.Rs

/-- Whether a field refers to a message. -/
def MField.isMessage (f : MField) : Bool :=
  match f.ty with
  | .ref (.message _) => true
  | _ => false

/-- The fields of the offsets struct declared for a field; `d` is the default of nested offsets. -/
def declared (d : MField → Val) (f : MField) : List (Name × Val) :=
  (f.name, .range ⟨0, 0⟩) :: (if MField.isMessage f then [(offVar f, d f)] else [])

/-- The offsets struct as a value. -/
def offRecord (offs : OffEnv) : List (Name × Val) :=
  offs.flatMap fun a => (a.1, .range a.2.1) ::
    (match a.2.2 with
    | .unit => []
    | o => [(suffixed a.1 "_offsets", .nested o)])

/-- Offsets as a value. -/
def offVal : Offsets → Val
  | .msg fs => .record (offRecord fs)
  | o => .nested o

theorem update_append {f : Name} {h : Val → Option Val} {done rest : List (Name × Val)} {x y : Val}
    (hd : f ∉ done.map Prod.fst) (hx : h x = some y) :
    update f h (done ++ (f, x) :: rest) = some (done ++ (f, y) :: rest) := by
  induction done with
  | nil => simp [update, hx]
  | cons a done ih =>
    obtain ⟨z, w⟩ := a
    simp only [List.map_cons, List.mem_cons, not_or] at hd
    simp [update, hd.1, ih hd.2]

section
variable {g : Globals} {paths : List (Name × Name)}

theorem store_run {ρ : Locals} {x f : Name} {h : Val → Option Val} {done rest : List (Name × Val)}
    {u y : Val} (hl : ρ.lookup x = some (.record (done ++ (f, u) :: rest)))
    (hd : f ∉ done.map Prod.fst) (hx : h u = some y) :
    store ρ x f h = .pure (assign x (.record (done ++ (f, y) :: rest)) ρ) := by
  simp [store, hl, update_append hd hx]

/-- The type of a message reference decodes with offsets. -/
theorem codecOf_fromSliceWithOffsets {emb : Bool} {f : MField} (hr : Resolves g paths f.ty)
    (hm : MField.isMessage f = true) (env : Env) :
    (codecOf paths emb f).fromSliceWithOffsets g = some (f.parseOff g.c emb env) := by
  obtain ⟨n, t, o, sz, e⟩ := f
  unfold MField.isMessage at hm
  split at hm
  · next m ht =>
    simp only [MField.ty] at ht
    subst ht
    simp only [MField.ty, Resolves] at hr
    cases o <;> simp [codecOf, tyOf, Ty.fromSliceWithOffsets, MField.optional, MField.ty, hr,
      MField.parseOff]
  · cases hm

/-- A field that is no message reference has no nested offsets. -/
theorem parseOff_other {c : Ctx} {emb : Bool} {f : MField} (hm : MField.isMessage f = false) (env : Env) :
    f.parseOff c emb env = (f.parse c emb env).map fun v => (v, .unit) := by
  obtain ⟨n, t, o, sz, e⟩ := f
  cases t with
  | ref r =>
    cases r with
    | message m => simp [MField.isMessage, MField.ty] at hm
    | struct s => rfl
  | _ => rfl

theorem nested_ne_unit {c : Ctx} {emb : Bool} {f : MField} (hm : MField.isMessage f = true) {env : Env}
    {b : Bytes} {r : Msg (Value × Offsets)} (h : f.parseOff c emb env b = .ok r) : r.data.2 ≠ .unit := by
  obtain ⟨n, t, o, sz, e⟩ := f
  unfold MField.isMessage at hm
  split at hm
  · next m ht =>
    simp only [MField.ty] at ht
    subst ht
    obtain ⟨k, v, w⟩ := r
    cases o
    · simp only [MField.parseOff, Bool.false_eq_true, if_false] at h
      obtain ⟨vs, offs, _, rfl, _⟩ := Message.parseOff_eq_ok.mp h
      simp
    · simp only [MField.parseOff, if_true] at h
      obtain ⟨x, _, hx⟩ := Parser.map_eq_ok.mp h
      obtain ⟨x1, x2⟩ := x
      simp only [Prod.mk.injEq] at hx
      rw [hx.2]
      cases x2 <;> simp [Offsets.ofOption]
  · cases hm

theorem offVar_ne {f : MField} {s : String} (h : ¬ "_offsets".toList <:+ s.toList) : offVar f ≠ id s := by
  intro e
  exact h ⟨f.name, e⟩

theorem offVar_ne_msgVar (f : MField) : offVar f ≠ msgVar f := by
  intro e
  simp only [offVar, msgVar, suffixed, List.append_cancel_left_eq] at e
  exact absurd e (by decide)

/-- The variables the decoder with offsets needs. -/
structure HoldsOff (ρ : Locals) (env : Env) (off : Nat) (r : List (Name × Val)) : Prop where
  holds : Holds ρ env off
  record : ρ.lookup (id "offsets") = some (.record r)

/-- The three statements recording the range of a field. -/
theorem range_run {f : MField} {ρ : Locals} {off n : Nat} {x : Val} {done rest : List (Name × Val)}
    {r : FieldOffset} (hmsg : ρ.lookup (msgVar f) = some (.sized n x))
    (ho : ρ.lookup (id "byte_offset") = some (.usize off))
    (hrec : ρ.lookup (id "offsets") = some (.record (done ++ (f.name, .range r) :: rest)))
    (hd : f.name ∉ done.map Prod.fst) (hn : off + n < 2 ^ 64) :
    ∃ ρ', runAll g ρ
      [ .setRange (id "offsets") f.name true (.var (id "byte_offset")),
        .add (id "byte_offset") (.method (.var (msgVar f)) (id "size")),
        .setRange (id "offsets") f.name false (.var (id "byte_offset")) ] = .pure ρ' ∧
      ρ'.lookup (id "byte_offset") = some (.usize (off + n)) ∧
      ρ'.lookup (id "offsets") = some (.record (done ++ (f.name, .range ⟨off, off + n⟩) :: rest)) ∧
      ∀ y, y ≠ id "byte_offset" → y ≠ id "offsets" → ρ'.lookup y = ρ.lookup y := by
  have ho1 : (assign (id "offsets") (.record (done ++ (f.name, .range ⟨off, r.stop⟩) :: rest)) ρ).lookup
      (id "byte_offset") = some (.usize off) := by
    rw [lookup_assign_ne _ (by decide)]; exact ho
  have hr1 : (assign (id "offsets") (.record (done ++ (f.name, .range ⟨off, r.stop⟩) :: rest)) ρ).lookup
      (id "offsets") = some (.record (done ++ (f.name, .range ⟨off, r.stop⟩) :: rest)) :=
    lookup_assign_eq _ hrec
  have hm1 : (assign (id "offsets") (.record (done ++ (f.name, .range ⟨off, r.stop⟩) :: rest)) ρ).lookup
      (msgVar f) = some (.sized n x) := by
    rw [lookup_assign_ne _ (msgVar_ne (by decide))]; exact hmsg
  have hr2 : (assign (id "byte_offset") (.usize (off + n))
      (assign (id "offsets") (.record (done ++ (f.name, .range ⟨off, r.stop⟩) :: rest)) ρ)).lookup
      (id "offsets") = some (.record (done ++ (f.name, .range ⟨off, r.stop⟩) :: rest)) := by
    rw [lookup_assign_ne _ (by decide)]; exact hr1
  have ho2 : (assign (id "byte_offset") (.usize (off + n))
      (assign (id "offsets") (.record (done ++ (f.name, .range ⟨off, r.stop⟩) :: rest)) ρ)).lookup
      (id "byte_offset") = some (.usize (off + n)) := lookup_assign_eq _ ho1
  refine ⟨_, ?_, ?_, lookup_assign_eq (.record (done ++ (f.name, .range ⟨off, off + n⟩) :: rest)) hr2, ?_⟩
  · simp only [runAll, Stmt.run, Expr.eval, ho, Run.get_some, Run.bind_pure]
    rw [store_run (y := .range ⟨off, r.stop⟩) hrec hd rfl]
    have hsz := size_eval (g := g) hm1
    rw [Expr.eval] at hsz
    simp only [Run.bind_pure, Expr.eval, hm1, Run.get_some, ho1] at hsz ⊢
    rw [hsz]
    simp only [Run.bind_pure, addU_ok g.c.p (show off + n < 2 ^ usizeBits by unfold usizeBits; exact hn),
      lift_ok, ho2, Run.get_some]
    rw [store_run (y := .range ⟨off, off + n⟩) hr2 hd rfl]
    rfl
  · rw [lookup_assign_ne _ (by decide)]; exact ho2
  · intro y h1 h2
    rw [lookup_assign_ne _ h2, lookup_assign_ne _ h1, lookup_assign_ne _ h2]

theorem offRecord_append (a b : OffEnv) : offRecord (a ++ b) = offRecord a ++ offRecord b := by
  simp [offRecord]

theorem offRecord_plain (x : Name) (r : FieldOffset) : offRecord [(x, r, .unit)] = [(x, .range r)] := rfl

theorem offRecord_nested (x : Name) (r : FieldOffset) {o : Offsets} (h : o ≠ .unit) :
    offRecord [(x, r, o)] = [(x, .range r), (suffixed x "_offsets", .nested o)] := by
  cases o <;> first | exact absurd rfl h | rfl

theorem holds_snoc {ρ ρ' : Locals} {env : Env} {off off' : Nat} {f : MField} {v : Value} (h : Holds ρ env off)
    (ho : ρ'.lookup (id "byte_offset") = some (.usize off'))
    (hv : ρ'.lookup f.name = some (.data v))
    (hold : ∀ x w, env.lookup x = some w → ρ'.lookup x = ρ.lookup x) :
    Holds ρ' (env ++ [(f.name, v)]) off' := by
  refine ⟨ho, fun x w hx => ?_⟩
  rw [List.lookup_append] at hx
  cases hxe : env.lookup x with
  | some u =>
    rw [hxe] at hx
    cases hx
    rw [hold x w hxe]
    exact h.env x w hxe
  | none =>
    rw [hxe] at hx
    by_cases hn : x = f.name
    · subst hn
      simp at hx
      rw [hv, hx]
    · simp only [Option.none_or, List.lookup_cons, show (x == f.name) = false by simp [hn],
        List.lookup_nil, reduceCtorEq] at hx

theorem decodeFieldOff_run {emb : Bool} {f : MField} {ρ : Locals} {env : Env} {b : Bytes} {off : Nat}
    {before : List MField} {d : MField → Val} {offs : OffEnv} {rest : List (Name × Val)}
    (hr : Resolves g paths f.ty) (hk : KeyHeld before f) (hal : Aligned before env)
    (hs : ρ.lookup (id "slice") = some (.data (.buf b)))
    (h : HoldsOff ρ env off (offRecord offs ++ (declared d f ++ rest))) (hle : off ≤ b.length)
    (hb : b.length < 2 ^ 64) (hoff : f.name ≠ id "byte_offset") (hofs : f.name ≠ id "offsets")
    (hdone : f.name ∉ (offRecord offs).map Prod.fst ∧
      (MField.isMessage f = true → offVar f ∉ (offRecord offs).map Prod.fst))
    (hnew : ∀ x v, env.lookup x = some v → x ≠ f.name ∧ x ≠ msgVar f ∧
      (MField.isMessage f = true → x ≠ offVar f)) :
    match f.parseOff g.c emb env (b.drop off) with
    | .ok msg => ∃ ρ', runAll g ρ (decodeFieldOff paths emb f) = .pure ρ' ∧
        (f.name ≠ id "slice" → ρ'.lookup (id "slice") = some (.data (.buf b))) ∧
        HoldsOff ρ' (env ++ [(f.name, msg.data.1)]) (off + msg.size)
          (offRecord (offs ++ [(f.name, ⟨off, off + msg.size⟩, msg.data.2)]) ++ rest)
    | .err e => runAll g ρ (decodeFieldOff paths emb f) = ⟨[], .err (.ret (.err e))⟩
    | .panic => runAll g ρ (decodeFieldOff paths emb f) = .panic := by
  have hrest := restE_eval (g := g) hs h.holds.offset hle
  have hold : ∀ x v, env.lookup x = some v → x ≠ id "byte_offset" ∧ x ≠ id "offsets" := by
    intro x v hx
    have := h.holds.env x v hx
    refine ⟨fun e => ?_, fun e => ?_⟩
    · rw [e, h.holds.offset] at this; cases this
    · rw [e, h.record] at this; cases this
  have mlook : ∀ (v : Val) {s : String}, ¬ "_msg".toList <:+ s.toList →
      List.lookup (id s) ((msgVar f, v) :: ρ) = ρ.lookup (id s) := fun v s hs' =>
    lookup_cons_ne _ (Ne.symm (msgVar_ne hs'))
  cases hm : MField.isMessage f with
  | false =>
    rw [parseOff_other hm env]
    have hcall := callOf_eval (emb := emb) hr hk hal hs h.holds hle
    have hstmts : decodeFieldOff paths emb f =
      .let (msgVar f) (callOf paths emb f) ::
      ([ .setRange (id "offsets") f.name true (.var (id "byte_offset")),
        .add (id "byte_offset") (.method (.var (msgVar f)) (id "size")),
        .setRange (id "offsets") f.name false (.var (id "byte_offset"))] ++
        [ .let f.name (.method (.var (msgVar f)) (id "into_inner")) ]) := by
      unfold decodeFieldOff
      split
      · next m ht => simp [MField.isMessage, ht] at hm
      · rfl
    rw [hstmts]
    cases hp : f.parse g.c emb env (b.drop off) with
    | err e => simp only [Parser.map, hp, Res.bind, runAll, Stmt.run, hcall, attempt]; rfl
    | panic => simp only [Parser.map, hp, Res.bind, runAll, Stmt.run, hcall, attempt]; rfl
    | ok msg =>
      have hsz : off + msg.size ≤ b.length := by
        have := (MField.cut g.c emb f env _ _ _ hp).1
        simp at this; omega
      obtain ⟨ρ2, hrun, ho2, hr2, hsame⟩ := range_run (g := g) (f := f)
        (ρ := (msgVar f, .sized msg.size (.data msg.data)) :: ρ) (off := off) (n := msg.size)
        (x := .data msg.data) (done := offRecord offs) (rest := rest) (r := ⟨0, 0⟩) (lookup_cons_eq _ _)
        (by rw [mlook _ (by decide)]; exact h.holds.offset)
        (by rw [mlook _ (by decide), h.record]; simp [declared, hm]) hdone.1 (by omega)
      simp only [Parser.map, hp, Res.bind, Msg.map]
      refine ⟨(f.name, .data msg.data) :: ρ2, ?_, ?_, ?_, ?_⟩
      · rw [runAll, Stmt.run, hcall, hp, attempt]
        simp only [Run.bind_pure]
        rw [runAll_append, hrun]
        simp only [Run.bind_pure, runAll, Stmt.run]
        rw [intoInner_eval (n := msg.size) (v := .data msg.data)]
        · rfl
        · rw [hsame _ (msgVar_ne (by decide)) (msgVar_ne (by decide)), lookup_cons_eq]
      · intro hn
        rw [lookup_cons_ne _ (Ne.symm hn), hsame _ (by decide) (by decide), mlook _ (by decide)]
        exact hs
      · refine holds_snoc h.holds ?_ (lookup_cons_eq _ _) ?_
        · rw [lookup_cons_ne _ (Ne.symm hoff)]; exact ho2
        · intro x w hx
          obtain ⟨h1, h2⟩ := hold x w hx
          obtain ⟨h3, h4, _⟩ := hnew x w hx
          rw [lookup_cons_ne _ h3, hsame x h1 h2, lookup_cons_ne _ h4]
      · rw [lookup_cons_ne _ (Ne.symm hofs), hr2, offRecord_append, offRecord_plain]
        simp
  | true =>
    have hstmts : decodeFieldOff paths emb f =
      .let (msgVar f) (.try (.call1 (codecOf paths emb f) .fromSliceWithOffsets restE)) ::
      ([ .setRange (id "offsets") f.name true (.var (id "byte_offset")),
        .add (id "byte_offset") (.method (.var (msgVar f)) (id "size")),
        .setRange (id "offsets") f.name false (.var (id "byte_offset"))] ++
        [ .letPair f.name (offVar f) (.method (.var (msgVar f)) (id "into_inner")),
          .set (id "offsets") (offVar f) (.var (offVar f)) ]) := by
      unfold decodeFieldOff
      unfold MField.isMessage at hm
      split at hm
      · next m ht => simp only [ht]; rfl
      · cases hm
    rw [hstmts]
    have hcall : (Expr.try (.call1 (codecOf paths emb f) .fromSliceWithOffsets restE)).eval g ρ =
        attempt (fun r : Value × Offsets => .pair (.data r.1) (.nested r.2))
          (f.parseOff g.c emb env (b.drop off)) := by
      apply eval_try
      rw [Expr.eval, hrest]
      simp only [Run.bind_pure, callOne, codecOf_fromSliceWithOffsets hr hm env, Run.get_some]
    cases hp : f.parseOff g.c emb env (b.drop off) with
    | err e => simp only [runAll, Stmt.run, hcall, hp, attempt]; rfl
    | panic => simp only [runAll, Stmt.run, hcall, hp, attempt]; rfl
    | ok msg =>
      have hsz : off + msg.size ≤ b.length := by
        have := (MField.parseOff_cut g.c emb f env _ _ _ hp).1
        simp at this; omega
      have hunit := nested_ne_unit hm hp
      obtain ⟨size, v, o⟩ := msg
      simp only at hsz hunit ⊢
      obtain ⟨ρ2, hrun, ho2, hr2, hsame⟩ := range_run (g := g) (f := f)
        (ρ := (msgVar f, .sized size (.pair (.data v) (.nested o))) :: ρ) (off := off) (n := size)
        (x := .pair (.data v) (.nested o)) (done := offRecord offs) (rest := (offVar f, d f) :: rest)
        (r := ⟨0, 0⟩) (lookup_cons_eq _ _)
        (by rw [mlook _ (by decide)]; exact h.holds.offset)
        (by rw [mlook _ (by decide), h.record]; simp [declared, hm]) hdone.1 (by omega)
      have hname : f.name ≠ offVar f := Ne.symm (suffixed_ne _ (by decide))
      have hr3 : List.lookup (id "offsets") ((offVar f, .nested o) :: (f.name, .data v) :: ρ2) =
          some (.record ((offRecord offs ++ [(f.name, .range ⟨off, off + size⟩)]) ++
            (offVar f, d f) :: rest)) := by
        rw [lookup_cons_ne _ (Ne.symm (offVar_ne (by decide))), lookup_cons_ne _ (Ne.symm hofs), hr2]
        simp
      refine ⟨assign (id "offsets") (.record ((offRecord offs ++ [(f.name, .range ⟨off, off + size⟩)]) ++
            (offVar f, .nested o) :: rest)) ((offVar f, .nested o) :: (f.name, .data v) :: ρ2), ?_, ?_, ?_, ?_⟩
      · rw [runAll, Stmt.run, hcall, hp, attempt]
        simp only [Run.bind_pure]
        rw [runAll_append, hrun]
        simp only [Run.bind_pure, runAll, Stmt.run]
        rw [intoInner_eval (n := size) (v := .pair (.data v) (.nested o))]
        · simp only [Run.bind_pure, if_neg hname, Expr.eval, lookup_cons_eq, Run.get_some]
          rw [store_run (y := .nested o) hr3 ?_ rfl]
          · rfl
          · simp only [List.map_append, List.map_cons, List.map_nil, List.mem_append, List.mem_singleton,
              not_or]
            exact ⟨hdone.2 hm, Ne.symm hname⟩
        · rw [hsame _ (msgVar_ne (by decide)) (msgVar_ne (by decide)), lookup_cons_eq]
      · intro hn
        rw [lookup_assign_ne _ (by decide), lookup_cons_ne _ (Ne.symm (offVar_ne (by decide))),
          lookup_cons_ne _ (Ne.symm hn), hsame _ (by decide) (by decide), mlook _ (by decide)]
        exact hs
      · refine holds_snoc h.holds ?_ ?_ ?_
        · rw [lookup_assign_ne _ (by decide), lookup_cons_ne _ (Ne.symm (offVar_ne (by decide))),
            lookup_cons_ne _ (Ne.symm hoff)]
          exact ho2
        · rw [lookup_assign_ne _ hofs, lookup_cons_ne _ hname, lookup_cons_eq]
        · intro x w hx
          obtain ⟨h1, h2⟩ := hold x w hx
          obtain ⟨h3, h4, h5⟩ := hnew x w hx
          rw [lookup_assign_ne _ h2, lookup_cons_ne _ (h5 hm), lookup_cons_ne _ h3, hsame x h1 h2,
            lookup_cons_ne _ h4]
      · rw [lookup_assign_eq _ hr3, offRecord_append, offRecord_nested _ _ hunit]
        simp [offVar]

/-! ## All fields -/

/-- The names of the fields of the offsets struct. -/
def offNames (fs : List MField) : List Name :=
  fs.flatMap fun f => f.name :: (if MField.isMessage f then [offVar f] else [])

/-- The names do not collide in the decoder with offsets: as for the decoder, and none is `offsets`, and
the fields of the offsets struct are distinct. -/
structure HygienicOff (fs : List MField) : Prop where
  base : Hygienic fs
  offsets : ∀ f ∈ fs, f.name ≠ id "offsets"
  struct : (offNames fs).Nodup

theorem declared_names (d : MField → Val) (fs : List MField) :
    (fs.flatMap (declared d)).map Prod.fst = offNames fs := by
  induction fs with
  | nil => rfl
  | cons f fs ih =>
    simp only [List.flatMap_cons, List.map_append, ih, offNames]
    congr 1
    unfold declared
    split <;> rfl

/-- The names recorded for a decoded field are those declared for it. -/
theorem offRecord_names {c : Ctx} {emb : Bool} {f : MField} {env : Env} {b : Bytes} {x : FieldOffset}
    {r : Msg (Value × Offsets)} (h : f.parseOff c emb env b = .ok r) :
    (offRecord [(f.name, x, r.data.2)]).map Prod.fst = offNames [f] := by
  cases hm : MField.isMessage f with
  | true => rw [offRecord_nested _ _ (nested_ne_unit hm h)]; simp [offNames, hm, offVar]
  | false =>
    rw [parseOff_other hm] at h
    obtain ⟨x, _, hx⟩ := Parser.map_eq_ok.mp h
    rw [hx, offRecord_plain]
    simp [offNames, hm]

theorem decodeFieldsOff_run {emb : Bool} {d : MField → Val} {fs before : List MField} {ρ : Locals} {env : Env}
    {b : Bytes} {off : Nat} {offs : OffEnv} (hr : ∀ f ∈ fs, Resolves g paths f.ty)
    (hk : ∀ pre f post, fs = pre ++ f :: post → KeyHeld (before ++ pre) f) (hal : Aligned before env)
    (hh : HygienicOff (before ++ fs)) (hnames : (offRecord offs).map Prod.fst = offNames before)
    (hs : fs ≠ [] → ρ.lookup (id "slice") = some (.data (.buf b)))
    (h : HoldsOff ρ env off (offRecord offs ++ fs.flatMap (declared d)))
    (hle : off ≤ b.length) (hb : b.length < 2 ^ 64) :
    match MField.parseOffList g.c emb fs env offs off b with
    | .ok r => ∃ ρ', runAll g ρ (fs.flatMap (decodeFieldOff paths emb)) = .pure ρ' ∧
        HoldsOff ρ' r.2.1 r.1 (offRecord r.2.2) ∧ Aligned (before ++ fs) r.2.1
    | .err e => runAll g ρ (fs.flatMap (decodeFieldOff paths emb)) = ⟨[], .err (.ret (.err e))⟩
    | .panic => runAll g ρ (fs.flatMap (decodeFieldOff paths emb)) = .panic := by
  induction fs generalizing before ρ env off offs with
  | nil => exact ⟨ρ, rfl, by simpa using h, by simpa using hal⟩
  | cons f fs ih =>
    have hstruct := hh.struct
    have hcut : offNames (before ++ f :: fs) = offNames before ++ (offNames [f] ++ offNames fs) := by
      simp [offNames]
    rw [hcut, List.nodup_append] at hstruct
    have hnotin : ∀ x ∈ offNames [f], x ∉ offNames before := fun x hx hb' =>
      hstruct.2.2 x hb' x (by simp [hx]) rfl
    have hstep := decodeFieldOff_run (emb := emb) (d := d) (offs := offs) (rest := fs.flatMap (declared d))
      (hr f (by simp)) (by simpa using hk [] f fs rfl) hal
      (hs (by simp)) (by simpa using h) hle hb (hh.base.offset f (by simp)) (hh.offsets f (by simp))
      (by
        rw [hnames]
        exact ⟨hnotin _ (by simp [offNames]), fun hm => hnotin _ (by simp [offNames, hm])⟩)
      (fun x v hx => by
        obtain ⟨h1, h2⟩ := hygienic_new hh.base hal hx
        refine ⟨h1, h2, fun hm e => hnotin (offVar f) (by simp [offNames, hm]) ?_⟩
        have hmem := mem_names_of_lookup hx
        rw [Aligned.names hal, List.mem_map] at hmem
        obtain ⟨k, hk', rfl⟩ := hmem
        rw [← e]
        simp only [offNames, List.mem_flatMap]
        exact ⟨k, hk', by simp⟩)
    simp only [MField.parseOffList, dropFrom_ok hle, Res.bind_ok, List.flatMap_cons]
    cases hp : f.parseOff g.c emb env (b.drop off) with
    | err e =>
      simp only [hp] at hstep
      rw [runAll_append, hstep]; rfl
    | panic =>
      simp only [hp] at hstep
      rw [runAll_append, hstep]; rfl
    | ok msg =>
      simp only [hp] at hstep
      obtain ⟨ρ1, hrun, hslice, hholds⟩ := hstep
      have hsz := (MField.parseOff_cut g.c emb f env _ _ _ hp).1
      simp at hsz
      have hal' : Aligned (before ++ [f]) (env ++ [(f.name, msg.data.1)]) := by
        refine hal.snoc (fun ho s hty => ?_)
        have hm : MField.isMessage f = false := by simp [MField.isMessage, hty]
        rw [parseOff_other hm] at hp
        obtain ⟨x, hp, hx⟩ := Parser.map_eq_ok.mp hp
        rw [hx]
        obtain ⟨n, ty, o, sz, e⟩ := f
        simp only [MField.optional] at ho
        simp only [MField.ty] at hty
        subst ho hty
        simp only [MField.parse, Bool.false_eq_true, if_false, MFieldTy.parse, Referenced.parse] at hp
        obtain ⟨h1, h2, h3⟩ := Structure.parse_eq_ok.mp hp
        exact ⟨_, h3, by rw [List.length_take]; omega⟩
      have := ih (before := before ++ [f]) (ρ := ρ1) (fun k hk => hr k (by simp [hk]))
        (fun pre k post heq => by
          have := hk (f :: pre) k post (by rw [heq]; rfl)
          simpa using this) hal' (by simpa using hh)
        (by rw [offRecord_append, List.map_append, hnames, offRecord_names hp]; simp [offNames])
        (fun hne => hslice (hh.base.slice before f fs rfl hne)) hholds (by omega)
      rw [runAll_append, hrun]
      simpa using this

/-- Running the generated decoder with offsets is decoding the message with offsets. -/
theorem offsetsDecoder_call {m : Message} {b : Bytes} {d : MField → Val}
    (hr : ∀ f ∈ m.fields, Resolves g paths f.ty)
    (hk : ∀ pre f post, m.fields = pre ++ f :: post → KeyHeld pre f) (hh : HygienicOff m.fields)
    (hname : g.name = m.name) (hf : g.fields = m.fields.map MField.name)
    (ho : g.offsets = m.fields.flatMap (declared d)) (hb : b.length < 2 ^ 64) :
    (offsetsDecoder paths (g.c.emb m.id) m).call g [(id "slice", .data (.buf b))] =
      decoded (fun r => .pair (.data r.1) (offVal r.2)) (m.parseOff g.c b) := by
  obtain ⟨mid, n, fs, sz⟩ := m
  have hrun := decodeFieldsOff_run (g := g) (paths := paths) (emb := g.c.emb mid) (before := []) (d := d)
    (ρ := [(id "byte_offset", .usize 0), (id "offsets", .record g.offsets), (id "slice", .data (.buf b))])
    (env := []) (off := 0) (b := b) (offs := []) hr (by simpa using hk) .nil (by simpa using hh) rfl
    (fun _ => rfl) ⟨⟨rfl, fun x v hx => by cases hx⟩, by rw [ho]; rfl⟩ (by omega) hb
  have hdup : (g.offsets.map Prod.fst).Nodup := by rw [ho, declared_names]; exact hh.struct
  simp only [Message.fields] at hrun
  simp only [Body.call, offsetsDecoder, List.cons_append, runAll, Stmt.run, Expr.eval, Run.bind_pure,
    runAll_append, Message.parseOff, Message.fields, Message.id, Message.name, if_pos hdup]
  cases hp : MField.parseOffList g.c (g.c.emb mid) fs [] [] 0 b with
  | err e =>
    simp only [hp] at hrun
    rw [hrun]; rfl
  | panic =>
    simp only [hp] at hrun
    rw [hrun]; rfl
  | ok r =>
    simp only [hp] at hrun
    obtain ⟨ρ', hrun, hholds, hal⟩ := hrun
    have hnames := Aligned.names hal
    simp only [List.nil_append] at hnames
    have hd : (r.2.1.map Prod.fst).Nodup := by rw [hnames]; exact hh.base.distinct
    have hrec := record_eval (g := g) (n := n) hholds.holds.env hd hname (by rw [hnames]; exact hf)
    rw [hrun]
    simp only [Run.bind_pure, ← hnames, Tail.run]
    rw [Expr.eval] at hrec
    rw [hrec]
    simp only [Run.bind_pure, Expr.eval, lookup_cons_eq, Run.get_some]
    rw [lookup_cons_ne _ (by decide), hholds.holds.offset, lookup_cons_ne _ (by decide), hholds.record]
    rfl

end

end Proto.Rs
