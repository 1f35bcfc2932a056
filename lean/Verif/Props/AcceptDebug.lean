import Verif.Props.Accept

/-!
# C123: which descriptions are reported, and which crash a debug build

As in `Verif.Props.Accept`, the predicates in the namespace `Model` look only at declarations as they are
written.
-/

namespace Proto

namespace Model

/-- The bits of the structures `vs`, the last one first, in front of `sizes`. -/
def sizesOf : List (Name × Nat) → List Structure → List (Name × Nat)
  | sizes, [] => sizes
  | sizes, v :: vs => sizesOf ((v.name, (v.fields.map (declBits sizes)).sum) :: sizes) vs

/-- A scalar field can have its view: a declared enum on an unsigned one, a range or a multiplier on a float
one, and none except on floats that are not 32 or 64 bits wide. -/
def SField.Viewed (enums : List Enum) (f : SField) : Prop :=
  match f.view, f.info with
  | some (.enum n), .unsigned _ => ∃ e ∈ enums, e.name = n
  | some (.floatRange _ _), .float _ => True
  | some (.floatMultiplier _), .float _ => True
  | none, .float n => n = 32 ∨ n = 64
  | none, .unsigned _ => True
  | none, .signed _ => True
  | none, .boolean _ => True
  | _, _ => False

/-- A field at bit `last` overflows before anything else is wrong with it: the parameters of its view, its
width, or its end. -/
def SField.Overflows (enums : List Enum) (sizes : List (Name × Nat)) (last : Nat) (f : SField) : Prop :=
  ¬ NoShift f ∨
  match f.info with
  | .struct t => ∃ n, sizes.lookup t = some n ∧ 2 ^ 64 ≤ last + n
  | _ => f.Viewed enums ∧ (2 ^ 64 ≤ f.bits ∨
      WidthSupported f.info ∧ (1 < f.arrayLen.getD 1 → f.bits % 8 = 0) ∧ 2 ^ 64 ≤ last + f.bits)

/-- Structures a debug build takes. -/
def StructsFit (enums : List Enum) (vs : List Structure) : Prop :=
  (∀ older s newer, vs = older ++ s :: newer → ∀ f ∈ s.fields, f.Accepted enums older) ∧
  (∀ s ∈ vs, ∀ f ∈ s.fields, NoShift f) ∧ DeclFits [] vs

/-- A structure, declared after `older`, that takes a debug build down: the fields before one that overflows
are in order. -/
def Structure.Crashes (enums : List Enum) (older : List Structure) (s : Structure) : Prop :=
  ∃ pre f post, s.fields = pre ++ f :: post ∧ (∀ g ∈ pre, g.Accepted enums older ∧ NoShift g) ∧
    (pre.map (declBits (sizesOf [] older))).sum < 2 ^ 64 ∧
    f.Overflows enums (sizesOf [] older) (pre.map (declBits (sizesOf [] older))).sum

/-- A description is in order for a build of the compiler with overflow checks, or without. -/
def Protocol.AcceptedBy : Profile → Protocol → Prop
  | .wrapping, d => d.Accepted
  | .checked, d => d.Accepted ∧ (∀ s ∈ d.structs, ∀ f ∈ s.fields, NoShift f) ∧ DeclFits [] d.structs

/-- A description takes such a build of the compiler down. -/
def Protocol.CrashesIn : Profile → Protocol → Prop
  | .wrapping, d => (∀ e ∈ d.enums, e.variants ≠ []) ∧
    (∀ older s newer, d.structs = older ++ s :: newer → ∀ f ∈ s.fields, f.Accepted d.enums older) ∧
    ∃ older u newer, d.unions = older ++ u :: newer ∧ (∀ v ∈ older, v.Accepted d.enums d.structs) ∧
      u.Crashes d.structs
  | .checked, d => (∀ e ∈ d.enums, e.variants ≠ []) ∧
    ((∃ older s newer, d.structs = older ++ s :: newer ∧ StructsFit d.enums older ∧ s.Crashes d.enums older) ∨
      StructsFit d.enums d.structs ∧
      ∃ older u newer, d.unions = older ++ u :: newer ∧ (∀ v ∈ older, v.Accepted d.enums d.structs) ∧
        u.Crashes d.structs)

/-- The first of the descriptions that is not in order. -/
def FirstWrong (p : Profile) (ds : List Protocol) (d : Protocol) : Prop :=
  ∃ older newer, ds = older ++ d :: newer ∧ (∀ x ∈ older, x.AcceptedBy p) ∧ ¬ d.AcceptedBy p

end Model

theorem lookup_sizes (l : List (Name × Structure)) (t : Name) :
    (l.map fun x => (x.1, x.2.bitSize)).lookup t = (l.lookup t).map Structure.bitSize := by
  induction l with
  | nil => rfl
  | cons x l ih =>
    obtain ⟨a, b⟩ := x
    simp only [List.map_cons, List.lookup_cons, ih]
    cases (t == a) <;> rfl

theorem declBits_map (l : List (Name × Structure)) (f : Model.SField) :
    declBits (l.map fun x => (x.1, x.2.bitSize)) f = declWidth l f := by
  unfold declBits declWidth
  cases f.info <;> simp [lookup_sizes]

theorem declTotal_map (l : List (Name × Structure)) (fs : List Model.SField) :
    (fs.map (declBits (l.map fun x => (x.1, x.2.bitSize)))).sum = declTotal l fs := by
  unfold declTotal
  congr 1
  exact List.map_congr_left fun f _ => declBits_map l f

/-- The sizes that compiling leaves are the declared ones. -/
theorem sizes_out {vs : List Model.Structure} : ∀ {n next : Nat} {p2 p3 : Protocol},
    Protocol.addStructs .checked n p2 vs = .ok (p3, next) →
    p3.structsByName.map (fun x => (x.1, x.2.bitSize)) =
        Model.sizesOf (p2.structsByName.map fun x => (x.1, x.2.bitSize)) vs ∧
      p3.enumsByName = p2.enumsByName := by
  induction vs with
  | nil => intro n next p2 p3 h; cases h; exact ⟨rfl, rfl⟩
  | cons v vs ih =>
    intro n next p2 p3 h
    unfold Protocol.addStructs at h
    obtain ⟨S, hS, h⟩ := Res.bind_eq_ok.1 h
    obtain ⟨hn, _, hb, _⟩ := Props.C08_layout hS (.inl rfl)
    obtain ⟨h1, h2⟩ := ih h
    refine ⟨?_, h2⟩
    rw [h1]
    simp only [List.map_cons, Model.sizesOf, declTotal_map, hb, hn]

theorem viewed_iff {es : List Model.Enum} {cs : List Enum} (he : Placed Model.Enum.name Enum.name es cs)
    {v : Model.SField} : ViewFits (scope Enum.name cs []) v ↔ v.Viewed es := by
  unfold ViewFits Model.SField.Viewed
  rcases v.view with _ | w
  · cases v.info <;> rfl
  · cases w with
    | enum n =>
      cases v.info <;> try rfl
      exact lookup_isSome he
    | _ => cases v.info <;> rfl

theorem overflows_iff {es : List Model.Enum} {cs : List Enum} (he : Placed Model.Enum.name Enum.name es cs)
    {structs : List (Name × Structure)} {last : Nat} {v : Model.SField} :
    FieldOverflows structs (scope Enum.name cs []) last v ↔
      v.Overflows es (structs.map fun x => (x.1, x.2.bitSize)) last := by
  unfold FieldOverflows Model.SField.Overflows
  rw [viewed_iff he]
  unfold declWidth Model.SField.bits
  cases v.info with
  | struct t =>
    simp only [lookup_sizes]
    cases structs.lookup t <;> simp
  | _ => rfl

/-- When compiling a structure crashes a debug build. -/
theorem structure_crash {es : List Model.Enum} {cs : List Enum} (he : Placed Model.Enum.name Enum.name es cs)
    {older : List Model.Structure} {ss : List Structure} (hp : Placed Model.Structure.name Structure.name older ss)
    {proto : Protocol} {e : Endian} {id : Nat} {v : Model.Structure}
    (hs : proto.structsByName = scope Structure.name ss []) (hen : proto.enumsByName = scope Enum.name cs [])
    (hz : proto.structsByName.map (fun x => (x.1, x.2.bitSize)) = Model.sizesOf [] older) :
    Structure.fromModel .checked proto.structsByName proto.enumsByName e id v = .panic ↔ v.Crashes es older := by
  obtain ⟨name, fields⟩ := v
  rw [Props.C48_struct_panics]
  unfold Model.Structure.Crashes
  simp only [structure_debug, hen, overflows_iff he, ← declTotal_map, hz]
  rw [hs]
  simp only [taken_iff hp he, and_assoc]

namespace Props

/-- C123: a release build of the compiler reports an error exactly for the descriptions without imports that are
neither in order nor take it down. -/
theorem C123_report {sv : Resolver} {w : World} {d : Model.Protocol} (hi : d.imports = []) :
    (∃ e, Protocol.fromModel .wrapping sv w d = .err e) ↔ ¬ d.Accepted ∧
      ¬ ((∀ e ∈ d.enums, e.variants ≠ []) ∧
        (∀ older s newer, d.structs = older ++ s :: newer → ∀ f ∈ s.fields, f.Accepted d.enums older) ∧
        ∃ older u newer, d.unions = older ++ u :: newer ∧ (∀ v ∈ older, v.Accepted d.enums d.structs) ∧
          u.Crashes d.structs) := by
  rw [← C123_release (sv := sv) (w := w) hi, ← C123_crash (sv := sv) (w := w) hi]
  cases Protocol.fromModel .wrapping sv w d <;> simp

/-- C123: a debug build of the compiler crashes on a description without imports exactly if the enums are in
order, and then either some structures up to one with a field that overflows, or all structures, and some unions
up to one that takes it down. -/
theorem C123_debug_crash {sv : Resolver} {w : World} {d : Model.Protocol} (hi : d.imports = []) :
    Protocol.fromModel .checked sv w d = .panic ↔
      (∀ e ∈ d.enums, e.variants ≠ []) ∧
      ((∃ older s newer, d.structs = older ++ s :: newer ∧ Model.StructsFit d.enums older ∧
          s.Crashes d.enums older) ∨
        Model.StructsFit d.enums d.structs ∧
        ∃ older u newer, d.unions = older ++ u :: newer ∧ (∀ v ∈ older, v.Accepted d.enums d.structs) ∧
          u.Crashes d.structs) := by
  have fit : ∀ {cs : List Enum} {p2 : Protocol} {n : Nat}, EnumsOf d.enums cs → p2.structsByName = [] →
      p2.enumsByName = scope Enum.name cs [] → ∀ vs, ((∃ r, Protocol.addStructs .checked n p2 vs = .ok r) ↔
        Model.StructsFit d.enums vs) := by
    intro cs p2 n hc a1 a2 vs
    have := structs_debug hc.placed (vs := vs) (ds := []) (ss := []) (next := n) (proto := p2)
      ⟨rfl, fun j x y h => by simp at h⟩ a1 a2
    rw [this, a1]
    rfl
  rw [C48_protocol_panics, hi]
  constructor
  · rintro ⟨p1, p2, h1, h2, h⟩
    cases h1
    obtain ⟨cs, hc, a1, a2, a3, a4⟩ := enums_out h2
    refine ⟨enums_iff.1 ⟨_, h2⟩, ?_⟩
    rcases h with ⟨pre, x, post, p3, n3, e, h3, h⟩ | ⟨p3, n3, h3, pre, u, post, p4, e, h4, h5⟩
    · obtain ⟨ss, hst, b1, b2, b3⟩ := structs_out a1 a2 a3 a4 h3
      obtain ⟨z1, z2⟩ := sizes_out h3
      rw [a1] at z1
      exact .inl ⟨pre, x, post, e, (fit hc a1 a2 pre).1 ⟨_, h3⟩,
        (structure_crash hc.placed hst.placed b1 (z2.trans a2) z1).1 h⟩
    · obtain ⟨ss, hst, b1, b2, b3⟩ := structs_out a1 a2 a3 a4 h3
      refine .inr ⟨(fit hc a1 a2 _).1 ⟨_, h3⟩, pre, u, post, e, (unions_iff hc hst b2 b1).1 ⟨_, h4⟩, ?_⟩
      obtain ⟨Us, -, rfl, -⟩ := (C44_unions _ _ _).1 h4
      exact (union_crash hst (by exact b1)).1 h5
  · rintro ⟨he, h⟩
    obtain ⟨p2, h2⟩ := enums_iff.2 he
    obtain ⟨cs, hc, a1, a2, a3, a4⟩ := enums_out h2
    refine ⟨Protocol.empty d, p2, rfl, h2, ?_⟩
    rcases h with ⟨older, s, newer, e, h3, hcr⟩ | ⟨h3, older, u, newer, e, hu, hcr⟩
    · obtain ⟨⟨p3, next⟩, h3⟩ := (fit (n := w.next) hc a1 a2 _).2 h3
      obtain ⟨ss, hst, b1, b2, b3⟩ := structs_out a1 a2 a3 a4 h3
      obtain ⟨z1, z2⟩ := sizes_out h3
      rw [a1] at z1
      exact .inl ⟨older, s, newer, p3, next, e, h3,
        (structure_crash hc.placed hst.placed b1 (z2.trans a2) z1).2 hcr⟩
    · obtain ⟨⟨p3, next⟩, h3⟩ := (fit (n := w.next) hc a1 a2 _).2 h3
      obtain ⟨ss, hst, b1, b2, b3⟩ := structs_out a1 a2 a3 a4 h3
      obtain ⟨p4, h4⟩ := (unions_iff hc hst b2 b1).2 hu
      refine .inr ⟨p3, next, h3, older, u, newer, p4, e, h4, ?_⟩
      obtain ⟨Us, -, rfl, -⟩ := (C44_unions _ _ _).1 h4
      exact (union_crash hst (by exact b1)).2 hcr

/-- C123: and it reports an error exactly for those that it neither takes nor crashes on. -/
theorem C123_debug_report {sv : Resolver} {w : World} {d : Model.Protocol} (hi : d.imports = []) :
    (∃ e, Protocol.fromModel .checked sv w d = .err e) ↔
      ¬ (d.Accepted ∧ (∀ s ∈ d.structs, ∀ f ∈ s.fields, NoShift f) ∧ DeclFits [] d.structs) ∧
      ¬ ((∀ e ∈ d.enums, e.variants ≠ []) ∧
        ((∃ older s newer, d.structs = older ++ s :: newer ∧ Model.StructsFit d.enums older ∧
            s.Crashes d.enums older) ∨
          Model.StructsFit d.enums d.structs ∧
          ∃ older u newer, d.unions = older ++ u :: newer ∧ (∀ v ∈ older, v.Accepted d.enums d.structs) ∧
            u.Crashes d.structs)) := by
  rw [← C123_debug (sv := sv) (w := w) hi, ← C123_debug_crash (sv := sv) (w := w) hi]
  cases Protocol.fromModel .checked sv w d <;> simp

/-- What becomes of a description without imports. -/
theorem fromModel_outcome {p : Profile} {sv : Resolver} {w : World} {d : Model.Protocol} (hi : d.imports = []) :
    ((∃ r, Protocol.fromModel p sv w d = .ok r) ↔ d.AcceptedBy p) ∧
    (Protocol.fromModel p sv w d = .panic ↔ d.CrashesIn p) := by
  cases p with
  | wrapping => exact ⟨C123_release hi, C123_crash hi⟩
  | checked => exact ⟨C123_debug hi, C123_debug_crash hi⟩

theorem firstWrong_cons {p : Profile} {d : Model.Protocol} {ds : List Model.Protocol} {x : Model.Protocol} :
    Model.FirstWrong p (d :: ds) x ↔
      (x = d ∧ ¬ d.AcceptedBy p) ∨ (d.AcceptedBy p ∧ Model.FirstWrong p ds x) := by
  constructor
  · rintro ⟨older, newer, e, h1, h2⟩
    cases older with
    | nil => cases e; exact .inl ⟨rfl, h2⟩
    | cons y older =>
      cases e
      exact .inr ⟨h1 _ (by simp), older, newer, rfl, fun z hz => h1 z (by simp [hz]), h2⟩
  · rintro (⟨rfl, h⟩ | ⟨h0, older, newer, rfl, h1, h2⟩)
    · exact ⟨[], ds, rfl, by simp, h⟩
    · refine ⟨d :: older, newer, rfl, fun z hz => ?_, h2⟩
      rcases List.mem_cons.1 hz with rfl | hz
      · exact h0
      · exact h1 z hz

/-- What becomes of descriptions, one after the other: `f` compiles the first of them and `g` the others. -/
theorem outcome_cons {p : Profile} {d : Model.Protocol} {ds : List Model.Protocol} {α β : Type} {f : C α} {g : α → C β}
    (h0 : ((∃ r, f = .ok r) ↔ d.AcceptedBy p) ∧ (f = .panic ↔ d.CrashesIn p))
    (h : ∀ a, f = .ok a → ((∃ r, g a = .ok r) ↔ ∀ x ∈ ds, x.AcceptedBy p) ∧
      (g a = .panic ↔ ∃ x, Model.FirstWrong p ds x ∧ x.CrashesIn p)) :
    ((∃ r, f.bind g = .ok r) ↔ ∀ x ∈ d :: ds, x.AcceptedBy p) ∧
    (f.bind g = .panic ↔ ∃ x, Model.FirstWrong p (d :: ds) x ∧ x.CrashesIn p) := by
  obtain ⟨a1, a2⟩ := h0
  simp only [firstWrong_cons, List.mem_cons, forall_eq_or_imp]
  cases f with
  | ok a =>
    obtain ⟨b1, b2⟩ := h a rfl
    have ha := a1.1 ⟨a, rfl⟩
    have hp : ∀ x, (x = d ∧ ¬ d.AcceptedBy p ∨ d.AcceptedBy p ∧ Model.FirstWrong p ds x) ↔
        Model.FirstWrong p ds x := fun x => ⟨fun h => h.elim (fun h => absurd ha h.2) (·.2), fun h => .inr ⟨ha, h⟩⟩
    simp only [hp]
    exact ⟨b1.trans ⟨fun h => ⟨ha, h⟩, (·.2)⟩, b2⟩
  | err e =>
    have ha : ¬ d.AcceptedBy p := fun h => by obtain ⟨r, h⟩ := a1.2 h; cases h
    have hc : ¬ d.CrashesIn p := fun h => by cases a2.2 h
    refine ⟨⟨fun ⟨r, h⟩ => (by cases h), fun h => absurd h.1 ha⟩, ⟨fun h => (by cases h), ?_⟩⟩
    rintro ⟨x, ⟨rfl, -⟩ | ⟨h, -⟩, h'⟩
    · exact absurd h' hc
    · exact absurd h ha
  | panic =>
    have ha : ¬ d.AcceptedBy p := fun h => by obtain ⟨r, h⟩ := a1.2 h; cases h
    exact ⟨⟨fun ⟨r, h⟩ => (by cases h), fun h => absurd h.1 ha⟩, ⟨fun _ => ⟨d, .inl ⟨rfl, ha⟩, a2.1 rfl⟩, fun _ => rfl⟩⟩

/-- C123: descriptions without imports are taken together exactly if each is in order; otherwise the compiler
crashes or reports an error as it does for the first that is not, of those that are imported and then of the
others.  This holds of both builds. -/
theorem C123_builds {p : Profile} {l : Loader} {solver : SimpleImportSolver} {w : World}
    (hi : ∀ x ∈ l.importedModels, x.2.imports = []) (hm : ∀ d ∈ l.models, d.imports = []) :
    ((∃ r, l.compile p solver w = .ok r) ↔ ∀ d ∈ l.importedModels.map Prod.snd ++ l.models, d.AcceptedBy p) ∧
    (l.compile p solver w = .panic ↔
      ∃ d, Model.FirstWrong p (l.importedModels.map Prod.snd ++ l.models) d ∧ d.CrashesIn p) ∧
    ((∃ e, l.compile p solver w = .err e) ↔
      ∃ d, Model.FirstWrong p (l.importedModels.map Prod.snd ++ l.models) d ∧ ¬ d.CrashesIn p) := by
  obtain ⟨models, imported⟩ := l
  simp only at hi hm ⊢
  have none : ∀ x, ¬ Model.FirstWrong p [] x := by
    rintro x ⟨older, newer, e, -⟩
    simp at e
  have key : ∀ (sv : Resolver) (ds : List Model.Protocol) (w : World), (∀ d ∈ ds, d.imports = []) →
      ((∃ r, Loader.compileModels p sv w ds = .ok r) ↔ ∀ d ∈ ds, d.AcceptedBy p) ∧
      (Loader.compileModels p sv w ds = .panic ↔ ∃ x, Model.FirstWrong p ds x ∧ x.CrashesIn p) := by
    intro sv ds
    induction ds with
    | nil =>
      intro w _
      exact ⟨⟨fun _ => by simp, fun _ => ⟨_, rfl⟩⟩, fun h => (by cases h), fun ⟨x, h, _⟩ => absurd h (none x)⟩
    | cons d ds ih =>
      intro w hd
      unfold Loader.compileModels
      refine outcome_cons (fromModel_outcome (hd d (by simp))) fun a _ => ?_
      obtain ⟨i1, i2⟩ := ih a.2 fun x hx => hd x (by simp [hx])
      rw [← i1, ← i2]
      obtain ⟨proto, w'⟩ := a
      simp only
      cases Loader.compileModels p sv w' ds <;> simp
  have main : ((∃ r, Loader.compile p ⟨models, imported⟩ solver w = .ok r) ↔
        ∀ d ∈ imported.map Prod.snd ++ models, d.AcceptedBy p) ∧
      (Loader.compile p ⟨models, imported⟩ solver w = .panic ↔
        ∃ d, Model.FirstWrong p (imported.map Prod.snd ++ models) d ∧ d.CrashesIn p) := by
    induction imported generalizing solver w with
    | nil => exact key _ _ _ hm
    | cons x xs ih =>
      obtain ⟨path, d⟩ := x
      have := outcome_cons (ds := xs.map Prod.snd ++ models) (g := fun a : Protocol × World =>
          Loader.compile p ⟨models, xs⟩ (solver.register path a.1) a.2)
        (fromModel_outcome (p := p) (sv := solver.resolver) (w := w) (hi (path, d) (by simp)))
        fun a _ => ih fun x hx => hi x (by simp [hx])
      have e : Loader.compile p ⟨models, (path, d) :: xs⟩ solver w =
          (Protocol.fromModel p solver.resolver w d).bind fun a =>
            Loader.compile p ⟨models, xs⟩ (solver.register path a.1) a.2 := by
        simp only [Loader.compile, Loader.compileImports]
        cases Protocol.fromModel p solver.resolver w d <;> rfl
      rw [e]
      exact this
  refine ⟨main.1, main.2, ?_⟩
  have first : ∀ ds : List Model.Protocol, (¬ ∀ d ∈ ds, d.AcceptedBy p) → ∃ d, Model.FirstWrong p ds d := by
    intro ds
    induction ds with
    | nil => intro h; exact absurd (by simp) h
    | cons d ds ih =>
      intro h
      by_cases hd : d.AcceptedBy p
      · obtain ⟨x, hx⟩ := ih fun h' => h (by simpa [hd] using h')
        exact ⟨x, firstWrong_cons.2 (.inr ⟨hd, hx⟩)⟩
      · exact ⟨d, firstWrong_cons.2 (.inl ⟨rfl, hd⟩)⟩
  have one : ∀ (ds : List Model.Protocol) x y, Model.FirstWrong p ds x → Model.FirstWrong p ds y → x = y := by
    intro ds
    induction ds with
    | nil => intro x y h; exact absurd h (none x)
    | cons d ds ih =>
      intro x y hx hy
      rcases firstWrong_cons.1 hx with ⟨rfl, h1⟩ | ⟨h1, h2⟩ <;> rcases firstWrong_cons.1 hy with ⟨h3, h4⟩ | ⟨h3, h4⟩
      · exact h3.symm
      · exact absurd h3 h1
      · exact absurd h1 h4
      · exact ih x y h2 h4
  obtain ⟨m1, m2⟩ := main
  constructor
  · rintro ⟨e, h⟩
    obtain ⟨d, hd⟩ := first _ fun ha => by
      obtain ⟨r, hr⟩ := m1.2 ha
      rw [h] at hr
      cases hr
    refine ⟨d, hd, fun hc => ?_⟩
    have := m2.2 ⟨d, hd, hc⟩
    rw [h] at this
    cases this
  · rintro ⟨d, hd, hc⟩
    cases h : Loader.compile p ⟨models, imported⟩ solver w with
    | ok r =>
      obtain ⟨older, newer, e, -, hn⟩ := hd
      exact absurd (m1.1 ⟨r, h⟩ d (by rw [e]; simp)) hn
    | err e => exact ⟨e, rfl⟩
    | panic =>
      obtain ⟨y, hy, hyc⟩ := m2.1 h
      exact absurd (one _ _ _ hd hy ▸ hyc) hc

namespace Ex

/-- Two halves that are each in order, and make more than `2^64 - 1` bits. -/
def halves : Model.Protocol where
  name := "p".toList
  structs := [⟨"Half".toList, [⟨"x".toList, .boolean (2 ^ 63), none, none⟩]⟩,
    ⟨"Both".toList, [⟨"a".toList, .struct "Half".toList, none, none⟩, ⟨"b".toList, .struct "Half".toList, none, none⟩]⟩]

theorem half_fits : Model.StructsFit [] [⟨"Half".toList, [⟨"x".toList, .boolean (2 ^ 63), none, none⟩]⟩] := by
  refine ⟨fun older s newer h f hf => ?_, fun s hs f hf => ?_, by decide, trivial⟩
  · match older, h with
    | [], h =>
      cases h
      cases List.mem_singleton.1 hf
      exact ⟨rfl, fun h => absurd h (by decide)⟩
    | _ :: [], h => cases h
    | _ :: _ :: _, h => cases h
  · cases List.mem_singleton.1 hs
    cases List.mem_singleton.1 hf
    exact ⟨fun n h => (by cases h), fun n _ _ h => (by cases h)⟩

end Ex

/-- The second half takes a debug build down, -/
example (sv : Resolver) (w : World) : Protocol.fromModel .checked sv w Ex.halves = .panic := by
  rw [C123_debug_crash rfl]
  refine ⟨by simp [Ex.halves], .inl ⟨_, _, [], rfl, Ex.half_fits, [_], _, [], rfl, ?_, by decide, .inr ?_⟩⟩
  · intro g hg
    cases List.mem_singleton.1 hg
    exact ⟨⟨_, List.mem_singleton.2 rfl, rfl⟩, fun n h => (by cases h), fun n _ _ h => (by cases h)⟩
  · exact ⟨2 ^ 63, rfl, by decide⟩

/-- and a signed number of 65 bits does, which a release build reports; -/
example (sv : Resolver) (w : World) (d : Model.Protocol) (hd : d = { name := "p".toList, structs :=
    [⟨"S".toList, [⟨"x".toList, .signed 65, none, none⟩]⟩] }) :
    Protocol.fromModel .checked sv w d = .panic ∧ ∃ e, Protocol.fromModel .wrapping sv w d = .err e := by
  subst hd
  constructor
  · rw [C123_debug_crash rfl]
    refine ⟨by simp, .inl ⟨[], _, [], rfl, ⟨fun older s newer h => by simp at h, by simp, trivial⟩, [], _, [], rfl,
      by simp, by decide, .inl fun h => ?_⟩⟩
    exact absurd (h.1 65 rfl rfl).2 (by decide)
  · rw [C123_report rfl]
    have hn : ¬ ∀ older s newer, [(⟨"S".toList, [⟨"x".toList, .signed 65, none, none⟩]⟩ : Model.Structure)] =
        older ++ s :: newer → ∀ f ∈ s.fields, f.Accepted [] older := fun h =>
      absurd (h [] _ [] rfl _ (List.mem_singleton.2 rfl)).2.1 (by decide)
    exact ⟨fun h => hn h.2.1, fun h => hn h.2.1⟩

/-- while both report an enum without variants. -/
example (sv : Resolver) (w : World) : ∃ e, Protocol.fromModel .checked sv w
    { name := "p".toList, enums := [⟨"E".toList, []⟩] } = .err e := by
  rw [C123_debug_report rfl]
  have hn : ¬ ∀ e ∈ [(⟨"E".toList, []⟩ : Model.Enum)], e.variants ≠ [] := fun h =>
    h _ (List.mem_singleton.2 rfl) rfl
  exact ⟨fun h => hn h.1.1, fun h => hn h.1⟩

namespace Ex

def zero : Model.Protocol := { name := "z".toList, enums := [⟨"E".toList, []⟩] }

theorem halves_crash : halves.CrashesIn .checked := by
  refine ⟨by simp [halves], .inl ⟨_, _, [], rfl, half_fits, [_], _, [], rfl, ?_, by decide, .inr ?_⟩⟩
  · intro g hg
    cases List.mem_singleton.1 hg
    exact ⟨⟨_, List.mem_singleton.2 rfl, rfl⟩, fun n h => (by cases h), fun n _ _ h => (by cases h)⟩
  · exact ⟨2 ^ 63, rfl, by decide⟩

theorem halves_wrong : ¬ halves.AcceptedBy .checked := fun h => by
  have h1 := (fromModel_outcome (sv := .none) (w := ⟨0, []⟩) rfl).2.2 halves_crash
  obtain ⟨r, h2⟩ := (fromModel_outcome (sv := .none) (w := ⟨0, []⟩) rfl).1.2 h
  rw [h1] at h2
  cases h2

theorem zero_wrong : ¬ ∀ e ∈ zero.enums, e.variants ≠ [] := fun h => h _ (List.mem_singleton.2 rfl) rfl

end Ex

/-- Of two descriptions that are not in order the first decides: a crash, -/
example (solver : SimpleImportSolver) (w : World) :
    Loader.compile .checked ⟨[Ex.halves, Ex.zero], []⟩ solver w = .panic :=
  (C123_builds (by simp) (by simp [Ex.halves, Ex.zero])).2.1.2
    ⟨Ex.halves, ⟨[], [Ex.zero], rfl, by simp, Ex.halves_wrong⟩, Ex.halves_crash⟩

/-- or an error. -/
example (solver : SimpleImportSolver) (w : World) :
    ∃ e, Loader.compile .checked ⟨[Ex.halves], [("z".toList, Ex.zero)]⟩ solver w = .err e :=
  (C123_builds (by simp [Ex.zero]) (by simp [Ex.halves])).2.2.2
    ⟨Ex.zero, ⟨[], [Ex.halves], rfl, by simp, fun h => Ex.zero_wrong h.1.1⟩, fun h => Ex.zero_wrong h.1⟩

end Props

end Proto
