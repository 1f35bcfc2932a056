import Verif.Props.Fixtures
import Verif.Props.Input

/-!
# C89: the same descriptions generate the same code

The variants of an enum are read into a `HashMap`, which each run of the build script iterates in
another order.
-/

namespace Proto.Fix

open Proto.Input Proto.Spec.Input Props Props.Input

/-- The same reader in a run that iterates its maps in another order. -/
def rehashed (s : Serde) (o : List (Name × Nat) → List (Name × Nat)) (ho : ∀ l, (o l).Perm l) :
    Serde := { s with order := o, order_perm := ho }

/-- Equal loaders, but for the order of enum variants. -/
def SameModels (l l' : Loader) : Prop :=
  List.Forall₂ Same l.models l'.models ∧
  List.Forall₂ (fun a b => a.1 = b.1 ∧ Same a.2 b.2) l.importedModels l'.importedModels

/-- No two variants of an enum have the same value. -/
def ValuesDistinct (m : Model.Protocol) : Prop := ∀ e ∈ m.enums, (e.variants.map Prod.snd).Nodup

/-- The same in all the models of a loader. -/
def AllDistinct (l : Loader) : Prop :=
  (∀ m ∈ l.models, ValuesDistinct m) ∧ ∀ m ∈ l.importedModels, ValuesDistinct m.2

/-! ## Reading -/

section
variable {s : Serde} {o : List (Name × Nat) → List (Name × Nat)} {ho : ∀ l, (o l).Perm l}

theorem same_symm {a b : Model.Protocol} (h : Same a b) : Same b a := by
  obtain ⟨h1, h2, h3, h4, h5, h6, h7⟩ := h
  refine ⟨h1.symm, h2.symm, h3.symm, h4.symm, h5.symm, ?_, h7.symm⟩
  generalize a.enums = x at h6
  generalize b.enums = y at h6
  induction h6 with
  | nil => exact .nil
  | cons h _ ih => exact .cons ⟨h.1.symm, h.2.symm⟩ ih

theorem protocol_rehashed {j : Json} {m : Model.Protocol} (h : protocol s j = some m) :
    ∃ m', protocol (rehashed s o ho) j = some m' ∧ Same m m' := by
  obtain ⟨m', h1, h2⟩ := protocol_complete
    (show IsProtocol (rehashed s o ho) j m from protocol_sound (s := s) h)
  exact ⟨m', h1, same_symm h2⟩

theorem model_rehashed {fs : Files} {path : Name} {m : Model.Protocol} (h : model s fs path = .ok m) :
    ∃ m', model (rehashed s o ho) fs path = .ok m' ∧ Same m m' := by
  unfold model at h ⊢
  cases hr : fs.read path with
  | none => rw [hr] at h; cases h
  | some content =>
    rw [hr] at h
    cases hj : fs.json5 content with
    | none => simp [hj] at h
    | some j =>
      simp only [hj, Option.bind_some] at h ⊢
      cases hp : protocol s j with
      | none => rw [hp] at h; cases h
      | some m0 =>
        rw [hp] at h
        cases h
        obtain ⟨m', h1, h2⟩ := protocol_rehashed (o := o) (ho := ho) hp
        exact ⟨m', by rw [h1], h2⟩

theorem model_err {s : Serde} {fs : Files} {path : Name} {e : LoadError}
    (h : model s fs path = .err e) : model (rehashed s o ho) fs path = .err e := by
  unfold model at h ⊢
  cases hr : fs.read path with
  | none => rw [hr] at h; exact h
  | some content =>
    rw [hr] at h
    cases hj : fs.json5 content with
    | none => simpa [hj] using h
    | some j =>
      simp only [hj, Option.bind_some] at h ⊢
      cases hp : protocol s j with
      | some m0 => rw [hp] at h; cases h
      | none =>
        rw [hp] at h
        have : protocol (rehashed s o ho) j = none :=
          (C71_refused _ j).2 ((C71_refused s j).1 hp)
        rw [this]
        exact h

theorem model_panic {s : Serde} {fs : Files} {path : Name} : model s fs path ≠ .panic := by
  unfold model
  split
  · simp
  · split <;> simp

theorem forall₂_snoc {α β : Type} {R : α → β → Prop} {xs : List α} {ys : List β} {x : α} {y : β}
    (h : List.Forall₂ R xs ys) (hx : R x y) : List.Forall₂ R (xs ++ [x]) (ys ++ [y]) := by
  induction h with
  | nil => exact .cons hx .nil
  | cons h _ ih => exact .cons h ih

theorem run_rehashed {fs : Files} (cs : List Call) {l l' : Loader} (hl : SameModels l l') :
    (∀ r, run s fs l cs = .ok r → ∃ r', run (rehashed s o ho) fs l' cs = .ok r' ∧ SameModels r r') ∧
    (∀ e, run s fs l cs = .err e → run (rehashed s o ho) fs l' cs = .err e) ∧
    run s fs l cs ≠ .panic := by
  induction cs generalizing l l' with
  | nil =>
    refine ⟨fun r h => ?_, fun e h => ?_, fun h => ?_⟩
    · cases h; exact ⟨l', rfl, hl⟩
    · cases h
    · cases h
  | cons c cs ih =>
    cases c with
    | load path =>
      simp only [run, load]
      cases hm : model s fs path.toList with
      | panic => exact absurd hm model_panic
      | err e0 =>
        rw [model_err hm]
        simp
      | ok m =>
        obtain ⟨m', h1, h2⟩ := model_rehashed (o := o) (ho := ho) hm
        rw [h1]
        simp only [Res.bind_ok, Res.pure_eq]
        exact ih ⟨forall₂_snoc hl.1 h2, hl.2⟩
    | «import» path ip =>
      simp only [run, import']
      cases hm : model s fs path.toList with
      | panic => exact absurd hm model_panic
      | err e0 =>
        rw [model_err hm]
        simp
      | ok m =>
        obtain ⟨m', h1, h2⟩ := model_rehashed (o := o) (ho := ho) hm
        rw [h1]
        simp only [Res.bind_ok, Res.pure_eq]
        exact ih ⟨hl.1, forall₂_snoc hl.2 ⟨rfl, h2⟩⟩

/-- C89: whether a sequence of calls loads, with which error it fails, and what it loads but for the
order of enum variants, do not depend on the order in which maps are iterated. -/
theorem C89_loads (s : Serde) (o : List (Name × Nat) → List (Name × Nat)) (ho : ∀ l, (o l).Perm l)
    (fs : Files) (calls : List Call) :
    (∃ l l', run s fs Loader.new calls = .ok l ∧ run (rehashed s o ho) fs Loader.new calls = .ok l' ∧
      SameModels l l') ∨
    ∃ e, run s fs Loader.new calls = .err e ∧ run (rehashed s o ho) fs Loader.new calls = .err e := by
  obtain ⟨h1, h2, h3⟩ := run_rehashed (s := s) (o := o) (ho := ho) (fs := fs) calls
    (l := Loader.new) (l' := Loader.new) ⟨.nil, .nil⟩
  cases h : run s fs Loader.new calls with
  | ok l =>
    obtain ⟨l', h4, h5⟩ := h1 l h
    exact .inl ⟨l, l', rfl, h4, h5⟩
  | err e => exact .inr ⟨e, rfl, h2 e h⟩
  | panic => exact absurd h h3

end

/-! ## Compiling -/

theorem fromModel_same {p : Profile} {solver : Resolver} {w : World} {a b : Model.Protocol}
    (h : Same a b) (hd : ValuesDistinct a) :
    Protocol.fromModel p solver w a = Protocol.fromModel p solver w b := by
  have he : b.enums.map Enum.fromModel = a.enums.map Enum.fromModel := by
    have h6 := h.2.2.2.2.2.1
    unfold ValuesDistinct at hd
    generalize a.enums = x at h6 hd
    generalize b.enums = y at h6
    induction h6 with
    | nil => rfl
    | @cons e e' x y h _ ih =>
      obtain ⟨n, vs⟩ := e
      obtain ⟨n', vs'⟩ := e'
      obtain ⟨hn, hp⟩ := h
      simp only at hn hp
      subst hn
      simp only [List.map_cons, ih fun e he => hd e (List.mem_cons_of_mem _ he),
        C46_order hp (hd _ List.mem_cons_self)]
  rw [fromModel_eq _ rfl, fromModel_eq _ he]
  obtain ⟨n, e, i, s, m, en, u⟩ := a
  obtain ⟨n', e', i', s', m', en', u'⟩ := b
  obtain ⟨h1, h2, h3, h4, h5, _, h7⟩ := h
  simp only at h1 h2 h3 h4 h5 h7
  subst h1 h2 h3 h4 h5 h7
  rfl

/-- C89: when no two variants of an enum have the same value, compilation, in each profile and with
each import solver, does not depend on the order of the variants: the same protocols or the same
error. -/
theorem C89_compiles {l l' : Loader} (h : SameModels l l') (hd : AllDistinct l) (p : Profile)
    (solver : SimpleImportSolver) (w : World) : l.compile p solver w = l'.compile p solver w := by
  have hi : Loader.compileImports p solver w l.importedModels =
      Loader.compileImports p solver w l'.importedModels := by
    have h2 := h.2
    have hd2 := hd.2
    generalize l.importedModels = x at h2 hd2
    generalize l'.importedModels = y at h2
    induction h2 generalizing solver w with
    | nil => rfl
    | @cons a b x y hab _ ih =>
      obtain ⟨na, a⟩ := a
      obtain ⟨nb, b⟩ := b
      obtain ⟨hn, hab⟩ := hab
      simp only at hn
      subst hn
      simp only [Loader.compileImports, fromModel_same hab (hd2 _ List.mem_cons_self),
        ih _ _ fun m hm => hd2 m (List.mem_cons_of_mem _ hm)]
  have hm (r : Resolver) (w : World) : Loader.compileModels p r w l.models =
      Loader.compileModels p r w l'.models := by
    have h1 := h.1
    have hd1 := hd.1
    generalize l.models = x at h1 hd1
    generalize l'.models = y at h1
    induction h1 generalizing w with
    | nil => rfl
    | @cons a b x y hab _ ih =>
      simp only [Loader.compileModels, fromModel_same hab (hd1 _ List.mem_cons_self),
        ih _ (fun m hm => hd1 m (List.mem_cons_of_mem _ hm))]
  simp only [Loader.compile, hi, hm]

/-- C89: when no two variants of an enum have the same value, two runs of a build script on the same
files do the same: the same calls on the file system with the same contents, the same lines printed,
the same panic.  The generator is any function of the protocols. -/
theorem C89_reproducible (s : Serde) (o : List (Name × Nat) → List (Name × Nat))
    (ho : ∀ l, (o l).Perm l) (fs : Files) (calls : List Call) (l : Loader)
    (h : run s fs Loader.new calls = .ok l) (hd : AllDistinct l) :
    ∃ l', run (rehashed s o ho) fs Loader.new calls = .ok l' ∧
      ∀ (p : Profile) (g : Generator) (disk : Fs) (configure : Protoc → Protoc) (out : Option Bytes),
        generateRust p g disk (some l') configure out = generateRust p g disk (some l) configure out := by
  rcases C89_loads s o ho fs calls with ⟨l1, l', h1, h2, h3⟩ | ⟨e, h1, _⟩
  · rw [h] at h1
    cases h1
    refine ⟨l', h2, fun p g disk configure out => ?_⟩
    simp only [generateRust, C89_compiles h3 hd]
  · rw [h] at h1
    cases h1

/-! ## Equal values -/

theorem repeated {l : List (Name × Nat)} (h : ¬ (l.map Prod.snd).Nodup) :
    ∃ a b rest, l.Perm (a :: b :: rest) ∧ a.2 = b.2 := by
  induction l with
  | nil => exact absurd List.nodup_nil h
  | cons x xs ih =>
    by_cases hx : x.2 ∈ xs.map Prod.snd
    · obtain ⟨y, hy, hxy⟩ := List.mem_map.1 hx
      exact ⟨x, y, xs.erase y, (List.perm_cons_erase hy).cons x, hxy.symm⟩
    · have : ¬ (xs.map Prod.snd).Nodup := fun hn => h (by simpa using ⟨by simpa using hx, hn⟩)
      obtain ⟨a, b, rest, hp, hab⟩ := ih this
      exact ⟨a, b, x :: rest, (hp.cons x).trans
        ((List.Perm.swap a x _).trans (((List.Perm.swap b x rest)).cons a)), hab⟩

theorem both_orders {α : Type} {a b : α} {l : List α} (hn : l.Nodup) (h1 : [a, b].Sublist l)
    (h2 : [b, a].Sublist l) : False := by
  induction l with
  | nil => cases h1
  | cons x xs ih =>
    rw [List.nodup_cons] at hn
    cases h1 with
    | cons _ h1 =>
      cases h2 with
      | cons _ h2 => exact ih hn.2 h1 h2
      | cons_cons _ h2 => exact hn.1 (h1.subset (by simp))
    | cons_cons _ h1 =>
      cases h2 with
      | cons _ h2 => exact hn.1 (h2.subset (by simp))
      | cons_cons _ h2 => exact hn.1 (h1.subset (by simp))

/-- C89: an enum compiles to the same thing in all orders exactly when its values are distinct. -/
theorem C89_ties (n : Name) {l : List (Name × Nat)} (hn : (l.map Prod.fst).Nodup) :
    (∀ l', l.Perm l' → Enum.fromModel ⟨n, l'⟩ = Enum.fromModel ⟨n, l⟩) ↔ (l.map Prod.snd).Nodup := by
  constructor
  · intro h
    by_cases hv : (l.map Prod.snd).Nodup
    · exact hv
    · obtain ⟨a, b, rest, hp, hab⟩ := repeated hv
      have hne : a :: b :: rest ≠ [] := by simp
      have e1 := h _ hp
      have e2 := h _ (hp.trans (.swap b a rest))
      have e3 := e1.trans e2.symm
      obtain ⟨e, he⟩ := (C46_zero ⟨n, a :: b :: rest⟩).2 hne
      have e4 := e3.symm.trans he
      have v1 : e.variants = (a :: b :: rest).mergeSort (fun a b => a.2 ≤ b.2) := by
        unfold Enum.fromModel at he
        obtain ⟨_, _, he⟩ := Res.bind_eq_ok.1 he
        cases he
        rfl
      have v2 : e.variants = (b :: a :: rest).mergeSort (fun a b => a.2 ≤ b.2) := by
        unfold Enum.fromModel at e4
        obtain ⟨_, _, he⟩ := Res.bind_eq_ok.1 e4
        cases he
        rfl
      have tr : ∀ (a b c : Name × Nat), decide (a.2 ≤ b.2) → decide (b.2 ≤ c.2) → decide (a.2 ≤ c.2) := by
        intro a b c h1 h2
        simp only [decide_eq_true_eq] at *
        omega
      have tt : ∀ (a b : Name × Nat), (decide (a.2 ≤ b.2) || decide (b.2 ≤ a.2)) = true := by
        intro a b
        simp only [Bool.or_eq_true, decide_eq_true_eq]
        omega
      have s1 : [a, b].Sublist e.variants := v1 ▸ List.pair_sublist_mergeSort tr tt
        (by simp [hab]) (.cons_cons _ (.cons_cons _ (List.nil_sublist _)))
      have s2 : [b, a].Sublist e.variants := v2 ▸ List.pair_sublist_mergeSort tr tt
        (by simp [hab]) (.cons_cons _ (.cons_cons _ (List.nil_sublist _)))
      have hnd : e.variants.Nodup := by
        have := C46_enum he
        have hl : l.Nodup := List.Nodup.of_map _ hn
        exact (this.2.1.trans hp.symm).nodup_iff.2 hl
      exact (both_orders hnd s1 s2).elim
  · intro hv l' hp
    exact (C46_order hp hv).symm

example : Enum.fromModel ⟨['E'], [(['B'], 1), (['A'], 0)]⟩ =
    Enum.fromModel ⟨['E'], [(['A'], 0), (['B'], 1)]⟩ :=
  (C89_ties ['E'] (l := [(['A'], 0), (['B'], 1)]) (by decide)).2 (by decide) _ (.swap ..)

example : ∃ l', [(['A'], 1), (['B'], 1)].Perm l' ∧
    Enum.fromModel ⟨['E'], l'⟩ ≠ Enum.fromModel ⟨['E'], [(['A'], 1), (['B'], 1)]⟩ := by
  apply Classical.byContradiction
  intro h
  have h := (C89_ties ['E'] (l := [(['A'], 1), (['B'], 1)]) (by decide)).1 fun l' hl =>
    Classical.byContradiction fun hne => h ⟨l', hl, hne⟩
  exact absurd h (by decide)

/-! ## A concrete case: the test program -/

section
variable {s : Serde} {fs : Files} (h : OnDisk fs)
include h

/-- C89: the three builds of the test program do the same in every run. -/
theorem C89_testprog (o : List (Name × Nat) → List (Name × Nat)) (ho : ∀ l, (o l).Perm l) :
    ∀ calls ∈ [firstCalls, secondCalls, thirdCalls],
      ∃ l l', run s fs Loader.new calls = .ok l ∧ run (rehashed s o ho) fs Loader.new calls = .ok l' ∧
        ∀ (p : Profile) (g : Generator) (disk : Fs) (configure : Protoc → Protoc) (out : Option Bytes),
          generateRust p g disk (some l') configure out =
            generateRust p g disk (some l) configure out := by
  have d1 : ValuesDistinct (reordered enumsM (s.order typeVariants)) := by
    intro e he
    simp only [reordered, enumsM, List.map_cons, List.map_nil, List.mem_singleton] at he
    subst he
    exact (((s.order_perm _).map _).nodup_iff).2 (by decide)
  have d2 : ValuesDistinct (reordered unions2M (s.order testVariants)) := by
    intro e he
    simp only [reordered, unions2M, List.map_cons, List.map_nil, List.mem_singleton] at he
    subst he
    exact (((s.order_perm _).map _).nodup_iff).2 (by decide)
  have d0 {m : Model.Protocol} (hm : m.enums = []) : ValuesDistinct m := by
    intro e he
    rw [hm] at he
    cases he
  intro calls hc
  simp only [List.mem_cons, List.not_mem_nil, or_false] at hc
  rcases hc with rfl | rfl | rfl
  · obtain ⟨l', h1, h2⟩ := C89_reproducible s o ho fs _ _ (first_loads h)
      ⟨by simpa using ⟨d0 rfl, d0 rfl, d0 rfl, d0 rfl, d0 rfl, d0 rfl, d1, d0 rfl, d2, d0 rfl⟩, by simp⟩
    exact ⟨_, l', first_loads h, h1, h2⟩
  · obtain ⟨l', h1, h2⟩ := C89_reproducible s o ho fs _ _ (second_loads h)
      ⟨by simpa using d0 rfl, by simpa using ⟨d1, d0 rfl⟩⟩
    exact ⟨_, l', second_loads h, h1, h2⟩
  · obtain ⟨l', h1, h2⟩ := C89_reproducible s o ho fs _ _ (third_loads h)
      ⟨by simpa using d0 rfl, by simpa using ⟨d1, d0 rfl, d0 rfl⟩⟩
    exact ⟨_, l', third_loads h, h1, h2⟩

end

/-! ## Without the hypothesis -/

/-- Every build does the same in every run. -/
def C89_full : Prop :=
  ∀ (s : Serde) (o : List (Name × Nat) → List (Name × Nat)) (ho : ∀ l, (o l).Perm l) (fs : Files)
    (calls : List Call) (l l' : Loader), run s fs Loader.new calls = .ok l →
    run (rehashed s o ho) fs Loader.new calls = .ok l' →
    ∀ (p : Profile) (lib : Lib) (emb : Nat → Bool) (disk : Fs) (configure : Protoc → Protoc)
      (out : Option Bytes),
      generateRust p (Rust.generator lib p emb) disk (some l') configure out =
        generateRust p (Rust.generator lib p emb) disk (some l) configure out

namespace Ties

/-- `{name: "p", enums: [{name: "E", variants: {A: 1, B: 1}}]}`. -/
def json : Json :=
  .obj [("name".toList, .str "p".toList),
    ("enums".toList, .arr [.obj [("name".toList, .str "E".toList),
      ("variants".toList, .obj [("A".toList, .num 1), ("B".toList, .num 1)])]])]

/-- The model read from it. -/
def m : Model.Protocol :=
  { name := "p".toList, endianness := none, imports := [], structs := [], messages := [],
    enums := [⟨"E".toList, [("A".toList, 1), ("B".toList, 1)]⟩], unions := [] }

/-- Files that all hold it. -/
def files : Files := ⟨fun _ => some [], fun _ => some json⟩

/-- The protocol compiled from it, the variants being tried in the given order. -/
def proto (l : List (Name × Nat)) : Protocol :=
  { (Protocol.empty m) with enumsByName := [("E".toList, ⟨"E".toList, 1, l⟩)]
                            enums := [⟨"E".toList, 1, l⟩] }

theorem reads (s : Serde) : protocol s json =
    some (reordered m (s.order [("A".toList, 1), ("B".toList, 1)])) := protocol_below s _ _ (by krfl)

theorem loads (s : Serde) : run s files Loader.new [.load "p.json5"] =
    .ok ⟨[reordered m (s.order [("A".toList, 1), ("B".toList, 1)])], []⟩ := by
  simp only [run, load, model, files, Option.bind_some, reads, Res.bind_ok, Res.pure_eq]
  rfl

theorem compiles {a b : Name} (p : Profile) :
    Loader.compile p ⟨[reordered m [(a, 1), (b, 1)]], []⟩ SimpleImportSolver.default ⟨0, []⟩ =
      .ok ([proto [(a, 1), (b, 1)]], ⟨0, []⟩) := by
  have he : Enum.fromModel ⟨"E".toList, [(a, 1), (b, 1)]⟩ = .ok ⟨"E".toList, 1, [(a, 1), (b, 1)]⟩ := by
    unfold Enum.fromModel
    rw [List.mergeSort_of_pairwise]
    · rfl
    · simp
  have hm (r : Resolver) : Protocol.fromModel p r ⟨0, []⟩ (reordered m [(a, 1), (b, 1)]) =
      .ok (proto [(a, 1), (b, 1)], ⟨0, []⟩) := by
    rw [fromModel_eq [.ok ⟨"E".toList, 1, [(a, 1), (b, 1)]⟩]
      (show (reordered m [(a, 1), (b, 1)]).enums.map _ = _ from congrArg (fun x => [x]) he)]
    rfl
  exact models_cons (hm _) rfl

/-- A disk that allows everything. -/
def disk : Fs := fun _ _ => true

theorem writes {p : Profile} {lib : Lib} {emb : Nat → Bool} {l : Loader} {vs : List (Name × Nat)} {w : World}
    (h : l.compile p SimpleImportSolver.default ⟨0, []⟩ = .ok ([proto vs], w))
    (hl : 1 < (Text.enumText ⟨"E".toList, 1, vs⟩).length) :
    (generateRust p (Rust.generator lib p emb) disk (some l) id (some [])).1[1]? =
      some (.write (Path.join (Path.join [] b!"p") b!"enums.rs") (Text.enumText ⟨"E".toList, 1, vs⟩)) := by
  have hg := C52_files lib p emb (proto vs) (fun _ => ([], none)) (by intro s hs; cases hs)
    (by intro u hu; cases hu) (by intro m hm; cases hm)
  obtain ⟨t, ht⟩ := generateRust_total (lib := lib) (emb := emb) (fs := disk) (out := [])
    (configure := id) h rfl (by intro q hq; rw [List.mem_singleton.1 hq]; exact ⟨_, hg⟩)
    (fun _ _ _ => rfl)
  rw [ht]
  obtain ⟨loader, protos, w', out, reported, h1, h2, h3, h4, _⟩ := (C63_prints ..).1 ht
  cases h1
  cases h2
  rw [h] at h3
  cases h3
  rw [C57_all] at h4
  obtain ⟨ops, rfl, hp⟩ := h4
  cases hp with
  | cons there e _ _ rest =>
    cases rest
    cases e
    simp only [Drv.plan, hg, Drv.nonTrivial, Text.files]
    have : (proto vs).enums = [⟨"E".toList, 1, vs⟩] := rfl
    rw [this]
    simp [Text.spaced, proto, Protocol.empty, m, disk, Protoc.enabled, Protoc.new]
    rw [List.filter_cons_of_pos (by simpa using hl), List.flatMap_cons, Drv.fileOps]
    have hn : Name.utf8 ['p'] = b!"p" := by decide +kernel
    simp [subFolder, hn]

end Ties

/-- C89: not every build does: two variants with the same value are accepted and generated in the order
of the run. -/
theorem C89_full_false : ¬ C89_full := by
  intro h
  have h1 := Ties.loads Input.Ex.strict
  have h2 := Ties.loads (rehashed Input.Ex.strict id fun _ => .refl _)
  have key := h _ _ _ _ _ _ _ h1 h2 .checked RustEx.lib (fun _ => false) Ties.disk id (some [])
  have w1 := Ties.writes (p := .checked) (lib := RustEx.lib) (emb := fun _ => false)
    (vs := [("B".toList, 1), ("A".toList, 1)]) (w := ⟨0, []⟩)
    (l := ⟨[reordered Ties.m (Input.Ex.strict.order [("A".toList, 1), ("B".toList, 1)])], []⟩)
    (Ties.compiles _) (by decide +kernel)
  have w2 := Ties.writes (p := .checked) (lib := RustEx.lib) (emb := fun _ => false)
    (vs := [("A".toList, 1), ("B".toList, 1)]) (w := ⟨0, []⟩)
    (l := ⟨[reordered Ties.m ((rehashed Input.Ex.strict id fun _ => .refl _).order
      [("A".toList, 1), ("B".toList, 1)])], []⟩)
    (Ties.compiles _) (by decide +kernel)
  rw [key, w1] at w2
  exact absurd w2 (by decide +kernel)

end Proto.Fix
