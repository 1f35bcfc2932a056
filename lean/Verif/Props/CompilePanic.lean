import Verif.Props.Loader

/-!
# C48, C62: panics and overflow checks of the compiler
-/

namespace Proto.Props

open Proto

/-! ## C62 -/

/-- Either the first outcome is a panic, or both are the same. -/
def Agrees {ε α : Type} (x y : Res ε α) : Prop := x = .panic ∨ x = y

theorem Agrees.refl {ε α : Type} (x : Res ε α) : Agrees x x := .inr rfl

theorem Agrees.bind {ε α β : Type} {x y : Res ε α} {f g : α → Res ε β} (h : Agrees x y)
    (hf : ∀ a, Agrees (f a) (g a)) : Agrees (x >>= f) (y >>= g) := by
  rcases h with rfl | rfl
  · exact .inl rfl
  · cases x with
    | ok a => exact hf a
    | err e => exact .inr rfl
    | panic => exact .inl rfl

theorem Agrees.ite {ε α : Type} {P : Prop} [Decidable P] {a b a' b' : Res ε α} (h : Agrees a a')
    (h' : Agrees b b') : Agrees (if P then a else b) (if P then a' else b') := by
  split
  · exact h
  · exact h'

theorem agrees_addU {ε : Type} (bits a b : Nat) :
    Agrees (addU .checked bits a b : Res ε Nat) (addU .wrapping bits a b) := by
  unfold addU; split
  · exact .inr rfl
  · exact .inl rfl

theorem agrees_subU {ε : Type} (bits a b : Nat) :
    Agrees (subU .checked bits a b : Res ε Nat) (subU .wrapping bits a b) := by
  unfold subU; split
  · exact .inr rfl
  · exact .inl rfl

theorem agrees_mulU {ε : Type} (bits a b : Nat) :
    Agrees (mulU .checked bits a b : Res ε Nat) (mulU .wrapping bits a b) := by
  unfold mulU; split
  · exact .inr rfl
  · exact .inl rfl

theorem agrees_shlU {ε : Type} (bits a b : Nat) :
    Agrees (shlU .checked bits a b : Res ε Nat) (shlU .wrapping bits a b) := by
  unfold shlU; split
  · exact .inr rfl
  · exact .inl rfl

theorem agrees_view (enums : List (Name × Enum)) (ty : Model.SimpleTy) (bits : Nat)
    (v : Option Model.FieldView) :
    Agrees (View.fromModel .checked enums ty bits v) (View.fromModel .wrapping enums ty bits v) := by
  unfold View.fromModel
  split
  · exact .refl _
  · exact .ite (.refl _) (.bind (agrees_shlU _ _ _) fun _ => .bind (agrees_subU _ _ _) fun _ => .refl _)
  · exact .refl _
  · exact .ite (.refl _) (.ite (.bind (agrees_subU _ _ _) fun _ => .bind (agrees_shlU _ _ _) fun _ =>
      .bind (agrees_subU _ _ _) fun _ => .refl _) (.refl _))

theorem agrees_field (structs : List (Name × Structure)) (enums : List (Name × Enum)) (e : Endian)
    (last : Nat) (v : Model.SField) :
    Agrees (SField.fromModel .checked structs enums e last v) (SField.fromModel .wrapping structs enums e last v) := by
  unfold SField.fromModel
  split
  · exact .bind (.refl _) fun _ => .bind (agrees_addU _ _ _) fun _ => .refl _
  · exact .bind (.refl _) fun _ => .bind (agrees_view _ _ _ _) fun _ => .bind (agrees_mulU _ _ _) fun _ =>
      .bind (.refl _) fun _ => .ite (.ite (.refl _) (.bind (agrees_addU _ _ _) fun _ => .refl _))
        (.bind (agrees_addU _ _ _) fun _ => .refl _)

theorem agrees_fields (structs : List (Name × Structure)) (enums : List (Name × Enum)) (e : Endian)
    (vs : List Model.SField) : ∀ last, Agrees (SField.fromModels .checked structs enums e last vs)
      (SField.fromModels .wrapping structs enums e last vs) := by
  induction vs with
  | nil => exact fun _ => .refl _
  | cons v vs ih =>
    intro last
    exact .bind (agrees_field _ _ _ _ _) fun r => .bind (ih r.2) fun _ => .refl _

theorem agrees_struct (structs : List (Name × Structure)) (enums : List (Name × Enum)) (e : Endian)
    (id : Nat) (v : Model.Structure) : Agrees (Structure.fromModel .checked structs enums e id v)
      (Structure.fromModel .wrapping structs enums e id v) :=
  .bind (agrees_fields _ _ _ _ _) fun _ => .refl _

theorem agrees_structs (vs : List Model.Structure) : ∀ next proto,
    Agrees (Protocol.addStructs .checked next proto vs) (Protocol.addStructs .wrapping next proto vs) := by
  induction vs with
  | nil => exact fun _ _ => .refl _
  | cons v vs ih => exact fun next proto => .bind (agrees_struct _ _ _ _ _) fun s => ih _ _

theorem agrees_protocol (s : Resolver) (w : World) (v : Model.Protocol) :
    Agrees (Protocol.fromModel .checked s w v) (Protocol.fromModel .wrapping s w v) :=
  .bind (.refl _) fun _ => .bind (.refl _) fun _ => .bind (agrees_structs _ _ _) fun _ => .refl _

theorem agrees_imports (vs : List (Name × Model.Protocol)) : ∀ s w,
    Agrees (Loader.compileImports .checked s w vs) (Loader.compileImports .wrapping s w vs) := by
  induction vs with
  | nil => exact fun _ _ => .refl _
  | cons v vs ih => exact fun s w => .bind (agrees_protocol _ _ _) fun r => ih _ _

theorem agrees_models (s : Resolver) (vs : List Model.Protocol) : ∀ w,
    Agrees (Loader.compileModels .checked s w vs) (Loader.compileModels .wrapping s w vs) := by
  induction vs with
  | nil => exact fun _ => .refl _
  | cons v vs ih => exact fun w => .bind (agrees_protocol _ _ _) fun r => .bind (ih _) fun _ => .refl _

/-- C62: unless a checked build of the compiler panics, checked and wrapping builds give the same
outcome. -/
theorem C62_same_outcome (l : Loader) (s : SimpleImportSolver) (w : World)
    (h : Loader.compile .checked l s w ≠ .panic) :
    Loader.compile .wrapping l s w = Loader.compile .checked l s w := by
  have : Agrees (Loader.compile .checked l s w) (Loader.compile .wrapping l s w) :=
    .bind (agrees_imports _ _ _) fun r => agrees_models _ _ _
  rcases this with h' | h'
  · exact absurd h' h
  · exact h'.symm

example : (match Loader.compile .wrapping ⟨[Ex.user], [("lib".toList, Ex.lib)]⟩ SimpleImportSolver.default ⟨0, []⟩ with
    | .ok (protos, _) => protos.length
    | _ => 0) = 1 := by
  rw [C62_same_outcome _ _ _ (by
    intro h
    have : (match Loader.compile .checked ⟨[Ex.user], [("lib".toList, Ex.lib)]⟩
        SimpleImportSolver.default ⟨0, []⟩ with
      | .panic => true
      | _ => false) = false := by decide +kernel
    rw [h] at this
    cases this)]
  decide +kernel

/-- C62: where a checked build panics, a wrapping build can accept: a structure of `2^64` bits has
size 0. -/
theorem C62_wraps :
    Structure.fromModel .checked [] [] .little 0 ⟨['S'], [⟨['a'], .unsigned 8, none, some (2 ^ 61)⟩]⟩ = .panic ∧
    ∃ s, Structure.fromModel .wrapping [] [] .little 0 ⟨['S'], [⟨['a'], .unsigned 8, none, some (2 ^ 61)⟩]⟩ = .ok s ∧
      s.byteSize = 0 := ⟨by rfl, _, by rfl, rfl⟩

example : Loader.compile .checked ⟨[Ex.user, Ex.lib], [("lib".toList, Ex.lib)]⟩
      SimpleImportSolver.default ⟨0, []⟩ ≠ .panic := by
  intro h
  have : (match Loader.compile .checked ⟨[Ex.user, Ex.lib], [("lib".toList, Ex.lib)]⟩
      SimpleImportSolver.default ⟨0, []⟩ with
    | .panic => true
    | _ => false) = false := by decide +kernel
  rw [h] at this
  cases this

/-! ## C48 -/

theorem ofOption_ne_panic {ε α : Type} {e : ε} {o : Option α} : (Res.ofOption e o : Res ε α) ≠ .panic := by
  cases o <;> simp

theorem fixedTy_ne_panic (v : Model.FieldTy) : FixedTy.fromModel v ≠ .panic := by
  unfold FixedTy.fromModel
  refine Res.bind_ne_panic ofOption_ne_panic fun _ _ => ?_
  repeat' split
  all_goals first | exact ofOption_ne_panic | simp

/-- C48: imports, enums and messages never panic. -/
theorem C48_messages (proto : Protocol) :
    (∀ (s : Resolver) vs, Protocol.addImports s proto vs ≠ .panic) ∧
    (∀ vs, Protocol.addEnums proto vs ≠ .panic) ∧
    ∀ w vs, Protocol.addMessages w proto vs ≠ .panic := by
  refine ⟨fun s vs => ?_, fun vs => ?_, fun w vs => ?_⟩
  · induction vs generalizing proto with
    | nil => simp [Protocol.addImports]
    | cons v vs ih =>
      refine Res.bind_ne_panic ?_ fun p1 _ => ih p1
      unfold Protocol.addImport
      refine Res.bind_ne_panic ofOption_ne_panic fun r _ => ?_
      split
      · exact Res.bind_ne_panic ofOption_ne_panic fun _ _ => by simp
      · split
        · exact Res.bind_ne_panic ofOption_ne_panic fun _ _ => by simp
        · split
          · exact Res.bind_ne_panic ofOption_ne_panic fun _ _ => by simp
          · exact Res.bind_ne_panic ofOption_ne_panic fun _ _ =>
              Res.bind_ne_panic ofOption_ne_panic fun _ _ => by simp
  · induction vs generalizing proto with
    | nil => simp [Protocol.addEnums]
    | cons v vs ih =>
      exact Res.bind_ne_panic (Res.bind_ne_panic ofOption_ne_panic fun _ _ => by simp) fun e _ => ih _
  · induction vs generalizing proto w with
    | nil => simp [Protocol.addMessages]
    | cons v vs ih =>
      refine Res.bind_ne_panic (Res.bind_ne_panic ?_ fun _ _ => by simp) fun r _ => ih _ _
      generalize ([] : List MField) = before
      generalize 0 = count
      generalize false = dyn
      generalize w.embedded = emb
      generalize v.fields = fields
      induction fields generalizing before count dyn emb with
      | nil => simp [Message.fieldsFromModel]
      | cons f fields ihf =>
        refine Res.bind_ne_panic ?_ fun r _ => ?_
        · unfold MField.fromModel
          split
          · refine Res.bind_ne_panic ofOption_ne_panic fun r _ => ?_
            split
            · split <;> simp
            · simp
          · refine Res.bind_ne_panic ofOption_ne_panic fun r _ => ?_
            refine Res.bind_ne_panic (fixedTy_ne_panic _) fun r _ => ?_
            split <;> simp
          · simp
          · exact Res.bind_ne_panic (fixedTy_ne_panic _) fun _ _ => by simp
          · refine Res.bind_ne_panic ofOption_ne_panic fun r _ => ?_
            refine Res.bind_ne_panic ofOption_ne_panic fun r _ => ?_
            refine Res.bind_ne_panic ofOption_ne_panic fun r _ => ?_
            split
            · split <;> simp
            · simp
          · simp
        · simp only
          split
          · simp
          · generalize (if r.1.size.isElementDynSized = true then count + 1 else count) = n
            split
            · simp
            · exact ihf _ _ _ _

theorem caseFromModel_ne_panic (proto : Protocol) (f : FixedField) (v : Model.UCase) :
    UCase.fromModel proto f v ≠ .panic := by
  unfold UCase.fromModel
  refine Res.bind_ne_panic ?_ fun _ _ => Res.bind_ne_panic ?_ fun _ _ => by simp
  · unfold UCase.caseValue
    split <;> first | exact ofOption_ne_panic | simp
  · unfold UCase.content
    split
    · simp
    · exact Res.bind_ne_panic ofOption_ne_panic fun _ _ => by simp

theorem leads_not_stops {s leaf : Structure} {parts : List Name} {f : FixedField} {is : List Nat}
    (h : Leads s parts leaf f is) : ∀ {leaf' is'}, ¬ Stops s parts leaf' is' := by
  induction h with
  | here hi hf =>
    intro leaf' is' h'
    cases h' with
    | down hi' hf' _ =>
      rw [hi] at hi'
      cases hi'
      rw [hf] at hf'
      cases hf'
  | down hi hf _ ih =>
    intro leaf' is' h'
    cases h' with
    | down hi' hf' h' =>
      rw [hi] at hi'
      cases hi'
      rw [hf] at hf'
      cases hf'
      exact ih h'

/-- C48: exactly the unions that panic: the discriminant is the name of a structure without a field;
or there is a case, the path stops on a nested structure, and the field of that structure at the
position of the path's last name is missing or not a plain field. -/
theorem C48_union_panics {proto : Protocol} {v : Model.Union} :
    Union.fromModel proto v = .panic ↔
      ∃ name parts root, splitDot v.discriminant = name :: parts ∧
        proto.structsByName.lookup name = some root ∧
        (parts = [] ∨ v.cases ≠ [] ∧ ∃ leaf is i, Stops root parts leaf is ∧ is.getLast? = some i ∧
          ∀ f, leaf.fields[i]? ≠ some (.fixed f)) := by
  have hcases : ∀ (d : Discriminant) (vs : List Model.UCase),
      Union.casesFromModel proto d vs = .panic ↔ vs ≠ [] ∧ d.getLeaf = .panic := by
    intro d vs
    induction vs with
    | nil => simp [Union.casesFromModel]
    | cons v vs ih =>
      unfold Union.casesFromModel
      cases hl : d.getLeaf with
      | panic => simp
      | err e =>
        unfold Discriminant.getLeaf at hl
        split at hl <;> cases hl
      | ok f =>
        simp only [Res.bind_ok]
        refine ⟨fun h => ?_, fun h => by simp at h⟩
        refine absurd h (Res.bind_ne_panic (caseFromModel_ne_panic _ _ _) fun _ _ =>
          Res.bind_ne_panic (fun h => ?_) fun _ _ => by simp)
        have := (ih.1 h).2
        rw [hl] at this
        cases this
  have hleaf : ∀ d : Discriminant, d.getLeaf = .panic ↔ ∀ f, d.leaf.fields[d.leafIndex]? ≠ some (.fixed f) := by
    intro d
    unfold Discriminant.getLeaf
    split
    · next f hf => simp [hf]
    · next h => exact ⟨fun _ f hf => h f hf, fun _ => rfl⟩
  have hlast : ∀ {s parts leaf is}, Stops s parts leaf is → parts ≠ [] → is ≠ [] := by
    intro s parts leaf is h
    cases h with
    | here => simp
    | down => simp
  constructor
  · intro h
    unfold Union.fromModel at h
    obtain ⟨name, parts, hs⟩ := splitDot_eq v.discriminant
    cases hd : Discriminant.fromModel proto v.discriminant with
    | panic =>
      unfold Discriminant.fromModel at hd
      simp only [hs] at hd
      cases hr : proto.structsByName.lookup name with
      | none => simp [hr] at hd
      | some root =>
        rw [hr, Res.ofOption_some, Res.bind_ok] at hd
        cases hw : Discriminant.walk name root parts with
        | panic => exact absurd hw (walk_ne_panic _ _ _)
        | err e => rw [hw] at hd; cases hd
        | ok r =>
          obtain ⟨leaf, is⟩ := r
          rw [hw, Res.bind_ok] at hd
          simp only at hd
          split at hd
          · cases hd
          · next hi =>
            refine ⟨name, parts, root, hs, hr, .inl ?_⟩
            have : is = [] := List.getLast?_eq_none_iff.1 hi
            rcases walk_ok hw with ⟨f, hl⟩ | hst
            · obtain ⟨i, hi', _⟩ := leads_ne_nil hl
              rw [hi'] at hi
              cases hi
            · cases parts with
              | nil => rfl
              | cons n ps => exact absurd this (hlast hst (by simp))
    | err e => rw [hd] at h; cases h
    | ok d =>
      rw [hd, Res.bind_ok] at h
      have hc : Union.casesFromModel proto d v.cases = .panic := by
        cases hc : Union.casesFromModel proto d v.cases with
        | panic => rfl
        | err e => rw [hc] at h; cases h
        | ok ks => rw [hc] at h; cases h
      obtain ⟨hne, hl⟩ := (hcases d _).1 hc
      rw [hleaf] at hl
      obtain ⟨name', parts', hs', hr, hi, hw⟩ := C47_accepted hd
      refine ⟨name', parts', d.root, hs', hr, .inr ⟨hne, ?_⟩⟩
      rcases hw with ⟨f, hw⟩ | hw
      · obtain ⟨i, hi', hf⟩ := leads_ne_nil hw
        rw [hi'] at hi
        cases hi
        exact absurd hf (hl f)
      · exact ⟨d.leaf, d.indexList, d.leafIndex, hw, hi, hl⟩
  · rintro ⟨name, parts, root, hs, hr, rfl | ⟨hne, leaf, is, i, hst, hi, hf⟩⟩
    · simp [Union.fromModel, Discriminant.fromModel, hs, hr, Discriminant.walk]
    · have hd : Discriminant.fromModel proto v.discriminant = .ok ⟨root, leaf, i, is⟩ := by
        simp [Discriminant.fromModel, hs, hr, walk_stops hst, hi]
      unfold Union.fromModel
      rw [hd, Res.bind_ok, (hcases _ _).2 ⟨hne, (hleaf _).2 hf⟩]
      rfl

example : Union.fromModel Ex.protoO ⟨"U".toList, "Outer".toList, []⟩ = .panic :=
  C48_union_panics.2 ⟨"Outer".toList, [], _, rfl, rfl, .inl rfl⟩

example : Union.fromModel Ex.protoO ⟨"U".toList, "Outer.in".toList, [⟨"A".toList, "0".toList, none⟩]⟩ = .panic :=
  C48_union_panics.2 ⟨"Outer".toList, ["in".toList], _, rfl, rfl, .inr ⟨by simp, Ex.sInner, [1], 1,
    .down (i := 1) rfl rfl .here, rfl, by intro f h; cases h⟩⟩

/-- C48: a union whose path leads to a fixed-width field never panics. -/
theorem C48_union_ok {proto : Protocol} {v : Model.Union}
    (h : ∀ name parts root, splitDot v.discriminant = name :: parts →
      proto.structsByName.lookup name = some root → ∃ leaf f is, Leads root parts leaf f is) :
    Union.fromModel proto v ≠ .panic := by
  intro hp
  obtain ⟨name, parts, root, hs, hr, h1⟩ := C48_union_panics.1 hp
  obtain ⟨leaf, f, is, hl⟩ := h name parts root hs hr
  rcases h1 with rfl | ⟨_, leaf', is', i, hst, _⟩
  · cases hl
  · exact leads_not_stops hl hst

example : Union.fromModel Ex.protoO ⟨"U".toList, "Outer.in.a".toList, [⟨"A".toList, "0".toList, none⟩]⟩ ≠ .panic :=
  C48_union_ok (by
    intro name parts root h hr
    rw [show splitDot "Outer.in.a".toList = ["Outer".toList, "in".toList, "a".toList] from rfl] at h
    cases h
    cases hr
    exact ⟨_, _, _, Ex.leads_a⟩)

theorem addU_ne_panic {bits a b : Nat} (h : a + b < 2 ^ bits) : (addU .checked bits a b : C Nat) ≠ .panic := by
  rw [addU_ok _ h]; simp

theorem view_ne_panic {enums : List (Name × Enum)} {v : Model.SField} {bits : Nat}
    (hb : v.info.bitSize? = some bits) (h : NoShift v) :
    View.fromModel .checked enums v.info.simple bits v.view ≠ .panic := by
  unfold View.fromModel
  split
  · split
    · simp
    · exact Res.bind_ne_panic ofOption_ne_panic fun _ _ => by simp
  · next lo hi hv =>
    split
    · simp
    · next hf =>
      have hlt : bits < 64 := by
        cases hi' : v.info with
        | float n =>
          rw [hi'] at hb
          cases hb
          exact h.2 _ lo hi hi' hv
        | _ => rw [hi'] at hf; exact absurd (by simp [Model.FieldTy.simple]) hf
      rw [shlU_ok _ (show bits < usizeBits from hlt), Res.bind_ok]
      have h1 : 1 ≤ (1 <<< bits) % 2 ^ usizeBits := by
        rw [Nat.one_shiftLeft, Nat.mod_eq_of_lt (Nat.pow_lt_pow_right (by decide) (show bits < usizeBits from hlt))]
        exact Nat.one_le_two_pow
      rw [subU_ok _ h1]
      simp
  · split <;> simp
  · next hv =>
    split
    · simp
    · split
      · next hs =>
        have hw : 1 ≤ bits ∧ bits ≤ 64 := by
          cases hi' : v.info with
          | signed n =>
            rw [hi'] at hb
            cases hb
            exact h.1 _ hi' hv
          | _ => rw [hi'] at hs; exact absurd hs.1 (by simp [Model.FieldTy.simple])
        rw [subU_ok _ hw.1, Res.bind_ok, shlU_ok _ (show bits - 1 < usizeBits by unfold usizeBits; omega), Res.bind_ok]
        have h1 : 1 ≤ (1 <<< (bits - 1)) % 2 ^ usizeBits := by
          rw [Nat.one_shiftLeft, Nat.mod_eq_of_lt (Nat.pow_lt_pow_right (by decide) (by unfold usizeBits; omega))]
          exact Nat.one_le_two_pow
        rw [subU_ok _ h1]
        simp
      · split <;> simp

theorem field_ne_panic {structs : List (Name × Structure)} {enums : List (Name × Enum)} {e : Endian}
    {last : Nat} {v : Model.SField} (h : NoShift v) (hl : last + declWidth structs v < 2 ^ 64) :
    SField.fromModel .checked structs enums e last v ≠ .panic := by
  have hb : ∀ bits, v.info.bitSize? = some bits → declWidth structs v = bits * v.arrayLen.getD 1 := by
    intro bits hb
    unfold declWidth
    cases hi : v.info <;> rw [hi] at hb <;> cases hb <;> rfl
  unfold SField.fromModel
  split
  · next t ht =>
    refine Res.bind_ne_panic ofOption_ne_panic fun r hr => ?_
    have hr := Res.ofOption_eq_ok hr
    have : declWidth structs v = r.bitSize := by simp [declWidth, ht, hr]
    rw [this] at hl
    exact Res.bind_ne_panic (addU_ne_panic hl) fun _ _ => by simp
  · refine Res.bind_ne_panic ofOption_ne_panic fun bits hbits => ?_
    have hbits := Res.ofOption_eq_ok hbits
    rw [hb _ hbits] at hl
    refine Res.bind_ne_panic (view_ne_panic hbits h) fun view _ => ?_
    have hm : bits * v.arrayLen.getD 1 < 2 ^ usizeBits := by unfold usizeBits; omega
    simp only
    rw [mulU_ok _ hm, Res.bind_ok]
    refine Res.bind_ne_panic (fixedTy_ne_panic _) fun ty _ => ?_
    split
    · split
      · simp
      · exact Res.bind_ne_panic (addU_ne_panic hl) fun _ _ => by simp
    · exact Res.bind_ne_panic (addU_ne_panic hl) fun _ _ => by simp

theorem fields_ne_panic {structs : List (Name × Structure)} {enums : List (Name × Enum)} {e : Endian}
    {vs : List Model.SField} (h : ∀ v ∈ vs, NoShift v) : ∀ {last : Nat},
    last + declTotal structs vs < 2 ^ 64 → SField.fromModels .checked structs enums e last vs ≠ .panic := by
  induction vs with
  | nil => intro last _; simp [SField.fromModels]
  | cons v vs ih =>
    intro last hl
    simp only [declTotal, List.map_cons, List.sum_cons] at hl
    refine Res.bind_ne_panic (field_ne_panic (h v (by simp)) (by omega)) fun r hr => ?_
    refine Res.bind_ne_panic (ih (fun v hv => h v (by simp [hv])) ?_) fun _ _ => by simp
    have := (SField.fromModel_spec hr (.inl rfl)).1
    simp only [declTotal]
    omega

/-- C48: a checked build compiles the structures of a protocol without panic when they are below
`2^64` bits and view parameters do not overflow. -/
theorem C48_structs {vs : List Model.Structure} (h : ∀ v ∈ vs, ∀ f ∈ v.fields, NoShift f) :
    ∀ {next : Nat} {proto : Protocol},
      DeclFits (proto.structsByName.map fun x => (x.1, x.2.bitSize)) vs →
      Protocol.addStructs .checked next proto vs ≠ .panic := by
  induction vs with
  | nil => intro next proto _; simp [Protocol.addStructs]
  | cons v vs ih =>
    intro next proto hf
    have hw : ∀ f, declBits (proto.structsByName.map fun x => (x.1, x.2.bitSize)) f =
        declWidth proto.structsByName f := by
      intro f
      have hl : ∀ t, (proto.structsByName.map fun x => (x.1, x.2.bitSize)).lookup t =
          (proto.structsByName.lookup t).map Structure.bitSize := by
        intro t
        induction proto.structsByName with
        | nil => rfl
        | cons x l ih =>
          simp only [List.map_cons, List.lookup_cons, ih]
          obtain ⟨a, b⟩ := x
          rw [List.lookup_cons]
          cases (t == a) <;> rfl
      unfold declBits declWidth
      split <;> simp [*]
    have ht : (v.fields.map (declBits (proto.structsByName.map fun x => (x.1, x.2.bitSize)))).sum =
        declTotal proto.structsByName v.fields := by
      unfold declTotal
      congr 1
      exact List.map_congr_left fun f _ => hw f
    unfold DeclFits at hf
    rw [ht] at hf
    refine Res.bind_ne_panic ?_ fun s hs => ih (fun v hv => h v (by simp [hv])) ?_
    · exact Res.bind_ne_panic (fields_ne_panic (h v (by simp)) (by omega)) fun _ _ => by simp
    · obtain ⟨hn, _, hb, _⟩ := C08_layout hs (.inl rfl)
      simp only [List.map_cons]
      rw [hb, hn]
      exact hf.2

/-- C48: a release build compiles structures without panic. -/
theorem C48_structs_release (vs : List Model.Structure) (next : Nat) (proto : Protocol) :
    Protocol.addStructs .wrapping next proto vs ≠ .panic := by
  have ha : ∀ a b, (addU .wrapping usizeBits a b : C Nat) ≠ .panic := by
    intro a b; unfold addU; split <;> simp
  have hs : ∀ a b, (subU .wrapping usizeBits a b : C Nat) ≠ .panic := by
    intro a b; unfold subU; split <;> simp
  have hm : ∀ a b, (mulU .wrapping usizeBits a b : C Nat) ≠ .panic := by
    intro a b; unfold mulU; split <;> simp
  have hl : ∀ a b, (shlU .wrapping usizeBits a b : C Nat) ≠ .panic := by
    intro a b; unfold shlU; split <;> simp
  have hv : ∀ enums ty bits v, View.fromModel .wrapping enums ty bits v ≠ .panic := by
    intro enums ty bits v
    unfold View.fromModel
    split
    · split
      · simp
      · exact Res.bind_ne_panic ofOption_ne_panic fun _ _ => by simp
    · split
      · simp
      · exact Res.bind_ne_panic (hl _ _) fun _ _ => Res.bind_ne_panic (hs _ _) fun _ _ => by simp
    · split <;> simp
    · split
      · simp
      · split
        · exact Res.bind_ne_panic (hs _ _) fun _ _ => Res.bind_ne_panic (hl _ _) fun _ _ =>
            Res.bind_ne_panic (hs _ _) fun _ _ => by simp
        · split <;> simp
  have hf : ∀ structs enums e last v, SField.fromModel .wrapping structs enums e last v ≠ .panic := by
    intro structs enums e last v
    unfold SField.fromModel
    split
    · exact Res.bind_ne_panic ofOption_ne_panic fun _ _ => Res.bind_ne_panic (ha _ _) fun _ _ => by simp
    · refine Res.bind_ne_panic ofOption_ne_panic fun _ _ => Res.bind_ne_panic (hv _ _ _ _) fun _ _ =>
        Res.bind_ne_panic (hm _ _) fun _ _ => Res.bind_ne_panic (fixedTy_ne_panic _) fun _ _ => ?_
      split
      · split
        · simp
        · exact Res.bind_ne_panic (ha _ _) fun _ _ => by simp
      · exact Res.bind_ne_panic (ha _ _) fun _ _ => by simp
  have hfs : ∀ structs enums e vs last, SField.fromModels .wrapping structs enums e last vs ≠ .panic := by
    intro structs enums e vs
    induction vs with
    | nil => intro last; simp [SField.fromModels]
    | cons v vs ih =>
      intro last
      exact Res.bind_ne_panic (hf _ _ _ _ _) fun _ _ => Res.bind_ne_panic (ih _) fun _ _ => by simp
  induction vs generalizing next proto with
  | nil => simp [Protocol.addStructs]
  | cons v vs ih =>
    exact Res.bind_ne_panic (Res.bind_ne_panic (hfs _ _ _ _ _) fun _ _ => by simp) fun _ _ => ih _ _

/-- C48: the unions of a protocol compile without panic exactly when the first ones do. -/
theorem C48_unions {vs : List Model.Union} {proto : Protocol}
    (h : ∀ v ∈ vs, Union.fromModel proto v ≠ .panic) : Protocol.addUnions proto vs ≠ .panic := by
  intro hp
  have key : ∀ (vs : List Model.Union) (proto' : Protocol), proto'.structsByName = proto.structsByName →
      (∀ v ∈ vs, Union.fromModel proto v ≠ .panic) → Protocol.addUnions proto' vs ≠ .panic := by
    intro vs
    induction vs with
    | nil => intro proto' _ _; simp [Protocol.addUnions]
    | cons v vs ih =>
      intro proto' he h
      refine Res.bind_ne_panic ?_ fun u _ => ih _ he fun v hv => h v (by simp [hv])
      intro hp
      refine h v (by simp) (C48_union_panics.2 ?_)
      rw [← he]
      exact C48_union_panics.1 hp
  exact key vs proto rfl h hp

theorem bind_eq_panic {ε α β : Type} {x : Res ε α} {f : α → Res ε β} :
    (x >>= f) = .panic ↔ x = .panic ∨ ∃ a, x = .ok a ∧ f a = .panic := by
  cases x with
  | ok a => simp
  | err e => simp
  | panic => simp

theorem ofOption_eq_panic {ε α : Type} {e : ε} {o : Option α} : (Res.ofOption e o = .panic) ↔ False := by
  simp [ofOption_ne_panic]

theorem addU_eq_panic {a b : Nat} :
    (addU .checked usizeBits a b : C Nat) = .panic ↔ 2 ^ 64 ≤ a + b := by
  unfold addU
  split
  · next h => unfold usizeBits at h; simp; omega
  · next h => unfold usizeBits at h; simp; omega

theorem mulU_eq_panic {a b : Nat} :
    (mulU .checked usizeBits a b : C Nat) = .panic ↔ 2 ^ 64 ≤ a * b := by
  unfold mulU
  split
  · next h => unfold usizeBits at h; simp; omega
  · next h => unfold usizeBits at h; simp; omega

theorem addU_eq_ok {a b c : Nat} :
    (addU .checked usizeBits a b : C Nat) = .ok c ↔ a + b < 2 ^ 64 ∧ c = a + b := by
  unfold addU
  split
  · next h => unfold usizeBits at h; simp; omega
  · next h => unfold usizeBits at h; simp; omega

theorem mulU_eq_ok {a b c : Nat} :
    (mulU .checked usizeBits a b : C Nat) = .ok c ↔ a * b < 2 ^ 64 ∧ c = a * b := by
  unfold mulU
  split
  · next h => unfold usizeBits at h; simp; omega
  · next h => unfold usizeBits at h; simp; omega

theorem view_eq_panic {enums : List (Name × Enum)} {v : Model.SField} {bits : Nat}
    (hb : v.info.bitSize? = some bits) :
    View.fromModel .checked enums v.info.simple bits v.view = .panic ↔ ¬ NoShift v := by
  constructor
  · exact fun h hn => view_ne_panic hb hn h
  · intro h
    unfold NoShift at h
    rcases Classical.not_and_iff_not_or_not.1 h with h | h
    · simp only [Classical.not_forall] at h
      obtain ⟨n, hi, hv, hn⟩ := h
      rw [hi] at hb
      obtain rfl : n = bits := by simpa [Model.FieldTy.bitSize?] using hb
      rw [hi, hv]
      simp only [View.fromModel, Model.FieldTy.simple, reduceCtorEq, false_and, if_false, true_and]
      rw [if_pos (by omega)]
      by_cases h0 : 1 ≤ n
      · rw [subU_ok _ h0, Res.bind_ok]
        have : (shlU .checked usizeBits 1 (n - 1) : C Nat) = .panic := by
          unfold shlU
          rw [if_neg (by unfold usizeBits; omega)]
        rw [this]
        rfl
      · have : (subU .checked usizeBits n 1 : C Nat) = .panic := by
          unfold subU
          rw [if_neg h0]
        rw [this]
        rfl
    · simp only [Classical.not_forall] at h
      obtain ⟨n, lo, hi, hi', hv, hn⟩ := h
      rw [hi'] at hb
      obtain rfl : n = bits := by simpa [Model.FieldTy.bitSize?] using hb
      rw [hi', hv]
      simp only [View.fromModel, Model.FieldTy.simple, ne_eq, not_true, if_false]
      have : (shlU .checked usizeBits 1 n : C Nat) = .panic := by
        unfold shlU
        rw [if_neg (by unfold usizeBits; omega)]
      rw [this]
      rfl

theorem view_eq_ok {enums : List (Name × Enum)} {v : Model.SField} {bits : Nat}
    (hb : v.info.bitSize? = some bits) (hn : NoShift v) :
    (∃ w, View.fromModel .checked enums v.info.simple bits v.view = .ok w) ↔ ViewFits enums v := by
  have hp := view_ne_panic (enums := enums) hb hn
  unfold ViewFits
  cases hi : v.info with
  | struct t => rw [hi] at hb; cases hb
  | boolean n =>
    rcases hv : v.view with _ | w
    · simp [View.fromModel, Model.FieldTy.simple]
    · cases w <;> simp [View.fromModel, Model.FieldTy.simple]
  | unsigned n =>
    rcases hv : v.view with _ | w
    · simp [View.fromModel, Model.FieldTy.simple]
    · cases w with
      | enum t =>
        simp only [View.fromModel, Model.FieldTy.simple, ne_eq, not_true, if_false]
        cases enums.lookup t with
        | none => simp
        | some e => simp
      | _ => simp [View.fromModel, Model.FieldTy.simple]
  | signed n =>
    rcases hv : v.view with _ | w
    · rw [hi, hv] at hp
      rw [hi] at hb
      obtain rfl : n = bits := by simpa [Model.FieldTy.bitSize?] using hb
      simp only [iff_true]
      simp only [View.fromModel, Model.FieldTy.simple, reduceCtorEq, false_and, if_false, true_and]
        at hp ⊢
      split
      · next hc =>
        rw [if_pos hc] at hp
        have h1 := hn.1 n hi hv
        rw [subU_ok _ h1.1, Res.bind_ok, shlU_ok _ (by unfold usizeBits; omega), Res.bind_ok]
        have h2 : 1 ≤ (1 <<< (n - 1)) % 2 ^ usizeBits := by
          rw [Nat.one_shiftLeft, Nat.mod_eq_of_lt (Nat.pow_lt_pow_right (by decide) (by unfold usizeBits; omega))]
          exact Nat.one_le_two_pow
        rw [subU_ok _ h2]
        exact ⟨_, rfl⟩
      · exact ⟨_, rfl⟩
    · cases w <;> simp [View.fromModel, Model.FieldTy.simple]
  | float n =>
    rw [hi] at hb
    obtain rfl : n = bits := by simpa [Model.FieldTy.bitSize?] using hb
    rcases hv : v.view with _ | w
    · simp only [View.fromModel, Model.FieldTy.simple, true_and, reduceCtorEq, false_and, if_false]
      by_cases hc : n ≠ 32 ∧ n ≠ 64
      · rw [if_pos hc]
        simp
        omega
      · rw [if_neg hc]
        simp
        omega
    · cases w with
      | enum t => simp [View.fromModel, Model.FieldTy.simple]
      | floatRange a b =>
        have h1 := hn.2 n a b hi hv
        simp only [View.fromModel, Model.FieldTy.simple, ne_eq, not_true, if_false, iff_true]
        rw [shlU_ok _ (by unfold usizeBits; omega), Res.bind_ok]
        have h2 : 1 ≤ (1 <<< n) % 2 ^ usizeBits := by
          rw [Nat.one_shiftLeft, Nat.mod_eq_of_lt (Nat.pow_lt_pow_right (by decide) (by unfold usizeBits; omega))]
          exact Nat.one_le_two_pow
        rw [subU_ok _ h2]
        exact ⟨_, rfl⟩
      | floatMultiplier m => simp [View.fromModel, Model.FieldTy.simple]

theorem width_supported {ty : Model.FieldTy} {bits : Nat} (hb : ty.bitSize? = some bits) :
    (∃ t, FixedTy.fromModel ty = .ok t) ↔ WidthSupported ty := by
  obtain ⟨hu, hs, hf, _⟩ := C08_width_domain bits
  cases ty with
  | struct t => cases hb
  | boolean n => simp [FixedTy.fromModel, Model.FieldTy.bitSize?, Model.FieldTy.simple, WidthSupported]
  | unsigned n => cases hb; exact hu
  | signed n => cases hb; exact hs
  | float n => cases hb; exact hf

/-- C48: exactly the declared fields that make a checked build of the compiler panic. -/
theorem C48_field_panics {structs : List (Name × Structure)} {enums : List (Name × Enum)} {e : Endian}
    {last : Nat} {v : Model.SField} :
    SField.fromModel .checked structs enums e last v = .panic ↔ FieldOverflows structs enums last v := by
  have main : ∀ bits, v.info.bitSize? = some bits →
      (SField.fromModel .checked structs enums e last v = .panic ↔ ¬ NoShift v ∨ ViewFits enums v ∧
        (2 ^ 64 ≤ bits * v.arrayLen.getD 1 ∨ WidthSupported v.info ∧
          (1 < v.arrayLen.getD 1 → bits * v.arrayLen.getD 1 % 8 = 0) ∧
          2 ^ 64 ≤ last + bits * v.arrayLen.getD 1)) := by
    intro bits hb
    have hs : SField.fromModel .checked structs enums e last v = (do
        let view ← View.fromModel .checked enums v.info.simple bits v.view
        let bitSize ← mulU .checked usizeBits bits (v.arrayLen.getD 1)
        let ty ← FixedTy.fromModel v.info
        if v.arrayLen.getD 1 > 1 then
          if bitSize % 8 ≠ 0 then .err .unalignedArrayCodec
          else do
            let next ← addU .checked usizeBits last bitSize
            pure (.array ⟨v.name, ty, v.arrayLen.getD 1, Loc.fromModel bitSize last, e⟩, next)
        else do
          let next ← addU .checked usizeBits last bitSize
          pure (.fixed ⟨v.name, ty, Loc.fromModel bitSize last, view, e⟩, next)) := by
      unfold SField.fromModel
      split
      · next t ht => rw [ht] at hb; cases hb
      · simp only [hb, Res.ofOption_some, Res.bind_ok]
    have hend : ∀ (m : Nat) (x : Nat → SField × Nat),
        ((addU .checked usizeBits last m : C Nat) >>= fun next => pure (x next)) = .panic ↔
          2 ^ 64 ≤ last + m := by
      intro m x
      rw [bind_eq_panic, addU_eq_panic]
      simp
    rw [hs, bind_eq_panic, view_eq_panic hb]
    by_cases hn : NoShift v
    rotate_left
    · simp [hn]
    simp only [hn, not_true, false_or]
    rw [← view_eq_ok hb hn]
    simp only [bind_eq_panic (x := mulU _ _ _ _), mulU_eq_panic, mulU_eq_ok]
    rw [← width_supported hb]
    have tail : ∀ w : View, ((FixedTy.fromModel v.info >>= fun ty =>
        if v.arrayLen.getD 1 > 1 then
          if bits * v.arrayLen.getD 1 % 8 ≠ 0 then (.err .unalignedArrayCodec : C (SField × Nat))
          else do
            let next ← addU .checked usizeBits last (bits * v.arrayLen.getD 1)
            pure (.array ⟨v.name, ty, v.arrayLen.getD 1, Loc.fromModel (bits * v.arrayLen.getD 1) last, e⟩, next)
        else do
          let next ← addU .checked usizeBits last (bits * v.arrayLen.getD 1)
          pure (.fixed ⟨v.name, ty, Loc.fromModel (bits * v.arrayLen.getD 1) last, w, e⟩, next)) = .panic) ↔
        (∃ t, FixedTy.fromModel v.info = .ok t) ∧
          (1 < v.arrayLen.getD 1 → bits * v.arrayLen.getD 1 % 8 = 0) ∧
          2 ^ 64 ≤ last + bits * v.arrayLen.getD 1 := by
      intro w
      rw [bind_eq_panic]
      simp only [fixedTy_ne_panic, false_or]
      constructor
      · rintro ⟨t, ht, h⟩
        refine ⟨⟨t, ht⟩, ?_⟩
        split at h
        · next h1 =>
          split at h
          · cases h
          · next h2 =>
            rw [hend] at h
            exact ⟨fun _ => by simpa using h2, h⟩
        · next h1 =>
          rw [hend] at h
          exact ⟨fun h2 => absurd h2 h1, h⟩
      · rintro ⟨⟨t, ht⟩, h1, h2⟩
        refine ⟨t, ht, ?_⟩
        split
        · next h3 =>
          rw [if_neg (by simpa using h1 h3), hend]
          exact h2
        · rw [hend]
          exact h2
    constructor
    · rintro ⟨w, hw, h⟩
      refine ⟨⟨w, hw⟩, ?_⟩
      rcases h with h | ⟨m, ⟨_, rfl⟩, h⟩
      · exact .inl h
      · exact .inr ((tail w).1 h)
    · rintro ⟨⟨w, hw⟩, h⟩
      refine ⟨w, hw, ?_⟩
      by_cases hm : 2 ^ 64 ≤ bits * v.arrayLen.getD 1
      · exact .inl hm
      · rcases h with h | h
        · exact .inl h
        · exact .inr ⟨_, ⟨by omega, rfl⟩, (tail w).2 h⟩
  unfold FieldOverflows
  cases hi : v.info with
  | struct t =>
    have hn : NoShift v := by
      constructor
      · intro n h
        rw [hi] at h
        cases h
      · intro n _ _ h
        rw [hi] at h
        cases h
    simp only [SField.fromModel, hi, hn, not_true, false_or]
    rw [bind_eq_panic]
    simp only [ofOption_ne_panic, false_or]
    constructor
    · rintro ⟨r, hr, h⟩
      rw [bind_eq_panic, addU_eq_panic] at h
      exact ⟨r, Res.ofOption_eq_ok hr, by simpa using h⟩
    · rintro ⟨r, hr, h⟩
      refine ⟨r, by rw [hr]; rfl, ?_⟩
      rw [bind_eq_panic, addU_eq_panic]
      exact .inl h
  | boolean n => have := main n (by rw [hi]; rfl); simpa [hi, declWidth] using this
  | unsigned n => have := main n (by rw [hi]; rfl); simpa [hi, declWidth] using this
  | signed n => have := main n (by rw [hi]; rfl); simpa [hi, declWidth] using this
  | float n => have := main n (by rw [hi]; rfl); simpa [hi, declWidth] using this

example : SField.fromModel .checked [] [] .little (2 ^ 64 - 8) ⟨['x'], .unsigned 16, none, none⟩ = .panic :=
  C48_field_panics.2 (.inr ⟨trivial, .inr ⟨by simp [WidthSupported], by simp, by decide⟩⟩)

theorem fields_eq_panic {structs : List (Name × Structure)} {enums : List (Name × Enum)} {e : Endian}
    {vs : List Model.SField} : ∀ {last : Nat},
    SField.fromModels .checked structs enums e last vs = .panic ↔
      ∃ pre v post, vs = pre ++ v :: post ∧
        (∃ r, SField.fromModels .checked structs enums e last pre = .ok r) ∧
        FieldOverflows structs enums (last + declTotal structs pre) v := by
  induction vs with
  | nil => intro last; simp [SField.fromModels]
  | cons v vs ih =>
    intro last
    rw [SField.fromModels, bind_eq_panic, C48_field_panics]
    constructor
    · rintro (h | ⟨⟨f, next⟩, hf, h⟩)
      · exact ⟨[], v, vs, rfl, ⟨_, rfl⟩, by simpa [declTotal] using h⟩
      · simp only at h
        rw [bind_eq_panic] at h
        rcases h with h | ⟨r, _, h⟩
        · obtain ⟨pre, x, post, rfl, ⟨r, hr⟩, ho⟩ := ih.1 h
          have hnext := (SField.fromModel_spec hf (.inl rfl)).1
          refine ⟨v :: pre, x, post, rfl, ⟨(f :: r.1, r.2), ?_⟩, ?_⟩
          · simp [SField.fromModels, hf, hr]
          · simp only [declTotal, List.map_cons, List.sum_cons] at ho ⊢
            rw [← Nat.add_assoc, ← hnext]
            exact ho
        · cases h
    · rintro ⟨pre, x, post, heq, ⟨r, hr⟩, ho⟩
      cases pre with
      | nil =>
        cases heq
        exact .inl (by simpa [declTotal] using ho)
      | cons y pre =>
        cases heq
        rw [SField.fromModels] at hr
        obtain ⟨⟨f, next⟩, hf, hr⟩ := Res.bind_eq_ok.1 hr
        obtain ⟨q, hq, _⟩ := Res.bind_eq_ok.1 hr
        refine .inr ⟨(f, next), hf, ?_⟩
        have hnext := (SField.fromModel_spec hf (.inl rfl)).1
        simp only
        rw [bind_eq_panic]
        refine .inl (ih.2 ⟨pre, x, post, rfl, ⟨q, hq⟩, ?_⟩)
        simp only [declTotal, List.map_cons, List.sum_cons] at ho ⊢
        rw [hnext, Nat.add_assoc]
        exact ho

/-- C48: a checked build panics on a structure exactly when one of its fields overflows and the ones
before it are accepted. -/
theorem C48_struct_panics {structs : List (Name × Structure)} {enums : List (Name × Enum)} {e : Endian}
    {id : Nat} {name : Name} {fields : List Model.SField} :
    Structure.fromModel .checked structs enums e id ⟨name, fields⟩ = .panic ↔
      ∃ pre v post, fields = pre ++ v :: post ∧
        (∃ s, Structure.fromModel .checked structs enums e id ⟨name, pre⟩ = .ok s) ∧
        FieldOverflows structs enums (declTotal structs pre) v := by
  unfold Structure.fromModel
  rw [bind_eq_panic]
  simp only [fields_eq_panic, Nat.zero_add]
  constructor
  · rintro (⟨pre, v, post, h1, ⟨r, h2⟩, h3⟩ | ⟨r, _, h⟩)
    · exact ⟨pre, v, post, h1, by rw [h2]; exact ⟨_, rfl⟩, h3⟩
    · cases h
  · rintro ⟨pre, v, post, h1, ⟨s, h2⟩, h3⟩
    obtain ⟨r, h2, _⟩ := Res.bind_eq_ok.1 h2
    exact .inl ⟨pre, v, post, h1, ⟨r, h2⟩, h3⟩

example : Structure.fromModel .checked [] [] .little 0
    ⟨['s'], [⟨['x'], .unsigned 8, none, none⟩, ⟨['y'], .signed 0, none, none⟩]⟩ = .panic :=
  C48_struct_panics.2 ⟨[⟨['x'], .unsigned 8, none, none⟩], _, [], rfl, ⟨_, rfl⟩,
    .inl (by simp [NoShift])⟩

theorem structs_eq_panic {p : Profile} {vs : List Model.Structure} : ∀ {next : Nat} {proto : Protocol},
    Protocol.addStructs p next proto vs = .panic ↔
      ∃ pre v post p3 n3, vs = pre ++ v :: post ∧ Protocol.addStructs p next proto pre = .ok (p3, n3) ∧
        Structure.fromModel p p3.structsByName p3.enumsByName p3.endianness n3 v = .panic := by
  induction vs with
  | nil => intro next proto; simp [Protocol.addStructs]
  | cons v vs ih =>
    intro next proto
    rw [Protocol.addStructs, bind_eq_panic]
    constructor
    · rintro (h | ⟨s, hs, h⟩)
      · exact ⟨[], v, vs, proto, next, rfl, rfl, h⟩
      · obtain ⟨pre, x, post, p3, n3, rfl, h1, h2⟩ := ih.1 h
        exact ⟨v :: pre, x, post, p3, n3, rfl, by rw [Protocol.addStructs, hs]; exact h1, h2⟩
    · rintro ⟨pre, x, post, p3, n3, heq, h1, h2⟩
      cases pre with
      | nil =>
        cases heq
        cases h1
        exact .inl h2
      | cons y pre =>
        cases heq
        rw [Protocol.addStructs] at h1
        obtain ⟨s, hs, h1⟩ := Res.bind_eq_ok.1 h1
        exact .inr ⟨s, hs, ih.2 ⟨pre, x, post, p3, n3, rfl, h1, h2⟩⟩

theorem unions_eq_panic {vs : List Model.Union} : ∀ {proto : Protocol},
    Protocol.addUnions proto vs = .panic ↔
      ∃ pre v post p4, vs = pre ++ v :: post ∧ Protocol.addUnions proto pre = .ok p4 ∧
        Union.fromModel p4 v = .panic := by
  induction vs with
  | nil => intro proto; simp [Protocol.addUnions]
  | cons v vs ih =>
    intro proto
    rw [Protocol.addUnions, bind_eq_panic]
    constructor
    · rintro (h | ⟨s, hs, h⟩)
      · exact ⟨[], v, vs, proto, rfl, rfl, h⟩
      · obtain ⟨pre, x, post, p4, rfl, h1, h2⟩ := ih.1 h
        exact ⟨v :: pre, x, post, p4, rfl, by rw [Protocol.addUnions, hs]; exact h1, h2⟩
    · rintro ⟨pre, x, post, p4, heq, h1, h2⟩
      cases pre with
      | nil =>
        cases heq
        cases h1
        exact .inl h2
      | cons y pre =>
        cases heq
        rw [Protocol.addUnions] at h1
        obtain ⟨s, hs, h1⟩ := Res.bind_eq_ok.1 h1
        exact .inr ⟨s, hs, ih.2 ⟨pre, x, post, p4, rfl, h1, h2⟩⟩

/-- C48: compiling a protocol panics exactly when its imports and enums are accepted and either one of
its structures panics after the ones before it are accepted (only in a checked build, see
`C48_struct_panics` and `C48_structs_release`), or all structures are accepted and one of its unions
panics after the ones before it are accepted (see `C48_union_panics`). -/
theorem C48_protocol_panics {p : Profile} {s : Resolver} {w : World} {v : Model.Protocol} :
    Protocol.fromModel p s w v = .panic ↔
      ∃ p1 p2, Protocol.addImports s (Protocol.empty v) v.imports = .ok p1 ∧
        Protocol.addEnums p1 v.enums = .ok p2 ∧
        ((∃ pre x post p3 n3, v.structs = pre ++ x :: post ∧
            Protocol.addStructs p w.next p2 pre = .ok (p3, n3) ∧
            Structure.fromModel p p3.structsByName p3.enumsByName p3.endianness n3 x = .panic) ∨
         ∃ p3 n3, Protocol.addStructs p w.next p2 v.structs = .ok (p3, n3) ∧
           ∃ pre u post p4, v.unions = pre ++ u :: post ∧ Protocol.addUnions p3 pre = .ok p4 ∧
             Union.fromModel p4 u = .panic) := by
  unfold Protocol.fromModel
  rw [bind_eq_panic]
  simp only [(C48_messages _).1, false_or]
  constructor
  · rintro ⟨p1, h1, h⟩
    rw [bind_eq_panic] at h
    rcases h with h | ⟨p2, h2, h⟩
    · exact absurd h ((C48_messages _).2.1 _)
    · refine ⟨p1, p2, h1, h2, ?_⟩
      rw [bind_eq_panic, structs_eq_panic] at h
      rcases h with h | ⟨⟨p3, n3⟩, h3, h⟩
      · exact .inl h
      · simp only at h
        rw [bind_eq_panic, unions_eq_panic] at h
        rcases h with h | ⟨p4, _, h⟩
        · exact .inr ⟨p3, n3, h3, h⟩
        · exact absurd h ((C48_messages _).2.2 _ _)
  · rintro ⟨p1, p2, h1, h2, h⟩
    refine ⟨p1, h1, ?_⟩
    rw [bind_eq_panic]
    refine .inr ⟨p2, h2, ?_⟩
    rw [bind_eq_panic, structs_eq_panic]
    rcases h with h | ⟨p3, n3, h3, h⟩
    · exact .inl h
    · refine .inr ⟨(p3, n3), h3, ?_⟩
      simp only
      rw [bind_eq_panic, unions_eq_panic]
      exact .inl h

/-- The whole C48: compiling never panics. -/
def C48_full : Prop := ∀ (p : Profile) (s : Resolver) (w : World) (v : Model.Protocol),
  Protocol.fromModel p s w v ≠ .panic

/-- C48 when, in a checked build, structures are below `2^64` bits and view parameters do not
overflow, and in all builds every discriminant path leads to a fixed-width field. -/
theorem C48_protocol_ok {p : Profile} {s : Resolver} {w : World} {v : Model.Protocol}
    (hs : p = .wrapping ∨ (∀ x ∈ v.structs, ∀ f ∈ x.fields, NoShift f) ∧
      ∀ p1, Protocol.addImports s (Protocol.empty v) v.imports = .ok p1 →
        DeclFits (p1.structsByName.map fun x => (x.1, x.2.bitSize)) v.structs)
    (hu : ∀ p2 p3 next, Protocol.addStructs p w.next p2 v.structs = .ok (p3, next) →
      ∀ u ∈ v.unions, ∀ name parts root, splitDot u.discriminant = name :: parts →
        p3.structsByName.lookup name = some root → ∃ leaf f is, Leads root parts leaf f is) :
    Protocol.fromModel p s w v ≠ .panic := by
  unfold Protocol.fromModel
  refine Res.bind_ne_panic ((C48_messages _).1 _ _) fun p1 h1 => ?_
  refine Res.bind_ne_panic ((C48_messages _).2.1 _) fun p2 h2 => ?_
  refine Res.bind_ne_panic ?_ fun r h3 => ?_
  · rcases hs with rfl | ⟨ha, hb⟩
    · exact C48_structs_release _ _ _
    · cases p with
      | wrapping => exact C48_structs_release _ _ _
      | checked =>
        obtain ⟨es, _, rfl, _⟩ := (C44_enums _ _ _).1 h2
        exact C48_structs ha (hb p1 h1)
  · obtain ⟨p3, next⟩ := r
    refine Res.bind_ne_panic ?_ fun p4 _ => (C48_messages _).2.2 _ _
    exact C48_unions fun u hu' => C48_union_ok (hu p2 p3 next h3 u hu')

/-- C48: a release build panics only on a union. -/
theorem C48_release {s : Resolver} {w : World} {v : Model.Protocol}
    (h : Protocol.fromModel .wrapping s w v = .panic) :
    ∃ p3 : Protocol, ∃ u ∈ v.unions, Union.fromModel p3 u = .panic := by
  unfold Protocol.fromModel at h
  cases h1 : Protocol.addImports s (Protocol.empty v) v.imports with
  | panic => exact absurd h1 ((C48_messages _).1 _ _)
  | err e => rw [h1] at h; cases h
  | ok p1 =>
    rw [h1, Res.bind_ok] at h
    cases h2 : Protocol.addEnums p1 v.enums with
    | panic => exact absurd h2 ((C48_messages _).2.1 _)
    | err e => rw [h2] at h; cases h
    | ok p2 =>
      rw [h2, Res.bind_ok] at h
      cases h3 : Protocol.addStructs .wrapping w.next p2 v.structs with
      | panic => exact absurd h3 (C48_structs_release _ _ _)
      | err e => rw [h3] at h; cases h
      | ok r =>
        obtain ⟨p3, next⟩ := r
        rw [h3, Res.bind_ok] at h
        refine ⟨p3, ?_⟩
        by_cases hc : ∃ u ∈ v.unions, Union.fromModel p3 u = .panic
        · exact hc
        · refine absurd h (Res.bind_ne_panic (C48_unions fun u hu hp => hc ⟨u, hu, hp⟩) fun p4 _ =>
            (C48_messages _).2.2 _ _)

example : ∃ p3 : Protocol, ∃ u ∈ [(⟨['U'], ['A'], []⟩ : Model.Union)], Union.fromModel p3 u = .panic :=
  C48_release (s := Resolver.none) (w := ⟨0, []⟩)
    (v := { name := ['p'], structs := [⟨['A'], [⟨['x'], .unsigned 8, none, none⟩]⟩],
            unions := [⟨['U'], ['A'], []⟩] }) rfl

/-- C48: loading panics only if compiling one of the models does. -/
theorem C48_loader {p : Profile} {l : Loader} {s : SimpleImportSolver} {w : World}
    (h : ∀ v ∈ l.importedModels.map Prod.snd ++ l.models, ∀ (s : Resolver) (w : World),
      Protocol.fromModel p s w v ≠ .panic) : Loader.compile p l s w ≠ .panic := by
  unfold Loader.compile
  refine Res.bind_ne_panic ?_ fun r hr => ?_
  · have : ∀ v ∈ l.importedModels, ∀ (s : Resolver) (w : World), Protocol.fromModel p s w v.2 ≠ .panic :=
      fun v hv => h v.2 (by simp only [List.mem_append, List.mem_map]; exact .inl ⟨v, hv, rfl⟩)
    clear h
    generalize l.importedModels = vs at this
    induction vs generalizing s w with
    | nil => simp [Loader.compileImports]
    | cons v vs ih =>
      exact Res.bind_ne_panic (this v (by simp) _ _) fun _ _ => ih fun v hv => this v (by simp [hv])
  · have : ∀ v ∈ l.models, ∀ (s : Resolver) (w : World), Protocol.fromModel p s w v ≠ .panic :=
      fun v hv => h v (by simp [hv])
    clear h
    generalize l.models = vs at this
    obtain ⟨s', w'⟩ := r
    clear hr
    simp only
    induction vs generalizing w' with
    | nil => simp [Loader.compileModels]
    | cons v vs ih =>
      exact Res.bind_ne_panic (this v (by simp) _ _) fun _ _ =>
        Res.bind_ne_panic (ih (fun v hv => this v (by simp [hv])) _) fun _ _ => by simp

/-- C48: models without unions never make a release build panic. -/
theorem C48_no_unions {l : Loader} {s : SimpleImportSolver} {w : World}
    (h : ∀ v ∈ l.importedModels.map Prod.snd ++ l.models, v.unions = []) :
    Loader.compile .wrapping l s w ≠ .panic :=
  C48_loader fun v hv _ _ hp => by
    obtain ⟨p3, u, hu, _⟩ := C48_release hp
    rw [h v hv] at hu
    simp at hu

example : Loader.compile .wrapping ⟨[Ex.user], [("lib".toList, Ex.lib)]⟩ SimpleImportSolver.default ⟨0, []⟩ ≠ .panic :=
  C48_no_unions (by
    intro v hv
    simp at hv
    rcases hv with rfl | rfl <;> rfl)

/-- C48 is false of the code. -/
theorem C48_full_false : ¬ C48_full ∧
    -- a signed field of no bit
    Protocol.fromModel .checked Resolver.none ⟨0, []⟩
      { name := ['p'], structs := [⟨['A'], [⟨['x'], .signed 0, none, none⟩]⟩] } = .panic ∧
    -- a signed field of more than 64 bits
    Protocol.fromModel .checked Resolver.none ⟨0, []⟩
      { name := ['p'], structs := [⟨['A'], [⟨['x'], .signed 66, none, none⟩]⟩] } = .panic ∧
    -- a float range on 64 bits
    Protocol.fromModel .checked Resolver.none ⟨0, []⟩
      { name := ['p'], structs := [⟨['A'], [⟨['x'], .float 64, some (.floatRange 0 1), none⟩]⟩] } = .panic ∧
    -- more than 2^64 bits
    Protocol.fromModel .checked Resolver.none ⟨0, []⟩
      { name := ['p'], structs := [⟨['A'], [⟨['x'], .unsigned 8, none, some (2 ^ 61)⟩]⟩] } = .panic ∧
    -- a discriminant without field
    Protocol.fromModel .wrapping Resolver.none ⟨0, []⟩
      { name := ['p'], structs := [⟨['A'], [⟨['x'], .unsigned 8, none, none⟩]⟩],
        unions := [⟨['U'], ['A'], []⟩] } = .panic := by
  have h : Protocol.fromModel .checked Resolver.none ⟨0, []⟩
      { name := ['p'], structs := [⟨['A'], [⟨['x'], .signed 0, none, none⟩]⟩] } = .panic := by rfl
  exact ⟨fun hf => hf _ _ _ _ h, h, by rfl, by rfl, by rfl, by rfl⟩

example : Protocol.fromModel .checked Resolver.none ⟨0, []⟩ Ex.sizes ≠ .panic := by
  refine C48_protocol_ok (.inr ⟨?_, ?_⟩) ?_
  · intro x hx f hf
    simp only [Ex.sizes, List.mem_singleton] at hx
    subst hx
    simp only [List.mem_cons, List.not_mem_nil, or_false] at hf
    rcases hf with rfl | rfl <;> simp [NoShift]
  · intro p1 h
    cases h
    simp [Ex.sizes, DeclFits, declBits]
  · intro _ _ _ _ u hu
    simp [Ex.sizes] at hu

end Proto.Props
