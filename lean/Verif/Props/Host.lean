import Verif.Compiler.Word
import Verif.Props.Views
import Verif.Props.Compile
import Verif.Base.Lit

/-!
# C116: the compiler on hosts whose `usize` is narrower than 64 bits
-/

namespace Proto

open Spec Props

/-! ## At 64 bits nothing changes -/

theorem View.fromModelAt_64 (p : Profile) (enums : List (Name × Enum)) (ty : Model.SimpleTy) (n : Nat)
    (v : Option Model.FieldView) : View.fromModelAt 64 p enums ty n v = View.fromModel p enums ty n v := by
  rcases v with _ | (_ | _ | _) <;> rfl

theorem SField.fromModelAt_64 (p : Profile) (structs : List (Name × Structure)) (enums : List (Name × Enum))
    (e : Endian) (last : Nat) (v : Model.SField) :
    SField.fromModelAt 64 p structs enums e last v = SField.fromModel p structs enums e last v := by
  unfold SField.fromModelAt SField.fromModel
  simp only [View.fromModelAt_64, usizeBits]
  rfl

theorem SField.fromModelsAt_64 (p : Profile) (structs : List (Name × Structure))
    (enums : List (Name × Enum)) (e : Endian) (last : Nat) (vs : List Model.SField) :
    SField.fromModelsAt 64 p structs enums e last vs = SField.fromModels p structs enums e last vs := by
  induction vs generalizing last with
  | nil => rfl
  | cons v vs ih => simp only [SField.fromModelsAt, SField.fromModels, SField.fromModelAt_64, ih]

theorem Structure.fromModelAt_64 (p : Profile) (structs : List (Name × Structure))
    (enums : List (Name × Enum)) (e : Endian) (id : Nat) (v : Model.Structure) :
    Structure.fromModelAt 64 p structs enums e id v = Structure.fromModel p structs enums e id v := by
  simp only [Structure.fromModelAt, Structure.fromModel, SField.fromModelsAt_64]

theorem UCase.caseValueAt_64 (view : View) (case : Name) :
    UCase.caseValueAt 64 view case = UCase.caseValue view case := by
  cases view <;> rfl

theorem Union.casesFromModelAt_64 (proto : Protocol) (d : Discriminant) (vs : List Model.UCase) :
    Union.casesFromModelAt 64 proto d vs = Union.casesFromModel proto d vs := by
  induction vs with
  | nil => rfl
  | cons v vs ih =>
    simp only [Union.casesFromModelAt, Union.casesFromModel, UCase.fromModelAt, UCase.fromModel,
      UCase.caseValueAt_64, ih]

theorem Protocol.addStructsAt_64 (p : Profile) (next : Nat) (proto : Protocol) (vs : List Model.Structure) :
    Protocol.addStructsAt 64 p next proto vs = Protocol.addStructs p next proto vs := by
  induction vs generalizing next proto with
  | nil => rfl
  | cons v vs ih => simp only [Protocol.addStructsAt, Protocol.addStructs, Structure.fromModelAt_64, ih]

theorem Protocol.addUnionsAt_64 (proto : Protocol) (vs : List Model.Union) :
    Protocol.addUnionsAt 64 proto vs = Protocol.addUnions proto vs := by
  induction vs generalizing proto with
  | nil => rfl
  | cons v vs ih =>
    simp only [Protocol.addUnionsAt, Protocol.addUnions, Union.fromModelAt, Union.fromModel,
      Union.casesFromModelAt_64, ih]

theorem Protocol.fromModelAt_64 (p : Profile) (solver : Resolver) (world : World) (v : Model.Protocol) :
    Protocol.fromModelAt 64 p solver world v = Protocol.fromModel p solver world v := by
  simp only [Protocol.fromModelAt, Protocol.fromModel, Protocol.addStructsAt_64, Protocol.addUnionsAt_64]

theorem Loader.compileImportsAt_64 (p : Profile) (solver : SimpleImportSolver) (world : World)
    (vs : List (Name × Model.Protocol)) :
    Loader.compileImportsAt 64 p solver world vs = Loader.compileImports p solver world vs := by
  induction vs generalizing solver world with
  | nil => rfl
  | cons v vs ih => simp only [Loader.compileImportsAt, Loader.compileImports, Protocol.fromModelAt_64, ih]

theorem Loader.compileModelsAt_64 (p : Profile) (solver : Resolver) (world : World)
    (vs : List Model.Protocol) :
    Loader.compileModelsAt 64 p solver world vs = Loader.compileModels p solver world vs := by
  induction vs generalizing world with
  | nil => rfl
  | cons v vs ih => simp only [Loader.compileModelsAt, Loader.compileModels, Protocol.fromModelAt_64, ih]

/-! ## Narrower hosts with overflow checks -/

/-- The same result, or a panic on the narrower host. -/
def Res.SameOrPanic (x y : Res ε α) : Prop := x = y ∨ x = .panic

/-- Whatever the narrower host accepts has the same result. -/
def Res.SameIfOk (x y : Res ε α) : Prop := ∀ a, x = .ok a → y = .ok a

/-- A way to compare the compilers of two hosts. -/
structure HostRel (w : Nat) (ok : Name → Prop) (rel : ∀ {α : Type}, C α → C α → Prop) : Prop where
  refl : ∀ {α} (x : C α), rel x x
  panic : ∀ {α} (x : C α), rel .panic x
  bind : ∀ {α β} {x y : C α} {f g : α → C β}, rel x y → (∀ a, x = .ok a → rel (f a) (g a)) →
    rel (x >>= f) (y >>= g)
  case : ∀ view case, ok case → rel (UCase.caseValueAt w view case) (UCase.caseValue view case)

namespace HostRel

variable {w : Nat} {ok : Name → Prop} {rel : ∀ {α : Type}, C α → C α → Prop}

theorem bind' (c : HostRel w ok rel) {x : C α} {f g : α → C β} (h : ∀ a, x = .ok a → rel (f a) (g a)) :
    rel (x >>= f) (x >>= g) := c.bind (c.refl x) h

theorem add (c : HostRel w ok rel) (hw : w ≤ 64) (p : Profile) (a b : Nat) :
    rel (addU .checked w a b) (addU p usizeBits a b) := by
  have h64 : (2 : Nat) ^ w ≤ 2 ^ usizeBits := Nat.pow_le_pow_right (by omega) hw
  by_cases h : a + b < 2 ^ w
  · rw [addU_ok _ h, addU_ok p (Nat.lt_of_lt_of_le h h64)]
    exact c.refl _
  · simp only [addU, if_neg h]
    exact c.panic _

theorem mul (c : HostRel w ok rel) (hw : w ≤ 64) (p : Profile) (a b : Nat) :
    rel (mulU .checked w a b) (mulU p usizeBits a b) := by
  have h64 : (2 : Nat) ^ w ≤ 2 ^ usizeBits := Nat.pow_le_pow_right (by omega) hw
  by_cases h : a * b < 2 ^ w
  · rw [mulU_ok _ h, mulU_ok p (Nat.lt_of_lt_of_le h h64)]
    exact c.refl _
  · simp only [mulU, if_neg h]
    exact c.panic _

theorem sub (c : HostRel w ok rel) (p : Profile) (W a b : Nat) :
    rel (subU .checked w a b) (subU p W a b) := by
  by_cases h : b ≤ a
  · rw [subU_ok _ h, subU_ok p h]
    exact c.refl _
  · simp only [subU, if_neg h]
    exact c.panic _

theorem shl (c : HostRel w ok rel) (hw : w ≤ 64) (p : Profile) (s : Nat) :
    rel (shlU .checked w 1 s) (shlU p usizeBits 1 s) := by
  by_cases h : s < w
  · have h' : s < usizeBits := Nat.lt_of_lt_of_le h hw
    rw [shlU_ok _ h, shlU_ok p h', Nat.one_shiftLeft, Nat.mod_eq_of_lt (Nat.pow_lt_pow_right (by omega) h),
      Nat.mod_eq_of_lt (Nat.pow_lt_pow_right (by omega) h')]
    exact c.refl _
  · simp only [shlU, if_neg h]
    exact c.panic _

theorem view (c : HostRel w ok rel) (hw : w ≤ 64) (p : Profile) (enums : List (Name × Enum))
    (ty : Model.SimpleTy) (n : Nat) (v : Option Model.FieldView) :
    rel (View.fromModelAt w .checked enums ty n v) (View.fromModel p enums ty n v) := by
  rcases v with _ | (_ | _ | _)
  · unfold View.fromModelAt View.fromModel
    simp only
    split
    · exact c.refl _
    · split
      · exact c.bind (c.sub p _ _ _) fun a _ => c.bind (c.shl hw p a) fun b _ =>
          c.bind (c.sub p _ _ _) fun _ _ => c.refl _
      · exact c.refl _
  · exact c.refl _
  · unfold View.fromModelAt View.fromModel
    simp only
    split
    · exact c.refl _
    · exact c.bind (c.shl hw p n) fun a _ => c.bind (c.sub p _ _ _) fun _ _ => c.refl _
  · exact c.refl _

theorem field (c : HostRel w ok rel) (hw : w ≤ 64) (p : Profile) (structs : List (Name × Structure))
    (enums : List (Name × Enum)) (e : Endian) (last : Nat) (v : Model.SField) :
    rel (SField.fromModelAt w .checked structs enums e last v) (SField.fromModel p structs enums e last v) := by
  obtain ⟨name, info, vw, len⟩ := v
  cases info with
  | struct n => exact c.bind' fun r _ => c.bind (c.add hw p _ _) fun _ _ => c.refl _
  | _ =>
    refine c.bind' fun bits _ => c.bind (c.view hw p _ _ _ _) fun view _ =>
      c.bind (c.mul hw p _ _) fun size _ => c.bind' fun ty _ => ?_
    dsimp only
    split
    · split
      · exact c.refl _
      · exact c.bind (c.add hw p _ _) fun _ _ => c.refl _
    · exact c.bind (c.add hw p _ _) fun _ _ => c.refl _

theorem fields (c : HostRel w ok rel) (hw : w ≤ 64) (p : Profile) (structs : List (Name × Structure))
    (enums : List (Name × Enum)) (e : Endian) (vs : List Model.SField) (last : Nat) :
    rel (SField.fromModelsAt w .checked structs enums e last vs)
      (SField.fromModels p structs enums e last vs) := by
  induction vs generalizing last with
  | nil => exact c.refl _
  | cons v vs ih =>
    exact c.bind (c.field hw p structs enums e last v) fun a _ => c.bind (ih a.2) fun _ _ => c.refl _

theorem structure' (c : HostRel w ok rel) (hw : w ≤ 64) (p : Profile) (structs : List (Name × Structure))
    (enums : List (Name × Enum)) (e : Endian) (id : Nat) (v : Model.Structure) :
    rel (Structure.fromModelAt w .checked structs enums e id v)
      (Structure.fromModel p structs enums e id v) :=
  c.bind (c.fields hw p structs enums e v.fields 0) fun _ _ => c.refl _

theorem addStructs (c : HostRel w ok rel) (hw : w ≤ 64) (p : Profile) (vs : List Model.Structure)
    (next : Nat) (proto : Protocol) :
    rel (Protocol.addStructsAt w .checked next proto vs) (Protocol.addStructs p next proto vs) := by
  induction vs generalizing next proto with
  | nil => exact c.refl _
  | cons v vs ih => exact c.bind (c.structure' hw p _ _ _ _ v) fun _ _ => ih _ _

theorem cases (c : HostRel w ok rel) (proto : Protocol) (d : Discriminant) (vs : List Model.UCase)
    (h : ∀ k ∈ vs, ok k.case) :
    rel (Union.casesFromModelAt w proto d vs) (Union.casesFromModel proto d vs) := by
  induction vs with
  | nil => exact c.refl _
  | cons v vs ih =>
    refine c.bind' fun leaf _ => c.bind ?_ fun _ _ => c.bind (ih fun k hk => h k (List.mem_cons_of_mem _ hk))
      fun _ _ => c.refl _
    exact c.bind (c.case leaf.view v.case (h v (List.mem_cons_self ..))) fun _ _ => c.refl _

theorem addUnions (c : HostRel w ok rel) (vs : List Model.Union)
    (h : ∀ u ∈ vs, ∀ k ∈ u.cases, ok k.case) (proto : Protocol) :
    rel (Protocol.addUnionsAt w proto vs) (Protocol.addUnions proto vs) := by
  induction vs generalizing proto with
  | nil => exact c.refl _
  | cons v vs ih =>
    refine c.bind ?_ fun _ _ => ih (fun u hu => h u (List.mem_cons_of_mem _ hu)) _
    exact c.bind' fun d _ => c.bind (c.cases proto d v.cases (h v (List.mem_cons_self ..))) fun _ _ => c.refl _

theorem protocol (c : HostRel w ok rel) (hw : w ≤ 64) (p : Profile) (solver : Resolver) (world : World)
    (v : Model.Protocol) (h : ∀ u ∈ v.unions, ∀ k ∈ u.cases, ok k.case) :
    rel (Protocol.fromModelAt w .checked solver world v) (Protocol.fromModel p solver world v) :=
  c.bind' fun _ _ => c.bind' fun _ _ => c.bind (c.addStructs hw p _ _ _) fun _ _ =>
    c.bind (c.addUnions _ h _) fun _ _ => c.refl _

theorem imports (c : HostRel w ok rel) (hw : w ≤ 64) (p : Profile) (vs : List (Name × Model.Protocol))
    (h : ∀ x ∈ vs, ∀ u ∈ x.2.unions, ∀ k ∈ u.cases, ok k.case) (solver : SimpleImportSolver)
    (world : World) :
    rel (Loader.compileImportsAt w .checked solver world vs) (Loader.compileImports p solver world vs) := by
  induction vs generalizing solver world with
  | nil => exact c.refl _
  | cons v vs ih =>
    exact c.bind (c.protocol hw p _ _ v.2 (h v (List.mem_cons_self ..))) fun _ _ =>
      ih (fun x hx => h x (List.mem_cons_of_mem _ hx)) _ _

theorem models (c : HostRel w ok rel) (hw : w ≤ 64) (p : Profile) (solver : Resolver)
    (vs : List Model.Protocol) (h : ∀ x ∈ vs, ∀ u ∈ x.unions, ∀ k ∈ u.cases, ok k.case) (world : World) :
    rel (Loader.compileModelsAt w .checked solver world vs) (Loader.compileModels p solver world vs) := by
  induction vs generalizing world with
  | nil => exact c.refl _
  | cons v vs ih =>
    exact c.bind (c.protocol hw p _ _ v (h v (List.mem_cons_self ..))) fun _ _ =>
      c.bind (ih (fun x hx => h x (List.mem_cons_of_mem _ hx)) _) fun _ _ => c.refl _

theorem compile (c : HostRel w ok rel) (hw : w ≤ 64) (p : Profile) (l : Loader)
    (solver : SimpleImportSolver) (world : World)
    (h : ∀ v ∈ l.models ++ l.importedModels.map Prod.snd, ∀ u ∈ v.unions, ∀ k ∈ u.cases, ok k.case) :
    rel (l.compileAt w .checked solver world) (l.compile p solver world) := by
  refine c.bind (c.imports hw p _ (fun x hx => h x.2 ?_) _ _) fun _ _ =>
    c.models hw p _ _ (fun x hx => h x ?_) _
  · exact List.mem_append_right _ (List.mem_map_of_mem hx)
  · exact List.mem_append_left _ hx

end HostRel

/-- A case without a minus sign. -/
def Model.Unsigned (case : Name) : Prop := case.head? ≠ some '-'

/-- The number of a case without a minus sign fits the signed numbers of the host. -/
def Model.CaseFits (w : Nat) (case : Name) : Prop :=
  Model.Unsigned case ∧ ∀ n, parseUsize case = some n → n < 2 ^ (w - 1)

theorem parseIsizeAt_unsigned {case : Name} (h : Model.Unsigned case) (w : Nat) :
    parseIsizeAt w case = match parseUsizeAt (w - 1) case with | some n => some (n : Int) | none => none := by
  have key : ∀ cs : List Char, (match parseNat cs with
      | some n => if n < 2 ^ (w - 1) then some (n : Int) else none
      | none => none) =
      (match (match parseNat cs with
        | some n => if n < 2 ^ (w - 1) then some n else none
        | none => none) with
      | some n => some (n : Int)
      | none => none) := by
    intro cs
    cases parseNat cs with
    | none => rfl
    | some n =>
      dsimp only
      split <;> rfl
  cases case with
  | nil => rfl
  | cons c cs =>
    by_cases h1 : c = '-'
    · subst h1
      exact absurd rfl h
    · by_cases h2 : c = '+'
      · subst h2
        exact key cs
      · unfold parseIsizeAt parseUsizeAt
        split
        · next h3 => cases h3; exact absurd rfl h1
        · next h3 => cases h3; exact absurd rfl h2
        · refine (key _).trans ?_
          congr 1
          dsimp only
          split
          · next h3 => split <;> simp_all
          · next h3 => split <;> simp_all

theorem parseUsizeAt_some {w n : Nat} {case : Name} (h : parseUsizeAt w case = some n) :
    n < 2 ^ w ∧ ∀ W, n < 2 ^ W → parseUsizeAt W case = some n := by
  unfold parseUsizeAt at h ⊢
  dsimp only at h ⊢
  split at h
  · next k hk =>
    split at h
    · next hlt =>
      cases h
      refine ⟨hlt, fun W hW => ?_⟩
      simp only [if_pos hW]
    · cases h
  · cases h

theorem isizeAsUsizeAt_nat {w n : Nat} (h : n < 2 ^ w) : isizeAsUsizeAt w (n : Int) = n := by
  unfold isizeAsUsizeAt
  have : ((n : Int) % (2 : Int) ^ w) = ((n % 2 ^ w : Nat) : Int) := by simp
  rw [this, Int.toNat_natCast, Nat.mod_eq_of_lt h]

/-- The value of a case without sign in a signed field, on any host. -/
theorem signedCase_unsigned {case : Name} (h : Model.Unsigned case) (w : Nat) :
    (parseIsizeAt w case).map (isizeAsUsizeAt w) = parseUsizeAt (w - 1) case := by
  rw [parseIsizeAt_unsigned h]
  cases hc : parseUsizeAt (w - 1) case with
  | none => rfl
  | some n =>
    have h1 := (parseUsizeAt_some hc).1
    have h2 : (2 : Nat) ^ (w - 1) ≤ 2 ^ w := Nat.pow_le_pow_right (by omega) (by omega)
    simp only [Option.map_some, isizeAsUsizeAt_nat (Nat.lt_of_lt_of_le h1 h2)]

theorem parseUsizeAt_le {w W : Nat} (h : w ≤ W) {n : Nat} {case : Name}
    (hc : parseUsizeAt w case = some n) : parseUsizeAt W case = some n := by
  obtain ⟨h1, h2⟩ := parseUsizeAt_some hc
  exact h2 W (Nat.lt_of_lt_of_le h1 (Nat.pow_le_pow_right (by omega) h))

theorem caseValueAt_ok {w : Nat} (hw : w ≤ 64) {view : View} {case : Name} (h : Model.Unsigned case) {n : Nat}
    (hc : UCase.caseValueAt w view case = .ok n) : UCase.caseValue view case = .ok n := by
  rw [← UCase.caseValueAt_64]
  have key : ∀ x y : Option Nat, (∀ n, x = some n → y = some n) →
      (Res.ofOption (.invalidUnionCase case) x : C Nat) = .ok n →
      (Res.ofOption (.invalidUnionCase case) y : C Nat) = .ok n := by
    intro x y hxy hx
    cases x with
    | none => cases hx
    | some m => rw [hxy m rfl]; exact hx
  cases view <;> simp only [UCase.caseValueAt] at hc ⊢
  · cases hc
  · exact hc
  · rw [signedCase_unsigned h] at hc ⊢
    exact key _ _ (fun n => parseUsizeAt_le (by omega)) hc
  · rw [signedCase_unsigned h] at hc ⊢
    exact key _ _ (fun n => parseUsizeAt_le (by omega)) hc
  · exact key _ _ (fun n => parseUsizeAt_le hw) hc

theorem caseValueAt_fits {w : Nat} (hw : w ≤ 64) (view : View) {case : Name} (h : Model.CaseFits w case) :
    UCase.caseValueAt w view case = UCase.caseValue view case := by
  rw [← UCase.caseValueAt_64]
  have hlow : ∀ W, w - 1 ≤ W → W ≤ 64 → parseUsizeAt W case = parseUsizeAt 64 case := by
    intro W h1 h2
    cases hc : parseUsizeAt 64 case with
    | some n =>
      have hn : n < 2 ^ (w - 1) := h.2 n hc
      exact (parseUsizeAt_some hc).2 W (Nat.lt_of_lt_of_le hn (Nat.pow_le_pow_right (by omega) h1))
    | none =>
      cases hc' : parseUsizeAt W case with
      | none => rfl
      | some n => rw [parseUsizeAt_le h2 hc'] at hc; cases hc
  cases view <;> simp only [UCase.caseValueAt]
  · rw [signedCase_unsigned h.1, signedCase_unsigned h.1, hlow (w - 1) (by omega) (by omega),
      hlow 63 (by omega) (by omega)]
  · rw [signedCase_unsigned h.1, signedCase_unsigned h.1, hlow (w - 1) (by omega) (by omega),
      hlow 63 (by omega) (by omega)]
  · rw [hlow w (by omega) hw]

theorem sameIfOkRel {w : Nat} (hw : w ≤ 64) : HostRel w Model.Unsigned (fun x y => Res.SameIfOk x y) where
  refl x a h := h
  panic x a h := by cases h
  bind hx hf b h := by
    obtain ⟨a, h1, h2⟩ := Res.bind_eq_ok.1 h
    exact Res.bind_eq_ok.2 ⟨a, hx a h1, hf a h1 b h2⟩
  case view case h n hc := caseValueAt_ok hw h hc

theorem sameOrPanicRel {w : Nat} (hw : w ≤ 64) :
    HostRel w (Model.CaseFits w) (fun x y => Res.SameOrPanic x y) where
  refl x := .inl rfl
  panic x := .inr rfl
  bind {α β x y f g} hx hf := by
    rcases hx with rfl | rfl
    · cases x with
      | ok a =>
        simp only [Res.bind_ok]
        exact hf a rfl
      | err e => exact .inl rfl
      | panic => exact .inl rfl
    · exact .inr rfl
  case view case h := .inl (caseValueAt_fits hw view h)

/-- The number written in a case without minus sign. -/
def Plain (case : Name) (n : Nat) : Prop := Numeral case n ∨ ∃ cs, case = '+' :: cs ∧ Numeral cs n

theorem plain_of_parse {case : Name} {n : Nat} (h : parseUsize case = some n) : Plain case n :=
  ((C59_unsigned case n).1 (by simp only [UCase.caseValue, h, Res.ofOption_some])).2

/-! ## What fits a narrower host -/

theorem shlU_one {p : Profile} {w s : Nat} (h : s < w) : (shlU p w 1 s : C Nat) = .ok (2 ^ s) := by
  rw [shlU_ok p h, Nat.one_shiftLeft, Nat.mod_eq_of_lt (Nat.pow_lt_pow_right (by omega) h)]

theorem View.fromModelAt_narrow {w : Nat} (hw : w ≤ 64) (p : Profile) {enums : List (Name × Enum)}
    {ty : Model.SimpleTy} {n : Nat} {v : Option Model.FieldView}
    (hs : v = Option.none → ty = .signed → n = 8 ∨ n = 16 ∨ n = 32 ∨ n = 64 ∨ n ≤ w)
    (hf : ∀ lo hi, v = some (.floatRange lo hi) → ty = .float → n < w) {view : View}
    (h : View.fromModel .checked enums ty n v = .ok view) :
    View.fromModelAt w p enums ty n v = .ok view := by
  rcases v with _ | (_ | ⟨lo, hi⟩ | _)
  · unfold View.fromModel at h
    unfold View.fromModelAt
    simp only at h ⊢
    split
    · next h1 => rw [if_pos h1] at h; cases h
    · next h1 =>
      rw [if_neg h1] at h
      split
      · next h2 =>
        rw [if_pos h2] at h
        obtain ⟨a, ha, h⟩ := Res.bind_eq_ok.1 h
        have h1n : 1 ≤ n := by
          by_cases hn : 1 ≤ n
          · exact hn
          · simp only [subU, if_neg hn] at ha; cases ha
        rw [subU_ok _ h1n] at ha
        cases ha
        have hnw : n ≤ w := by
          have := hs rfl h2.1
          omega
        have h64 : n - 1 < usizeBits := by unfold usizeBits; omega
        rw [shlU_one h64] at h
        rw [subU_ok _ h1n]
        simp only [Res.bind_ok]
        rw [shlU_one (by omega)]
        have hp := Nat.two_pow_pos (n - 1)
        simp only [Res.bind_ok, subU_ok _ hp] at h ⊢
        exact h
      · next h2 =>
        rw [if_neg h2] at h
        exact h
  · exact h
  · unfold View.fromModel at h
    unfold View.fromModelAt
    simp only at h ⊢
    split
    · next h1 => rw [if_pos h1] at h; cases h
    · next h1 =>
      rw [if_neg h1] at h
      have hnw := hf lo hi rfl (Decidable.not_not.1 h1)
      have h64 : n < usizeBits := by unfold usizeBits; omega
      rw [shlU_one h64] at h
      rw [shlU_one hnw]
      have hp := Nat.two_pow_pos n
      simp only [Res.bind_ok, subU_ok _ hp] at h ⊢
      exact h
  · exact h

/-- The field can be compiled on a host of `w` bits: an integer with a sign that is stored with fewer
bits than its type is at most as wide as a word, and a float with a range is narrower than a word. -/
def Model.SField.FitsHost (w : Nat) (v : Model.SField) : Prop :=
  (v.view = none → ∀ n, v.info = .signed n → n = 8 ∨ n = 16 ∨ n = 32 ∨ n = 64 ∨ n ≤ w) ∧
  (∀ lo hi, v.view = some (.floatRange lo hi) → ∀ n, v.info = .float n → n < w)

theorem SField.fromModelAt_narrow {w : Nat} (hw : w ≤ 64) (p : Profile) {structs : List (Name × Structure)}
    {enums : List (Name × Enum)} {e : Endian} {last : Nat} {v : Model.SField} (hv : v.FitsHost w)
    {f : SField} {next : Nat} (h : SField.fromModel .checked structs enums e last v = .ok (f, next))
    (hn : next < 2 ^ w) :
    SField.fromModelAt w p structs enums e last v = .ok (f, next) ∧ last ≤ next := by
  have hadd : ∀ {a b c : Nat}, (addU .checked usizeBits a b : C Nat) = .ok c → c < 2 ^ w →
      (addU p w a b : C Nat) = .ok c ∧ a ≤ c ∧ b ≤ c := by
    intro a b c hab hc
    obtain ⟨rfl, -⟩ := addU_eq_ok hab (.inl rfl)
    exact ⟨addU_ok p hc, by omega, by omega⟩
  have hmul : ∀ {a b c : Nat}, (mulU .checked usizeBits a b : C Nat) = .ok c → c < 2 ^ w →
      (mulU p w a b : C Nat) = .ok c := by
    intro a b c hab hc
    obtain ⟨rfl, -⟩ := mulU_eq_ok hab (.inl rfl)
    exact mulU_ok p hc
  have hview : ∀ {n view}, v.info.bitSize? = some n → View.fromModel .checked enums v.info.simple n v.view = .ok view →
      View.fromModelAt w p enums v.info.simple n v.view = .ok view := by
    intro n view hb hvw
    refine View.fromModelAt_narrow hw p (fun h0 h1 => hv.1 h0 n ?_) (fun lo hi h0 h1 => hv.2 lo hi h0 n ?_) hvw
    · revert hb h1; cases v.info <;> simp [Model.FieldTy.bitSize?, Model.FieldTy.simple]
    · revert hb h1; cases v.info <;> simp [Model.FieldTy.bitSize?, Model.FieldTy.simple]
  obtain ⟨name, info, vw, len⟩ := v
  cases info with
  | struct n =>
    unfold SField.fromModel at h
    unfold SField.fromModelAt
    dsimp only at h ⊢
    obtain ⟨r, hr, h⟩ := Res.bind_eq_ok.1 h
    obtain ⟨nx, ha, h⟩ := Res.bind_eq_ok.1 h
    cases h
    obtain ⟨h1, h2, -⟩ := hadd ha hn
    rw [hr]
    simp only [Res.bind_ok, h1, Res.pure_eq, true_and]
    exact h2
  | _ n =>
    unfold SField.fromModel at h
    unfold SField.fromModelAt
    dsimp only [Model.FieldTy.bitSize?] at h hview ⊢
    simp only [Res.ofOption_some, Res.bind_ok] at h ⊢
    obtain ⟨view, hvw, h⟩ := Res.bind_eq_ok.1 h
    obtain ⟨size, hm, h⟩ := Res.bind_eq_ok.1 h
    obtain ⟨ty, hty, h⟩ := Res.bind_eq_ok.1 h
    rw [hview rfl hvw]
    simp only [Res.bind_ok]
    split at h
    · next hl =>
      split at h
      · cases h
      · next h8 =>
        obtain ⟨nx, ha, h⟩ := Res.bind_eq_ok.1 h
        cases h
        obtain ⟨h1, h2, h3⟩ := hadd ha hn
        rw [hmul hm (by omega)]
        simp only [Res.bind_ok, hty, if_pos hl, if_neg h8, h1, Res.pure_eq, true_and]
        exact h2
    · next hl =>
      obtain ⟨nx, ha, h⟩ := Res.bind_eq_ok.1 h
      cases h
      obtain ⟨h1, h2, h3⟩ := hadd ha hn
      rw [hmul hm (by omega)]
      simp only [Res.bind_ok, hty, if_neg hl, h1, Res.pure_eq, true_and]
      exact h2

theorem SField.fromModels_le {structs : List (Name × Structure)} {enums : List (Name × Enum)} {e : Endian}
    {vs : List Model.SField} {last final : Nat} {fs : List SField}
    (h : SField.fromModels .checked structs enums e last vs = .ok (fs, final)) : last ≤ final := by
  have := (SField.fromModels_spec h (.inl rfl)).1
  omega

theorem SField.fromModelsAt_narrow {w : Nat} (hw : w ≤ 64) (p : Profile) {structs : List (Name × Structure)}
    {enums : List (Name × Enum)} {e : Endian} {vs : List Model.SField} (hv : ∀ v ∈ vs, v.FitsHost w)
    {last final : Nat} {fs : List SField}
    (h : SField.fromModels .checked structs enums e last vs = .ok (fs, final)) (hn : final < 2 ^ w) :
    SField.fromModelsAt w p structs enums e last vs = .ok (fs, final) := by
  induction vs generalizing last fs with
  | nil => exact h
  | cons v vs ih =>
    obtain ⟨⟨f, next⟩, h1, h⟩ := Res.bind_eq_ok.1 h
    obtain ⟨⟨fs', final'⟩, h2, h⟩ := Res.bind_eq_ok.1 h
    cases h
    have hle := SField.fromModels_le h2
    have e1 := (SField.fromModelAt_narrow hw p (hv v (List.mem_cons_self ..)) h1 (by omega)).1
    have e2 := ih (fun x hx => hv x (List.mem_cons_of_mem _ hx)) h2
    simp only [SField.fromModelsAt, e1, Res.bind_ok, e2, Res.pure_eq]

theorem Structure.fromModelAt_narrow {w : Nat} (hw : w ≤ 64) (p : Profile) {structs : List (Name × Structure)}
    {enums : List (Name × Enum)} {e : Endian} {id : Nat} {d : Model.Structure} (hv : ∀ v ∈ d.fields, v.FitsHost w)
    {s : Structure} (h : Structure.fromModel .checked structs enums e id d = .ok s) (hn : s.bitSize < 2 ^ w) :
    Structure.fromModelAt w p structs enums e id d = .ok s := by
  unfold Structure.fromModel at h
  obtain ⟨⟨fs, last⟩, h1, h⟩ := Res.bind_eq_ok.1 h
  cases h
  unfold Structure.fromModelAt
  rw [SField.fromModelsAt_narrow hw p hv h1 hn]
  rfl

theorem addStructs_keeps {p : Profile} {vs : List Model.Structure} {next next' : Nat} {proto proto' : Protocol}
    (h : Protocol.addStructs p next proto vs = .ok (proto', next')) : ∀ s ∈ proto.structs, s ∈ proto'.structs := by
  induction vs generalizing next proto with
  | nil => cases h; exact fun s hs => hs
  | cons v vs ih =>
    obtain ⟨x, -, h⟩ := Res.bind_eq_ok.1 h
    exact fun s hs => ih h s (List.mem_append_left _ hs)

theorem addStructsAt_narrow {w : Nat} (hw : w ≤ 64) (p : Profile) {vs : List Model.Structure}
    (hv : ∀ d ∈ vs, ∀ v ∈ d.fields, v.FitsHost w) {next next' : Nat} {proto proto' : Protocol}
    (h : Protocol.addStructs .checked next proto vs = .ok (proto', next'))
    (hn : ∀ s ∈ proto'.structs, s.bitSize < 2 ^ w) :
    Protocol.addStructsAt w p next proto vs = .ok (proto', next') := by
  induction vs generalizing next proto with
  | nil => exact h
  | cons v vs ih =>
    obtain ⟨x, h1, h⟩ := Res.bind_eq_ok.1 h
    have hx : x ∈ proto'.structs := addStructs_keeps h x (by simp)
    unfold Protocol.addStructsAt
    rw [Structure.fromModelAt_narrow hw p (hv v (List.mem_cons_self ..)) h1 (hn x hx)]
    exact ih (fun d hd => hv d (List.mem_cons_of_mem _ hd)) h

theorem addUnionsAt_narrow {w : Nat} (hw : w ≤ 64) {vs : List Model.Union}
    (hk : ∀ u ∈ vs, ∀ k ∈ u.cases, Model.CaseFits w k.case) (proto : Protocol) :
    Protocol.addUnionsAt w proto vs = Protocol.addUnions proto vs := by
  have hcases : ∀ (proto : Protocol) (d : Discriminant) (ks : List Model.UCase), (∀ k ∈ ks, Model.CaseFits w k.case) →
      Union.casesFromModelAt w proto d ks = Union.casesFromModel proto d ks := by
    intro proto d ks hks
    induction ks with
    | nil => rfl
    | cons k ks ih =>
      simp only [Union.casesFromModelAt, Union.casesFromModel, UCase.fromModelAt, UCase.fromModel,
        caseValueAt_fits hw _ (hks k (List.mem_cons_self ..)), ih fun x hx => hks x (List.mem_cons_of_mem _ hx)]
  induction vs generalizing proto with
  | nil => rfl
  | cons v vs ih =>
    simp only [Protocol.addUnionsAt, Protocol.addUnions, Union.fromModelAt, Union.fromModel,
      hcases _ _ _ (hk v (List.mem_cons_self ..)), ih fun u hu => hk u (List.mem_cons_of_mem _ hu)]

theorem addUnions_structs {vs : List Model.Union} {proto proto' : Protocol}
    (h : Protocol.addUnions proto vs = .ok proto') : proto'.structs = proto.structs := by
  induction vs generalizing proto with
  | nil => cases h; rfl
  | cons v vs ih =>
    obtain ⟨x, -, h⟩ := Res.bind_eq_ok.1 h
    have := ih h
    exact this

theorem addMessages_structs {vs : List Model.Message} {world world' : World} {proto proto' : Protocol}
    (h : Protocol.addMessages world proto vs = .ok (proto', world')) : proto'.structs = proto.structs := by
  induction vs generalizing proto world with
  | nil => cases h; rfl
  | cons v vs ih =>
    obtain ⟨x, -, h⟩ := Res.bind_eq_ok.1 h
    have := ih h
    exact this

/-- Everything declared in the file fits a host of `w` bits. -/
def Model.Protocol.FitsHost (w : Nat) (v : Model.Protocol) : Prop :=
  (∀ d ∈ v.structs, ∀ f ∈ d.fields, f.FitsHost w) ∧
  ∀ u ∈ v.unions, ∀ k ∈ u.cases, k.case.head? ≠ some '-' ∧ ∀ n, Plain k.case n → n < 2 ^ (w - 1)

theorem Protocol.fromModelAt_narrow {w : Nat} (hw : w ≤ 64) (p : Profile) {solver : Resolver} {world world' : World}
    {v : Model.Protocol} (hv : v.FitsHost w) {proto : Protocol}
    (h : Protocol.fromModel .checked solver world v = .ok (proto, world'))
    (hn : ∀ s ∈ proto.structs, s.bitSize < 2 ^ w) :
    Protocol.fromModelAt w p solver world v = .ok (proto, world') := by
  unfold Protocol.fromModel at h
  obtain ⟨p1, h1, h⟩ := Res.bind_eq_ok.1 h
  obtain ⟨p2, h2, h⟩ := Res.bind_eq_ok.1 h
  obtain ⟨⟨p3, next⟩, h3, h⟩ := Res.bind_eq_ok.1 h
  obtain ⟨p4, h4, h⟩ := Res.bind_eq_ok.1 h
  have e := (addMessages_structs h).trans (addUnions_structs h4)
  have k : ∀ u ∈ v.unions, ∀ k ∈ u.cases, Model.CaseFits w k.case := fun u hu k hk =>
    ⟨(hv.2 u hu k hk).1, fun n hn => (hv.2 u hu k hk).2 n (plain_of_parse hn)⟩
  unfold Protocol.fromModelAt
  simp only [h1, h2, Res.bind_ok, addStructsAt_narrow hw p hv.1 h3 (e ▸ hn), addUnionsAt_narrow hw k, h4]
  exact h

theorem Loader.compileImports_keeps {p : Profile} {vs : List (Name × Model.Protocol)}
    {solver solver' : SimpleImportSolver} {world world' : World}
    (h : Loader.compileImports p solver world vs = .ok (solver', world')) :
    ∀ x ∈ solver.importMap, x ∈ solver'.importMap := by
  induction vs generalizing solver world with
  | nil => cases h; exact fun x hx => hx
  | cons v vs ih =>
    obtain ⟨r, -, h⟩ := Res.bind_eq_ok.1 h
    exact fun x hx => ih h x (List.mem_cons_of_mem _ hx)

theorem Loader.compileImportsAt_narrow {w : Nat} (hw : w ≤ 64) (p : Profile) {vs : List (Name × Model.Protocol)}
    (hv : ∀ v ∈ vs, v.2.FitsHost w) {solver solver' : SimpleImportSolver} {world world' : World}
    (h : Loader.compileImports .checked solver world vs = .ok (solver', world'))
    (hn : ∀ x ∈ solver'.importMap, ∀ s ∈ x.2.2.structs, s.bitSize < 2 ^ w) :
    Loader.compileImportsAt w p solver world vs = .ok (solver', world') := by
  induction vs generalizing solver world with
  | nil => exact h
  | cons v vs ih =>
    obtain ⟨⟨proto, world1⟩, h1, h⟩ := Res.bind_eq_ok.1 h
    have hm := Loader.compileImports_keeps h (proto.name, v.1, proto) (List.mem_cons_self ..)
    unfold Loader.compileImportsAt
    rw [Protocol.fromModelAt_narrow hw p (hv v (List.mem_cons_self ..)) h1 (hn _ hm)]
    exact ih (fun x hx => hv x (List.mem_cons_of_mem _ hx)) h

theorem Loader.compileModelsAt_narrow {w : Nat} (hw : w ≤ 64) (p : Profile) {solver : Resolver}
    {vs : List Model.Protocol} (hv : ∀ v ∈ vs, v.FitsHost w) {world world' : World} {protos : List Protocol}
    (h : Loader.compileModels .checked solver world vs = .ok (protos, world'))
    (hn : ∀ x ∈ protos, ∀ s ∈ x.structs, s.bitSize < 2 ^ w) :
    Loader.compileModelsAt w p solver world vs = .ok (protos, world') := by
  induction vs generalizing world protos with
  | nil => exact h
  | cons v vs ih =>
    obtain ⟨⟨proto, world1⟩, h1, h⟩ := Res.bind_eq_ok.1 h
    obtain ⟨⟨ps, world2⟩, h2, h⟩ := Res.bind_eq_ok.1 h
    cases h
    unfold Loader.compileModelsAt
    rw [Protocol.fromModelAt_narrow hw p (hv v (List.mem_cons_self ..)) h1 (hn _ (List.mem_cons_self ..))]
    simp only [Res.bind_ok]
    rw [ih (fun x hx => hv x (List.mem_cons_of_mem _ hx)) h2 fun x hx => hn x (List.mem_cons_of_mem _ hx)]
    rfl

theorem View.fromModelAt_fits {w : Nat} {enums : List (Name × Enum)} {ty : Model.SimpleTy} {n : Nat}
    {v : Option Model.FieldView} {view : View} (h : View.fromModelAt w .checked enums ty n v = .ok view) :
    (v = Option.none → ty = .signed → n = 8 ∨ n = 16 ∨ n = 32 ∨ n = 64 ∨ n ≤ w) ∧
    (∀ lo hi, v = some (.floatRange lo hi) → ty = .float → n < w) := by
  have hshl : ∀ {s a}, (shlU .checked w 1 s : C Nat) = .ok a → s < w := by
    intro s a hs
    by_cases hlt : s < w
    · exact hlt
    · simp only [shlU, if_neg hlt] at hs
      cases hs
  constructor
  · rintro rfl rfl
    by_cases hc : n ≠ 8 ∧ n ≠ 16 ∧ n ≠ 32 ∧ n ≠ 64
    · unfold View.fromModelAt at h
      simp only [reduceCtorEq, false_and, if_false] at h
      rw [if_pos ⟨trivial, hc⟩] at h
      obtain ⟨sh, h1, h⟩ := Res.bind_eq_ok.1 h
      obtain ⟨m, h2, h⟩ := Res.bind_eq_ok.1 h
      have hlt := hshl h2
      by_cases hn : 1 ≤ n
      · rw [subU_ok _ hn] at h1
        cases h1
        omega
      · omega
    · omega
  · rintro lo hi rfl rfl
    unfold View.fromModelAt at h
    simp only [ne_eq, not_true, if_false] at h
    obtain ⟨s, h1, h⟩ := Res.bind_eq_ok.1 h
    exact hshl h1

theorem SField.fromModelAt_fits {w : Nat} {structs : List (Name × Structure)} {enums : List (Name × Enum)}
    {e : Endian} {last : Nat} {v : Model.SField} {f : SField} {next : Nat}
    (h : SField.fromModelAt w .checked structs enums e last v = .ok (f, next)) :
    v.FitsHost w ∧ next < 2 ^ w := by
  obtain ⟨name, info, vw, len⟩ := v
  cases info with
  | struct n =>
    unfold SField.fromModelAt at h
    dsimp only at h
    obtain ⟨r, hr, h⟩ := Res.bind_eq_ok.1 h
    obtain ⟨nx, ha, h⟩ := Res.bind_eq_ok.1 h
    cases h
    obtain ⟨rfl, hlt⟩ := addU_eq_ok ha (.inl rfl)
    exact ⟨⟨fun _ n hn => Model.FieldTy.noConfusion hn, fun _ _ _ n hn => Model.FieldTy.noConfusion hn⟩, hlt⟩
  | _ n =>
    unfold SField.fromModelAt at h
    dsimp only [Model.FieldTy.bitSize?] at h
    simp only [Res.ofOption_some, Res.bind_ok] at h
    obtain ⟨view, hvw, h⟩ := Res.bind_eq_ok.1 h
    obtain ⟨size, hm, h⟩ := Res.bind_eq_ok.1 h
    obtain ⟨ty, hty, h⟩ := Res.bind_eq_ok.1 h
    obtain ⟨h1, h2⟩ := View.fromModelAt_fits hvw
    refine ⟨⟨fun h0 k hk => ?_, fun lo hi h0 k hk => ?_⟩, ?_⟩
    · cases hk <;> exact h1 h0 rfl
    · cases hk <;> exact h2 lo hi h0 rfl
    · split at h
      · split at h
        · cases h
        · obtain ⟨nx, ha, h⟩ := Res.bind_eq_ok.1 h
          cases h
          obtain ⟨rfl, hlt⟩ := addU_eq_ok ha (.inl rfl)
          exact hlt
      · obtain ⟨nx, ha, h⟩ := Res.bind_eq_ok.1 h
        cases h
        obtain ⟨rfl, hlt⟩ := addU_eq_ok ha (.inl rfl)
        exact hlt

theorem SField.fromModelsAt_fits {w : Nat} {structs : List (Name × Structure)} {enums : List (Name × Enum)}
    {e : Endian} {vs : List Model.SField} {last final : Nat} {fs : List SField} (hl : last < 2 ^ w)
    (h : SField.fromModelsAt w .checked structs enums e last vs = .ok (fs, final)) :
    (∀ v ∈ vs, v.FitsHost w) ∧ final < 2 ^ w := by
  induction vs generalizing last fs with
  | nil => cases h; exact ⟨by simp, hl⟩
  | cons v vs ih =>
    obtain ⟨⟨f, next⟩, h1, h⟩ := Res.bind_eq_ok.1 h
    obtain ⟨⟨fs', final'⟩, h2, h⟩ := Res.bind_eq_ok.1 h
    cases h
    obtain ⟨e1, e2⟩ := SField.fromModelAt_fits h1
    obtain ⟨e3, e4⟩ := ih e2 h2
    refine ⟨?_, e4⟩
    intro x hx
    rcases List.mem_cons.1 hx with rfl | hx
    · exact e1
    · exact e3 x hx

theorem Structure.fromModelAt_fits {w : Nat} {structs : List (Name × Structure)} {enums : List (Name × Enum)}
    {e : Endian} {id : Nat} {d : Model.Structure} {s : Structure}
    (h : Structure.fromModelAt w .checked structs enums e id d = .ok s) :
    (∀ v ∈ d.fields, v.FitsHost w) ∧ s.bitSize < 2 ^ w := by
  unfold Structure.fromModelAt at h
  obtain ⟨⟨fs, last⟩, h1, h⟩ := Res.bind_eq_ok.1 h
  cases h
  exact SField.fromModelsAt_fits (Nat.two_pow_pos w) h1

theorem addStructsAt_fits {w : Nat} {vs : List Model.Structure} {next next' : Nat} {proto proto' : Protocol}
    (h : Protocol.addStructsAt w .checked next proto vs = .ok (proto', next'))
    (hp : ∀ s ∈ proto.structs, s.bitSize < 2 ^ w) :
    (∀ d ∈ vs, ∀ v ∈ d.fields, v.FitsHost w) ∧ ∀ s ∈ proto'.structs, s.bitSize < 2 ^ w := by
  induction vs generalizing next proto with
  | nil => cases h; exact ⟨by simp, hp⟩
  | cons v vs ih =>
    obtain ⟨x, h1, h⟩ := Res.bind_eq_ok.1 h
    obtain ⟨e1, e2⟩ := Structure.fromModelAt_fits h1
    obtain ⟨e3, e4⟩ := ih h (by
      intro s hs
      rcases List.mem_append.1 hs with hs | hs
      · exact hp s hs
      · cases List.mem_singleton.1 hs; exact e2)
    refine ⟨?_, e4⟩
    intro d hd
    rcases List.mem_cons.1 hd with rfl | hd
    · exact e1
    · exact e3 d hd

theorem addImports_structs {solver : Resolver} {vs : List Model.Import} {proto proto' : Protocol}
    (h : Protocol.addImports solver proto vs = .ok proto') : proto'.structs = proto.structs := by
  induction vs generalizing proto with
  | nil => cases h; rfl
  | cons v vs ih =>
    obtain ⟨p1, h1, h⟩ := Res.bind_eq_ok.1 h
    rw [ih h]
    unfold Protocol.addImport at h1
    obtain ⟨r, _, h1⟩ := Res.bind_eq_ok.1 h1
    split at h1
    · obtain ⟨path, _, h1⟩ := Res.bind_eq_ok.1 h1
      cases h1
      rfl
    · split at h1
      · obtain ⟨path, _, h1⟩ := Res.bind_eq_ok.1 h1
        cases h1
        rfl
      · split at h1
        · obtain ⟨path, _, h1⟩ := Res.bind_eq_ok.1 h1
          cases h1
          rfl
        · obtain ⟨m, _, h1⟩ := Res.bind_eq_ok.1 h1
          obtain ⟨path, _, h1⟩ := Res.bind_eq_ok.1 h1
          cases h1
          rfl

theorem addEnums_structs {vs : List Model.Enum} {proto proto' : Protocol}
    (h : Protocol.addEnums proto vs = .ok proto') : proto'.structs = proto.structs := by
  induction vs generalizing proto with
  | nil => cases h; rfl
  | cons v vs ih =>
    obtain ⟨x, -, h⟩ := Res.bind_eq_ok.1 h
    have := ih h
    exact this

theorem addUnionsAt_structs {w : Nat} {vs : List Model.Union} {proto proto' : Protocol}
    (h : Protocol.addUnionsAt w proto vs = .ok proto') : proto'.structs = proto.structs := by
  induction vs generalizing proto with
  | nil => cases h; rfl
  | cons v vs ih =>
    obtain ⟨x, -, h⟩ := Res.bind_eq_ok.1 h
    have := ih h
    exact this

theorem Protocol.fromModelAt_fits {w : Nat} {solver : Resolver} {world world' : World} {v : Model.Protocol}
    {proto : Protocol} (h : Protocol.fromModelAt w .checked solver world v = .ok (proto, world')) :
    (∀ d ∈ v.structs, ∀ f ∈ d.fields, f.FitsHost w) ∧ ∀ s ∈ proto.structs, s.bitSize < 2 ^ w := by
  unfold Protocol.fromModelAt at h
  obtain ⟨p1, h1, h⟩ := Res.bind_eq_ok.1 h
  obtain ⟨p2, h2, h⟩ := Res.bind_eq_ok.1 h
  obtain ⟨⟨p3, next⟩, h3, h⟩ := Res.bind_eq_ok.1 h
  obtain ⟨p4, h4, h⟩ := Res.bind_eq_ok.1 h
  have e0 : p2.structs = [] := (addEnums_structs h2).trans (addImports_structs h1)
  have e := (addMessages_structs h).trans (addUnionsAt_structs h4)
  rw [e]
  exact addStructsAt_fits h3 (by simp [e0])

theorem Loader.compileImportsAt_fits {w : Nat} {vs : List (Name × Model.Protocol)}
    {solver solver' : SimpleImportSolver} {world world' : World}
    (hs : ∀ x ∈ solver.importMap, ∀ s ∈ x.2.2.structs, s.bitSize < 2 ^ w)
    (h : Loader.compileImportsAt w .checked solver world vs = .ok (solver', world')) :
    (∀ v ∈ vs, ∀ d ∈ v.2.structs, ∀ f ∈ d.fields, f.FitsHost w) ∧
    ∀ x ∈ solver'.importMap, ∀ s ∈ x.2.2.structs, s.bitSize < 2 ^ w := by
  induction vs generalizing solver world with
  | nil => cases h; exact ⟨by simp, hs⟩
  | cons v vs ih =>
    obtain ⟨⟨proto, world1⟩, h1, h⟩ := Res.bind_eq_ok.1 h
    obtain ⟨e1, e2⟩ := Protocol.fromModelAt_fits h1
    obtain ⟨e3, e4⟩ := ih (by
      intro x hx
      rcases List.mem_cons.1 hx with rfl | hx
      · exact e2
      · exact hs x hx) h
    refine ⟨?_, e4⟩
    intro x hx
    rcases List.mem_cons.1 hx with rfl | hx
    · exact e1
    · exact e3 x hx

theorem Loader.compileModelsAt_fits {w : Nat} {solver : Resolver} {vs : List Model.Protocol} {world world' : World}
    {protos : List Protocol} (h : Loader.compileModelsAt w .checked solver world vs = .ok (protos, world')) :
    (∀ v ∈ vs, ∀ d ∈ v.structs, ∀ f ∈ d.fields, f.FitsHost w) ∧
    ∀ x ∈ protos, ∀ s ∈ x.structs, s.bitSize < 2 ^ w := by
  induction vs generalizing world protos with
  | nil => cases h; simp
  | cons v vs ih =>
    obtain ⟨⟨proto, world1⟩, h1, h⟩ := Res.bind_eq_ok.1 h
    obtain ⟨⟨ps, world2⟩, h2, h⟩ := Res.bind_eq_ok.1 h
    cases h
    obtain ⟨e1, e2⟩ := Protocol.fromModelAt_fits h1
    obtain ⟨e3, e4⟩ := ih h2
    constructor
    · intro x hx
      rcases List.mem_cons.1 hx with rfl | hx
      · exact e1
      · exact e3 x hx
    · intro x hx
      rcases List.mem_cons.1 hx with rfl | hx
      · exact e2
      · exact e4 x hx

/-! ## Signs and ranges -/

theorem shlU_wrapping {w s : Nat} (hw : 0 < w) : (shlU .wrapping w 1 s : C Nat) = .ok (2 ^ (s % w)) := by
  have hm : s % w < w := Nat.mod_lt _ hw
  by_cases h : s < w
  · rw [Nat.mod_eq_of_lt h]
    exact shlU_one h
  · simp only [shlU, if_neg h]
    rw [Nat.one_shiftLeft, Nat.mod_eq_of_lt (Nat.pow_lt_pow_right (by omega) hm)]

/-- The signed getter with the bound `2^k - 1`. -/
theorem viewSignedGet_bound (p : Profile) {f : FixedField} {k raw : Nat} {buf : Bytes} (hk : k + 1 < f.rawBits)
    (h : f.getRaw p buf = .ok raw) :
    f.viewSignedGet p (2 ^ k - 1) buf =
      .ok (if raw < 2 ^ k then (raw : Int) else ((raw % 2 ^ k : Nat) : Int) - 2 ^ k) := by
  unfold FixedField.viewSignedGet
  rw [h]
  simp only [Res.bind_ok]
  rw [and_pow_sub_one, and_pow_sub_one, notU_mod (by omega)]
  have hp := Nat.two_pow_pos k
  have hm := Nat.mod_lt raw hp
  have h1 : (2 : Nat) ^ (k + 1) ≤ 2 ^ (f.rawBits - 1) := Nat.pow_le_pow_right (by omega) (by omega)
  have h2 : (2 : Nat) ^ (f.rawBits - 1) ≤ 2 ^ f.rawBits := Nat.pow_le_pow_right (by omega) (by omega)
  rw [Nat.pow_succ] at h1
  by_cases hr : raw < 2 ^ k
  · rw [if_neg (by omega), if_pos hr, Nat.mod_eq_of_lt hr]
    unfold toSigned
    rw [if_pos (by omega)]
    rfl
  · rw [if_pos (by omega), if_neg hr, addU_ok p (by omega)]
    simp only [Res.bind_ok]
    obtain ⟨x, hx⟩ : ∃ x, x = 2 ^ k - 1 - raw % 2 ^ k + 1 := ⟨_, rfl⟩
    rw [← hx]
    have e1 : toSigned f.rawBits x = (x : Int) := by unfold toSigned; rw [if_pos (by omega)]
    have e2 : negS p f.rawBits (x : Int) = .ok (-(x : Int)) := by unfold negS; rw [if_neg (by omega)]
    rw [e1, e2]
    congr 1
    have : ((2 ^ k : Nat) : Int) = (2 : Int) ^ k := by simp
    omega

namespace Props

/-- C116: on a host of 64 bits the compiler is the one of the other claims. -/
theorem C116_64 (p : Profile) (l : Loader) (solver : SimpleImportSolver) (world : World) :
    l.compileAt 64 p solver world = l.compile p solver world := by
  simp only [Loader.compileAt, Loader.compile, Loader.compileImportsAt_64, Loader.compileModelsAt_64]

/-- A file with a union on a signed field, a signed field of 24 bits and an unsigned field of 40 bits. -/
def Ex.hostModel (case : String) : Model.Protocol :=
  { name := "Host".toList
    structs := [
      { name := "Key".toList, fields := [ { name := "kind".toList, info := .signed 8 } ] },
      { name := "Small".toList, fields := [ { name := "s".toList, info := .signed 24 },
                                            { name := "n".toList, info := .unsigned 40 } ] } ]
    unions := [ { name := "U".toList, discriminant := "Key.kind".toList,
                  cases := [ { name := "A".toList, case := case.toList, itemType := some "Small".toList } ] } ] }

/-- C116: with overflow checks a narrower host makes exactly the protocols every 64-bit host makes,
whatever its build profile, provided no case of a union has a minus sign. -/
theorem C116_checked {w : Nat} (hw : w ≤ 64) (p : Profile) (l : Loader) (solver : SimpleImportSolver)
    (world : World)
    (hk : ∀ v ∈ l.models ++ l.importedModels.map Prod.snd, ∀ u ∈ v.unions, ∀ k ∈ u.cases,
      k.case.head? ≠ some '-')
    {r : List Protocol × World} (h : l.compileAt w .checked solver world = .ok r) :
    l.compile p solver world = .ok r :=
  (sameIfOkRel hw).compile hw p l solver world hk r h

example (p : Profile) : ∃ r, (⟨[Ex.hostModel "1"], []⟩ : Loader).compileAt 32 .checked .default ⟨0, []⟩ = .ok r ∧
    (⟨[Ex.hostModel "1"], []⟩ : Loader).compile p .default ⟨0, []⟩ = .ok r :=
  ⟨_, rfl, C116_checked (w := 32) (by decide) p _ _ _ (by decide) rfl⟩

/-- C116: when the numbers of the cases fit, the narrower host also reports the same errors, or it
panics. -/
theorem C116_panics {w : Nat} (hw : w ≤ 64) (p : Profile) (l : Loader) (solver : SimpleImportSolver)
    (world : World)
    (hk : ∀ v ∈ l.models ++ l.importedModels.map Prod.snd, ∀ u ∈ v.unions, ∀ k ∈ u.cases,
      k.case.head? ≠ some '-' ∧ ∀ n, Plain k.case n → n < 2 ^ (w - 1)) :
    l.compileAt w .checked solver world = l.compile p solver world ∨
    l.compileAt w .checked solver world = .panic :=
  (sameOrPanicRel hw).compile hw p l solver world fun v hv u hu k hk' =>
    ⟨(hk v hv u hu k hk').1, fun n hn => (hk v hv u hu k hk').2 n (plain_of_parse hn)⟩

/-- A structure with a signed field of 40 bits. -/
def Ex.wideModel : Model.Protocol :=
  { name := "Wide".toList
    structs := [ { name := "W".toList, fields := [ { name := "s".toList, info := .signed 40 } ] } ] }

example (p : Profile) : (⟨[Ex.wideModel], []⟩ : Loader).compileAt 32 .checked .default ⟨0, []⟩ = .panic ∧
    ((⟨[Ex.wideModel], []⟩ : Loader).compileAt 32 .checked .default ⟨0, []⟩ =
      (⟨[Ex.wideModel], []⟩ : Loader).compile p .default ⟨0, []⟩ ∨
     (⟨[Ex.wideModel], []⟩ : Loader).compileAt 32 .checked .default ⟨0, []⟩ = .panic) :=
  ⟨rfl, C116_panics (by decide) p _ _ _ (by simp [Ex.wideModel])⟩

/-- C116: a structure whose fields fit the host and whose size in bits is a number of the host is
compiled the same by every build of the compiler. -/
theorem C116_structure {w : Nat} (hw : w ≤ 64) (p : Profile) {structs : List (Name × Structure)}
    {enums : List (Name × Enum)} {e : Endian} {id : Nat} {d : Model.Structure} (hv : ∀ v ∈ d.fields, v.FitsHost w)
    {s : Structure} (h : Structure.fromModel .checked structs enums e id d = .ok s) (hn : s.bitSize < 2 ^ w) :
    Structure.fromModelAt w p structs enums e id d = .ok s :=
  Structure.fromModelAt_narrow hw p hv h hn

/-- C116: files that fit the host are compiled the same by every build of the compiler, whether it
checks overflows or not. -/
theorem C116_fits {w : Nat} (hw : w ≤ 64) (p : Profile) {l : Loader} {solver solver' : SimpleImportSolver}
    {world world1 world' : World} {protos : List Protocol}
    (hv : ∀ v ∈ l.models ++ l.importedModels.map Prod.snd, v.FitsHost w)
    (h : l.compile .checked solver world = .ok (protos, world'))
    (hi : Loader.compileImports .checked solver world l.importedModels = .ok (solver', world1))
    (hni : ∀ x ∈ solver'.importMap, ∀ s ∈ x.2.2.structs, s.bitSize < 2 ^ w)
    (hn : ∀ x ∈ protos, ∀ s ∈ x.structs, s.bitSize < 2 ^ w) :
    l.compileAt w p solver world = .ok (protos, world') := by
  unfold Loader.compile at h
  simp only [hi, Res.bind_ok] at h
  unfold Loader.compileAt
  rw [Loader.compileImportsAt_narrow hw p
    (fun v hv' => hv v.2 (List.mem_append_right _ (List.mem_map_of_mem hv'))) hi hni]
  exact Loader.compileModelsAt_narrow hw p (fun v hv' => hv v (List.mem_append_left _ hv')) h hn

theorem Ex.host_fits : (Ex.hostModel "1").FitsHost 32 := by
  constructor
  · simp [Ex.hostModel, Model.SField.FitsHost]
  · intro u hu k hk
    simp only [Ex.hostModel, List.mem_singleton] at hu
    subst hu
    simp only [List.mem_singleton] at hk
    subst hk
    refine ⟨by decide, fun n hn => ?_⟩
    rcases hn with hn | ⟨cs, h, -⟩
    · cases parseNat_iff.2 hn
      decide
    · cases h

example (p : Profile) : ∃ r, (⟨[Ex.hostModel "1"], []⟩ : Loader).compile .checked .default ⟨0, []⟩ = .ok r ∧
    (⟨[Ex.hostModel "1"], []⟩ : Loader).compileAt 32 p .default ⟨0, []⟩ = .ok r := by
  refine ⟨_, rfl, C116_fits (w := 32) (by decide) p (l := ⟨[Ex.hostModel "1"], []⟩) ?_ rfl rfl ?_ ?_⟩
  · intro v hv
    cases List.mem_singleton.1 hv
    exact Ex.host_fits
  · simp [SimpleImportSolver.default, SimpleImportSolver.new]
  · simp only [List.mem_singleton, Protocol.empty, List.nil_append, List.cons_append]
    rintro x rfl s hs
    simp only [List.mem_cons, List.not_mem_nil, or_false] at hs
    rcases hs with rfl | rfl <;> decide

/-- C116: a host with overflow checks compiles nothing else: every signed field and range it accepts is
within a word, and so is the size of every structure it makes. -/
theorem C116_accepts {w : Nat} {l : Loader} {solver : SimpleImportSolver} {world world' : World}
    {protos : List Protocol} (h : l.compileAt w .checked solver world = .ok (protos, world')) :
    (∀ v ∈ l.models, ∀ d ∈ v.structs, ∀ f ∈ d.fields, f.FitsHost w) ∧
    (∀ x ∈ protos, ∀ s ∈ x.structs, s.bitSize < 2 ^ w) ∧
    ((∀ x ∈ solver.importMap, ∀ s ∈ x.2.2.structs, s.bitSize < 2 ^ w) →
      (∀ v ∈ l.importedModels, ∀ d ∈ v.2.structs, ∀ f ∈ d.fields, f.FitsHost w) ∧
      ∃ solver' world1, Loader.compileImportsAt w .checked solver world l.importedModels = .ok (solver', world1) ∧
        ∀ x ∈ solver'.importMap, ∀ s ∈ x.2.2.structs, s.bitSize < 2 ^ w) := by
  unfold Loader.compileAt at h
  obtain ⟨⟨solver', world1⟩, h1, h⟩ := Res.bind_eq_ok.1 h
  obtain ⟨e1, e2⟩ := Loader.compileModelsAt_fits h
  refine ⟨e1, e2, fun hs => ?_⟩
  obtain ⟨e3, e4⟩ := Loader.compileImportsAt_fits hs h1
  exact ⟨e3, solver', world1, h1, e4⟩

example (l : Loader) (hl : Ex.wideModel ∈ l.models) (solver : SimpleImportSolver) (world : World)
    (r : List Protocol × World) : l.compileAt 32 .checked solver world ≠ .ok r := by
  intro h
  have := (C116_accepts (protos := r.1) (world' := r.2) h).1 _ hl _ (List.mem_cons_self ..) _ (List.mem_cons_self ..)
  have := this.1 rfl 40 rfl
  omega

example : ∃ r, (⟨[Ex.hostModel "1"], []⟩ : Loader).compileAt 32 .checked .default ⟨0, []⟩ = .ok r := ⟨_, rfl⟩

/-- C116: sizes and positions of fields are computed modulo the numbers of the host; with overflow checks
the field is rejected by a panic when they are not numbers of the host. -/
theorem C116_field {w : Nat} {p : Profile} {structs : List (Name × Structure)} {enums : List (Name × Enum)}
    {e : Endian} {last : Nat} {v : Model.SField} {f : SField} {next : Nat}
    (h : SField.fromModelAt w p structs enums e last v = .ok (f, next)) :
    ∃ size, (∀ n, v.info = .struct n → ∃ r, structs.lookup n = some r ∧ size = r.bitSize ∧ f.loc.bitSize = size) ∧
      (∀ bits, v.info.bitSize? = some bits → size = bits * v.arrayLen.getD 1 ∧ f.loc.bitSize = size % 2 ^ w ∧
        (p = .checked → size < 2 ^ w)) ∧
      next = (last + f.loc.bitSize) % 2 ^ w ∧ (p = .checked → next = last + f.loc.bitSize) := by
  have hadd : ∀ {a b c : Nat}, (addU p w a b : C Nat) = .ok c → c = (a + b) % 2 ^ w ∧ (p = .checked → c = a + b) := by
    intro a b c hab
    unfold addU at hab
    split at hab
    · next hlt => cases hab; exact ⟨(Nat.mod_eq_of_lt hlt).symm, fun _ => rfl⟩
    · split at hab
      · cases hab
      · cases hab; exact ⟨rfl, fun h => by cases h⟩
  have hmul : ∀ {a b c : Nat}, (mulU p w a b : C Nat) = .ok c → c = (a * b) % 2 ^ w ∧ (p = .checked → a * b < 2 ^ w) := by
    intro a b c hab
    unfold mulU at hab
    split at hab
    · next hlt => cases hab; exact ⟨(Nat.mod_eq_of_lt hlt).symm, fun _ => hlt⟩
    · split at hab
      · cases hab
      · cases hab; exact ⟨rfl, fun h => by cases h⟩
  obtain ⟨name, info, vw, len⟩ := v
  cases info with
  | struct n =>
    unfold SField.fromModelAt at h
    dsimp only at h
    obtain ⟨r, hr, h⟩ := Res.bind_eq_ok.1 h
    obtain ⟨nx, ha, h⟩ := Res.bind_eq_ok.1 h
    cases h
    refine ⟨r.bitSize, ?_, ?_, hadd ha⟩
    · intro m hm
      cases hm
      exact ⟨r, Res.ofOption_eq_ok hr, rfl, rfl⟩
    · intro bits hb
      cases hb
  | _ n =>
    unfold SField.fromModelAt at h
    dsimp only [Model.FieldTy.bitSize?] at h
    simp only [Res.ofOption_some, Res.bind_ok] at h
    obtain ⟨view, hvw, h⟩ := Res.bind_eq_ok.1 h
    obtain ⟨size, hm, h⟩ := Res.bind_eq_ok.1 h
    obtain ⟨ty, hty, h⟩ := Res.bind_eq_ok.1 h
    obtain ⟨hm1, hm2⟩ := hmul hm
    refine ⟨n * len.getD 1, ⟨fun m hm => Model.FieldTy.noConfusion hm, ?_⟩⟩
    split at h
    · split at h
      · cases h
      · obtain ⟨nx, ha, h⟩ := Res.bind_eq_ok.1 h
        cases h
        refine ⟨?_, hadd ha⟩
        intro bits hb
        cases hb
        exact ⟨rfl, hm1, hm2⟩
    · obtain ⟨nx, ha, h⟩ := Res.bind_eq_ok.1 h
      cases h
      refine ⟨?_, hadd ha⟩
      intro bits hb
      cases hb
      exact ⟨rfl, hm1, hm2⟩

/-- A field of 2^29 bytes. -/
def Ex.longField : Model.SField := { name := "a".toList, info := .unsigned 8, arrayLen := some (2 ^ 29) }

example : ∃ f, SField.fromModelAt 32 .wrapping [] [] .little 16 Ex.longField = .ok (f, 16) ∧ f.loc.bitSize = 0 ∧
    SField.fromModelAt 32 .checked [] [] .little 16 Ex.longField = .panic :=
  ⟨_, rfl, rfl, rfl⟩

example (f : SField) (next : Nat)
    (h : SField.fromModelAt 32 .wrapping [] [] .little 16 Ex.longField = .ok (f, next)) :
    next = (16 + f.loc.bitSize) % 2 ^ 32 :=
  (C116_field h).choose_spec.2.2.1

/-- C116: an integer with a sign stored with fewer bits than its type: up to the width of the host the
bound is right; above it the compiler panics, or without overflow checks takes the width modulo the
width of the host. -/
theorem C116_signed {w n : Nat} (hw : 0 < w) (h1 : 1 ≤ n) (hn : n ≠ 8 ∧ n ≠ 16 ∧ n ≠ 32 ∧ n ≠ 64)
    (enums : List (Name × Enum)) :
    (n ≤ w → ∀ p, View.fromModelAt w p enums .signed n none = .ok (.signedCast (2 ^ (n - 1) - 1))) ∧
    (w < n → View.fromModelAt w .checked enums .signed n none = .panic ∧
      View.fromModelAt w .wrapping enums .signed n none = .ok (.signedCast (2 ^ ((n - 1) % w) - 1))) := by
  have hc : True ∧ n ≠ 8 ∧ n ≠ 16 ∧ n ≠ 32 ∧ n ≠ 64 := ⟨trivial, hn⟩
  have hp : ∀ k, (1 : Nat) ≤ 2 ^ k := fun k => Nat.two_pow_pos k
  refine ⟨fun h p => ?_, fun h => ⟨?_, ?_⟩⟩
  · simp only [View.fromModelAt, reduceCtorEq, false_and, if_false, if_pos hc, subU_ok p h1, Res.bind_ok,
      shlU_one (p := p) (show n - 1 < w by omega), subU_ok p (hp _), Res.pure_eq]
  · simp only [View.fromModelAt, reduceCtorEq, false_and, if_false, if_pos hc, subU_ok _ h1, Res.bind_ok, shlU,
      if_neg (show ¬ n - 1 < w by omega), Res.bind_panic]
  · simp only [View.fromModelAt, reduceCtorEq, false_and, if_false, if_pos hc, subU_ok _ h1, Res.bind_ok,
      shlU_wrapping hw, subU_ok _ (hp _), Res.pure_eq]

example : View.fromModelAt 32 .wrapping [] .signed 40 none = .ok (.signedCast 127) ∧
    View.fromModelAt 64 .wrapping [] .signed 40 none = .ok (.signedCast (2 ^ 39 - 1)) :=
  ⟨((C116_signed (by decide) (by decide) (by decide) []).2 (by decide)).2,
   (C116_signed (by decide) (by decide) (by decide) []).1 (by decide) _⟩

/-- C116: the largest raw value of a float with a range, in the same cases. -/
theorem C116_range {w n : Nat} (hw : 0 < w) (enums : List (Name × Enum)) (lo hi : Rat) :
    (n < w → ∀ p, View.fromModelAt w p enums .float n (some (.floatRange lo hi)) =
      .ok (.float (hi / ((2 ^ n - 1 : Nat) : Rat)) lo (1 / (hi / ((2 ^ n - 1 : Nat) : Rat))) (-lo))) ∧
    (w ≤ n → View.fromModelAt w .checked enums .float n (some (.floatRange lo hi)) = .panic ∧
      View.fromModelAt w .wrapping enums .float n (some (.floatRange lo hi)) =
        .ok (.float (hi / ((2 ^ (n % w) - 1 : Nat) : Rat)) lo (1 / (hi / ((2 ^ (n % w) - 1 : Nat) : Rat))) (-lo))) := by
  have hp : ∀ k, (1 : Nat) ≤ 2 ^ k := fun k => Nat.two_pow_pos k
  refine ⟨fun h p => ?_, fun h => ⟨?_, ?_⟩⟩
  · simp only [View.fromModelAt, ne_eq, not_true, if_false, shlU_one (p := p) h, Res.bind_ok, subU_ok p (hp _),
      Res.pure_eq]
  · simp only [View.fromModelAt, ne_eq, not_true, if_false, shlU, if_neg (show ¬ n < w by omega), Res.bind_panic]
  · simp only [View.fromModelAt, ne_eq, not_true, if_false, shlU_wrapping hw, Res.bind_ok, subU_ok _ (hp _),
      Res.pure_eq]

example : View.fromModelAt 32 .wrapping [] .float 40 (some (.floatRange 0 1)) = .ok (.float (1 / 255) 0 255 0) := by
  rw [((C116_range (n := 40) (by decide) [] 0 1).2 (by decide)).2]
  simp

/-- C116: an accessor generated with a bound below the sign bit of the field reads the values above the
bound as negative numbers: only the values below `2^k` are right. -/
theorem C116_release_read (p : Profile) {f : FixedField} {k raw : Nat} (hv : f.view = .signedCast (2 ^ k - 1))
    (hk : k + 1 < f.rawBits) {buf : Bytes} (h : f.getRaw p buf = .ok raw) :
    f.getView p buf =
      .ok (.int (if raw < 2 ^ k then (raw : Int) else ((raw % 2 ^ k : Nat) : Int) - 2 ^ k)) := by
  unfold FixedField.getView
  rw [hv]
  simp only [viewSignedGet_bound p hk h, Res.bind_ok, Res.pure_eq]

/-- The field of 40 bits as compiled on a 32-bit host without overflow checks. -/
def Ex.wideField : FixedField :=
  { name := "s".toList, ty := .i64, loc := ⟨0, 0, 5, 40⟩, view := .signedCast 127, endian := .little }

example : Structure.fromModelAt 32 .wrapping [] [] .little 0
    { name := "W".toList, fields := [ { name := "s".toList, info := .signed 40 } ] } =
      .ok (.mk 0 "W".toList [.fixed Ex.wideField] 5 40) := rfl

example (p : Profile) : Ex.wideField.getView p [128, 0, 0, 0, 0] = .ok (.int (-128)) :=
  C116_release_read (k := 7) (raw := 128) p rfl (by decide) (by cases p <;> rfl)

/-- C116: the numbers accepted as cases of an unsigned discriminant. -/
theorem C116_case_unsigned (w : Nat) (case : Name) (n : Nat) :
    UCase.caseValueAt w .none case = .ok n ↔
      n < 2 ^ w ∧ (Numeral case n ∨ ∃ cs, case = '+' :: cs ∧ Numeral cs n) := by
  simp only [UCase.caseValueAt, ofOption_iff]
  unfold parseUsizeAt
  split
  · next cs =>
    simp only
    refine Iff.trans (parseNat_filter (g := fun n => n) (P := fun n => n < 2 ^ w)) ?_
    constructor
    · rintro ⟨k, h1, h2, rfl⟩; exact ⟨h2, .inr ⟨cs, rfl, h1⟩⟩
    · rintro ⟨h2, h1 | ⟨cs', h, h1⟩⟩
      · exact absurd rfl ((numeral_head h1).1 cs)
      · cases h; exact ⟨n, h1, h2, rfl⟩
  · next h =>
    simp only
    refine Iff.trans (parseNat_filter (g := fun n => n) (P := fun n => n < 2 ^ w)) ?_
    constructor
    · rintro ⟨k, h1, h2, rfl⟩; exact ⟨h2, .inl h1⟩
    · rintro ⟨h2, h1 | ⟨cs', rfl, h1⟩⟩
      · exact ⟨n, h1, h2, rfl⟩
      · exact absurd rfl (h cs')

example : UCase.caseValueAt 32 .none "42".toList = .ok 42 :=
  (C116_case_unsigned _ _ _).2 ⟨by decide, .inl ⟨[4, 2], by decide, rfl, rfl⟩⟩

/-- C116: a case with a minus sign is a different number on every host, so the generated code depends on
the host that generated it. -/
theorem C116_negative {w : Nat} {view : View} {m : Nat} (hv : view = .transmute ∨ view = .signedCast m) {cs : Name}
    {k : Nat} (hk : Numeral cs k) (h0 : 0 < k) (hle : k ≤ 2 ^ (w - 1)) :
    UCase.caseValueAt w view ('-' :: cs) = .ok (2 ^ w - k) := by
  have hp : parseIsizeAt w ('-' :: cs) = some (-(k : Int)) := by
    simp only [parseIsizeAt, parseNat_iff.2 hk, if_pos hle]
  have h2 : (2 : Nat) ^ (w - 1) ≤ 2 ^ w := Nat.pow_le_pow_right (by omega) (by omega)
  have hi : isizeAsUsizeAt w (-(k : Int)) = 2 ^ w - k := by
    unfold isizeAsUsizeAt
    have e : ((2 ^ w : Nat) : Int) = (2 : Int) ^ w := by simp
    rw [← e, Int.neg_emod_eq_sub_emod, Int.emod_eq_of_lt (by omega) (by omega)]
    omega
  rcases hv with rfl | rfl <;> simp only [UCase.caseValueAt, hp, Option.map_some, hi, Res.ofOption_some]

example : UCase.caseValueAt 32 .transmute "-3".toList = .ok (2 ^ 32 - 3) ∧
    UCase.caseValue .transmute "-3".toList = .ok (2 ^ 64 - 3) :=
  ⟨C116_negative (m := 0) (.inl rfl) (k := 3) ⟨[3], by decide, rfl, rfl⟩ (by decide) (by decide),
   (UCase.caseValueAt_64 _ _).symm.trans
     (C116_negative (m := 0) (.inl rfl) (k := 3) ⟨[3], by decide, rfl, rfl⟩ (by decide) (by decide))⟩

end Props

end Proto
