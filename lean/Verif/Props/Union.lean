import Verif.Props.Message
import Verif.Gen.OpenLemmas

/-!
# C36–C40: unions, and fields that take the rest of the input
-/

namespace Proto.Props

open Proto Spec

/-! ## Cases -/

theorem parseCases_none (c : Ctx) {cs : List UCase} {d : Nat} (h : ∀ k ∈ cs, k.case ≠ d) (i : Nat)
    (b : Bytes) : Union.parseCases c cs i d b = .err (.invalidUnionDiscriminant d) := by
  induction cs generalizing i with
  | nil => simp [Union.parseCases]
  | cons k cs ih =>
    obtain ⟨n, case, t⟩ := k
    have hne : ¬ d = case := fun e => h (.mk n case t) (by simp) e.symm
    cases t <;> simp only [Union.parseCases, if_neg hne] <;> exact ih (fun k hk => h k (by simp [hk])) _

theorem parseCases_first (c : Ctx) {cs : List UCase} {i : Nat} {k : UCase} (hi : cs[i]? = some k)
    (h : ∀ j k', j < i → cs[j]? = some k' → k'.case ≠ k.case) (i0 : Nat) (b : Bytes) :
    (k.itemType = none → Union.parseCases c cs i0 k.case b = .ok ⟨0, .union (i0 + i) .unit⟩) ∧
    (∀ r, k.itemType = some r → Union.parseCases c cs i0 k.case b =
      (r.parse c b).bind fun m => .ok ⟨m.size, .union (i0 + i) m.data⟩) := by
  induction cs generalizing i i0 with
  | nil => simp at hi
  | cons k0 cs ih =>
    cases i with
    | zero =>
      simp only [List.getElem?_cons_zero, Option.some.injEq] at hi
      subst hi
      obtain ⟨n, case, t⟩ := k0
      refine ⟨?_, ?_⟩
      · intro ht; simp only [UCase.itemType] at ht; subst ht
        simp [Union.parseCases, UCase.case]
      · intro r ht; simp only [UCase.itemType] at ht; subst ht
        change Union.parseCases c (.mk n case (some r) :: cs) i0 case b = _
        simp only [Union.parseCases, if_true]
        rfl
    | succ i =>
      simp only [List.getElem?_cons_succ] at hi
      have hne : ¬ k.case = k0.case := fun e => h 0 k0 (by omega) rfl e.symm
      have := ih hi (fun j k' hj hk' => h (j + 1) k' (by omega) (by simpa using hk')) (i0 + 1)
      rw [show i0 + 1 + i = i0 + (i + 1) by omega] at this
      have hp : Union.parseCases c (k0 :: cs) i0 k.case = Union.parseCases c cs (i0 + 1) k.case := by
        obtain ⟨n, case, t⟩ := k0
        change ¬ k.case = case at hne
        cases t <;> simp only [Union.parseCases, if_neg hne]
      rw [hp]
      exact this

theorem writeCases_at (c : Ctx) {cs : List UCase} {i : Nat} {k : UCase} (hi : cs[i]? = some k) (d : Nat)
    (x : Value) :
    (k.itemType = none → Union.writeCases c cs i d x = .done) ∧
    (∀ r, k.itemType = some r → d = k.case → Union.writeCases c cs i d x = r.write c x) ∧
    (∀ r, k.itemType = some r → d ≠ k.case →
      Union.writeCases c cs i d x = .stop (.err (.invalidUnionDiscriminant d))) := by
  induction cs generalizing i with
  | nil => simp at hi
  | cons k0 cs ih =>
    obtain ⟨n, case, t⟩ := k0
    cases i with
    | zero =>
      simp only [List.getElem?_cons_zero, Option.some.injEq] at hi
      subst hi
      simp only [UCase.itemType, UCase.case]
      refine ⟨?_, ?_, ?_⟩
      · rintro rfl; simp [Union.writeCases]
      · rintro r rfl rfl; simp [Union.writeCases]
      · rintro r rfl hd; simp [Union.writeCases, hd]
    | succ i =>
      simp only [List.getElem?_cons_succ] at hi
      have hw : Union.writeCases c (.mk n case t :: cs) (i + 1) d x = Union.writeCases c cs i d x := by
        cases t <;> simp [Union.writeCases]
      rw [hw]
      exact ih hi

theorem parse_of_read {c : Ctx} {u : Union} {env : Env} {on : Name} {d : Nat}
    (h : u.discriminant.read c.p env on = .ok d) (b : Bytes) :
    u.parse c env on b = Union.parseCases c u.cases 0 d b := by
  obtain ⟨n, disc, cs, sz⟩ := u
  simp only [Union.discriminant] at h
  simp only [Union.parse, Union.cases, h]
  rfl

theorem write_of_read {c : Ctx} {u : Union} {env : Env} {on : Name} {d : Nat}
    (h : u.discriminant.read c.p env on = .ok d) {i : Nat} {k : UCase} (hi : u.cases[i]? = some k)
    (x : Value) : u.write c env on (.union i x) = Union.writeCases c u.cases i d x := by
  obtain ⟨n, disc, cs, sz⟩ := u
  simp only [Union.discriminant] at h
  simp only [Union.cases] at hi ⊢
  simp only [Union.write, h]
  split
  · rfl
  · next hany =>
    have hnone : k.itemType = none := by
      have hk := List.mem_of_getElem? hi
      simp only [List.any_eq_true, not_exists, not_and] at hany
      have := hany k hk
      cases hk' : k.itemType with
      | none => rfl
      | some r => simp [hk'] at this
    exact ((writeCases_at c hi d x).1 hnone).symm

/-! ## C36 -/

/-- C36: the discriminant is the raw value of the key structure's field: exactly its bits, when the
structure is packed and its fields are placed where the accessors can address them. -/
theorem C36_key (p : Profile) {u : Union} {env : Env} {on : Name} {key : Bytes} {a : Access}
    (hk : env.lookup on = some (.struct key)) (ha : u.discriminant.access = some a)
    (hw : u.discriminant.root.WF) (hp : u.discriminant.root.WellPlaced)
    (hlen : u.discriminant.root.byteSize ≤ key.length) (hmem : key.length < 2 ^ 64) :
    u.discriminant.read p env on = .ok (bitsLE key a.offset a.width) := by
  unfold Discriminant.read
  rw [hk, ha]
  exact C10_get p (Structure.walk_hasAccess ha) hw hp key hlen hmem

example (p : Profile) : ∃ a, Ex.choice.discriminant.access = some a ∧
    Ex.choice.discriminant.read p [("k".toList, .struct [2, 9])] "k".toList =
      .ok (bitsLE [2, 9] a.offset a.width) :=
  ⟨_, rfl, C36_key p rfl rfl Ex.key_usable.1 (by
    simp [Ex.choice, Ex.keyDisc, Ex.keyS, Union.discriminant, Structure.WellPlaced, SField.listWellPlaced,
      SField.WellPlaced]) (by decide) (by decide)⟩

/-- C36: the path of field numbers leads to the leaf through nested structures. -/
theorem C36_path {s r : Structure} {i : Nat} {is : List Nat} {n : Name} {loc : Loc} {f : FixedField} :
    (s.fields[i]? = some (.fixed f) → s.walk [i] = some (.fixed f)) ∧
    (s.fields[i]? = some (.struct n r loc) → s.walk (i :: is) = (r.walk is).map (.nested loc)) := by
  constructor <;> intro h <;> simp [Structure.walk, h]

example : Ex.outerC.walk [4, 1] = some Ex.hiA :=
  (C36_path (s := Ex.outerC) (r := Ex.innerC) (i := 4) (is := [1]) (n := "e".toList) (loc := ⟨7, 0, 3, 24⟩)
    (f := { name := "hi".toList, ty := .u8, loc := ⟨0, 4, 1, 4⟩, view := .none, endian := .little })).2 rfl

/-- C36: a union whose key is not a fixed-width field, or that is not preceded by a structure of its
key type, cannot be decoded, nor written when some case has content (the generated code does not
compile). -/
theorem C36_unusable (c : Ctx) (u : Union) (env : Env) (on : Name)
    (h : u.discriminant.access = none ∨ ∀ key, env.lookup on ≠ some (.struct key)) (b : Bytes) :
    u.discriminant.read c.p env on = .panic ∧ u.parse c env on b = .panic ∧
      ∀ i x, ((∀ k ∈ u.cases, k.itemType.isNone) → u.write c env on (.union i x) = .done) ∧
        (¬ (∀ k ∈ u.cases, k.itemType.isNone) → u.write c env on (.union i x) = .stop .panic) := by
  have hr : u.discriminant.read c.p env on = .panic := by
    unfold Discriminant.read
    split
    · next h1 h2 =>
      rcases h with h | h
      · rw [h] at h2; cases h2
      · exact absurd h1 (h _)
    · rfl
  obtain ⟨n, d, cs, sz⟩ := u
  refine ⟨hr, ?_, fun i x => ?_⟩
  · unfold Union.parse
    simp only [Union.discriminant] at hr
    rw [hr]; rfl
  · unfold Union.write
    simp only [Union.discriminant] at hr
    rw [hr]
    dsimp only [Union.cases]
    constructor
    · intro hc
      rw [if_neg]
      rw [List.any_eq_true]
      rintro ⟨k, hk, hs⟩
      have := hc k hk
      cases hi : k.itemType <;> simp [hi] at this hs
    · intro hc
      rw [if_pos]
      rw [List.any_eq_true]
      apply Classical.byContradiction
      intro h'
      refine hc fun k hk => ?_
      cases hi : k.itemType with
      | none => rfl
      | some r => exact absurd ⟨k, hk, by rw [hi]; rfl⟩ h'

example (b : Bytes) : Ex.choice.parse Ex.ctx [("k".toList, .num 2)] "k".toList b = .panic :=
  (C36_unusable Ex.ctx Ex.choice _ _ (.inr (by intro key; simp [List.lookup])) b).2.1

/-- C36: with raw discriminant `d`: when no case is declared with value `d`, an invalid-discriminant
error carrying `d`; otherwise the first such case is selected; without content it takes no byte;
with content it decodes exactly as the content type does. -/
theorem C36_select (c : Ctx) (u : Union) {env : Env} {on : Name} {d : Nat}
    (hd : u.discriminant.read c.p env on = .ok d) (b : Bytes) :
    ((∀ k ∈ u.cases, k.case ≠ d) → u.parse c env on b = .err (.invalidUnionDiscriminant d)) ∧
    ∀ i k, u.cases[i]? = some k → k.case = d →
      (∀ j k', j < i → u.cases[j]? = some k' → k'.case ≠ d) →
      (k.itemType = none → u.parse c env on b = .ok ⟨0, .union i .unit⟩) ∧
      (∀ r, k.itemType = some r → u.parse c env on b =
        (r.parse c b).bind fun m => .ok ⟨m.size, .union i m.data⟩) := by
  rw [parse_of_read hd]
  refine ⟨fun h => parseCases_none c h 0 b, ?_⟩
  rintro i k hi rfl hfirst
  simpa using parseCases_first c hi hfirst 0 b

/-- C36: the accessor of case `i` gives the content when the value is of that case, and nothing
otherwise. -/
theorem C36_as (i j : Nat) (x : Value) :
    Union.asCase i (.union j x) = if j = i then some x else none := by
  simp only [Union.asCase, eq_comm]

namespace Ex

def keyEnv (b : Bytes) : Env := [("k".toList, .struct b)]

theorem key_WF : keyS.WF := key_usable.1
theorem key_WellPlaced : keyS.WellPlaced := by
  simp [keyS, Structure.WellPlaced, SField.listWellPlaced, SField.WellPlaced]

example : choice.discriminant.read .checked (keyEnv [2, 9]) "k".toList = .ok 2 := by rfl
example : choice.discriminant.access = some (.fixed
    { name := "kind".toList, ty := .u8, loc := ⟨0, 0, 1, 8⟩, view := .none, endian := .little }) := by rfl
example : choice.parse ctx (keyEnv [5, 9]) "k".toList [1, 2] = .err (.invalidUnionDiscriminant 5) := by rfl

end Ex

/-! ## C37 -/

theorem reprCase_of_first {c : Ctx} {cs : List UCase} {i : Nat} {k : UCase} (hi : cs[i]? = some k)
    (h : ∀ j k', j < i → cs[j]? = some k' → k'.case ≠ k.case) {x : Value}
    (h0 : k.itemType = none → x = .unit) (h1 : ∀ r, k.itemType = some r → r.Repr c x) :
    UCase.ReprCase c cs i k.case x := by
  induction cs generalizing i with
  | nil => simp at hi
  | cons k0 cs ih =>
    obtain ⟨n, case, t⟩ := k0
    cases i with
    | zero =>
      simp only [List.getElem?_cons_zero, Option.some.injEq] at hi
      subst hi
      simp only [UCase.itemType] at h0 h1
      cases t with
      | none => simp [UCase.ReprCase, UCase.case, h0 rfl]
      | some r => simpa [UCase.ReprCase, UCase.case] using h1 r rfl
    | succ i =>
      simp only [List.getElem?_cons_succ] at hi
      have hne : k.case ≠ case := fun e => h 0 (.mk n case t) (by omega) rfl e.symm
      have := ih hi (fun j k' hj hk' => h (j + 1) k' (by omega) (by simpa using hk'))
      cases t <;> simpa [UCase.ReprCase] using ⟨hne, this⟩

/-- C37: storing the discriminant of case `i` succeeds; every other field of the key structure reads
what it read before; then, with a representable content, encoding the union succeeds, and decoding
selects case `i` with that content. -/
theorem C37_set_discriminant (c : Ctx) {u : Union} {i : Nat} {k : UCase} {a : Access} {key : Bytes}
    (hi : u.cases[i]? = some k) (ha : u.discriminant.access = some a)
    (hw : u.discriminant.root.WF) (hp : u.discriminant.root.WellPlaced)
    (hlen : u.discriminant.root.byteSize ≤ key.length) (hmem : key.length < 2 ^ 64)
    (hfit : k.case < 2 ^ a.width)
    (hfirst : ∀ j k', j < i → u.cases[j]? = some k' → k'.case ≠ k.case) :
    ∃ key', u.setDiscriminant c.p i key = .ok key' ∧ key'.length = key.length ∧
      (∀ a', u.discriminant.root.HasAccess a' → a' ≠ a → a'.get c.p key' = a'.get c.p key) ∧
      ∀ env on, env.lookup on = some (.struct key') →
        u.discriminant.read c.p env on = .ok k.case ∧
        ∀ x, (k.itemType = none → x = .unit) → (∀ r, k.itemType = some r → r.Repr c x) →
          (u.write c env on (.union i x)).res = .ok () ∧
          (u.delimited c.emb = true → ∀ t, u.parse c env on ((u.write c env on (.union i x)).bytes ++ t) =
            .ok ⟨(u.write c env on (.union i x)).bytes.length, .union i x⟩) ∧
          (u.tailGreedy c.emb = true → u.parse c env on (u.write c env on (.union i x)).bytes =
            .ok ⟨(u.write c env on (.union i x)).bytes.length, .union i x⟩) := by
  obtain ⟨key', h1, h2, h3, h4⟩ :=
    C10_set_get c.p (Structure.walk_hasAccess ha) hw hp key k.case hlen hmem
  refine ⟨key', ?_, h2, h4, fun env on henv => ?_⟩
  · unfold Union.setDiscriminant
    rw [hi, ha]
    exact h1
  · have hread : u.discriminant.read c.p env on = .ok k.case := by
      unfold Discriminant.read
      rw [henv, ha]
      rw [Nat.mod_eq_of_lt hfit] at h3
      exact h3
    refine ⟨hread, fun x hx0 hx1 => ?_⟩
    have hrepr : u.Repr c env on (.union i x) := by
      have := reprCase_of_first hi hfirst hx0 hx1
      obtain ⟨n, disc, cs, sz⟩ := u
      simp only [Union.Repr]
      exact ⟨i, x, _, rfl, hread, this⟩
    have hrt := (roundTripInd c).ty (.union u on 0) false .little env [] (.union i x)
      (by simpa only [MFieldTy.Repr] using hrepr)
    simpa only [RT, MFieldTy.parse, MFieldTy.write, MFieldTy.delimited, MFieldTy.tailGreedy,
      List.append_nil] using hrt

example : Ex.choice.setDiscriminant .checked 2 [0, 9] = .ok [2, 9] := by rfl
example : Ex.choice.cases[2]? = some (.mk "Itemized".toList 2 (some (.message Ex.item))) ∧
    Ex.choice.discriminant.root.WF ∧ Ex.choice.discriminant.root.WellPlaced ∧
    (∀ j k', j < 2 → Ex.choice.cases[j]? = some k' → k'.case ≠ 2) ∧
    Referenced.Repr Ex.ctx (.message Ex.item) Ex.itemV := by
  refine ⟨rfl, Ex.key_WF, Ex.key_WellPlaced, ?_, by simpa only [Referenced.Repr] using Ex.itemV_repr⟩
  intro j k' hj hk
  rcases j with _ | _ | j
  · cases hk; decide
  · cases hk; decide
  · omega

/-- C37: there is nothing to store for a case that does not exist or without a fixed-width key. -/
theorem C37_unusable (p : Profile) (u : Union) (i : Nat) (key : Bytes)
    (h : u.cases.length ≤ i ∨ u.discriminant.access = none) :
    u.setDiscriminant p i key = .panic := by
  unfold Union.setDiscriminant
  split
  · next h1 h2 =>
    rcases h with h | h
    · rw [List.getElem?_eq_none h] at h1; cases h1
    · rw [h] at h2; cases h2
  · rfl

example (p : Profile) (key : Bytes) : Ex.choice.setDiscriminant p 3 key = .panic :=
  C37_unusable p Ex.choice 3 key (.inl (by decide))

/-- C37 needs distinct case values: with a duplicate, the first case is decoded. -/
theorem C37_duplicate :
    let u : Union := .mk ['u'] Ex.keyDisc [.mk ['a'] 1 none, .mk ['b'] 1 (some (.struct Ex.keyS))] ⟨false, false⟩
    u.setDiscriminant .checked 1 [0, 9] = .ok [1, 9] ∧
    (u.write Ex.ctx (Ex.keyEnv [1, 9]) "k".toList (.union 1 (.struct [3, 4]))).bytes = [3, 4] ∧
    u.parse Ex.ctx (Ex.keyEnv [1, 9]) "k".toList [3, 4] = .ok ⟨0, .union 0 .unit⟩ := by
  refine ⟨by rfl, by rfl, by rfl⟩

/-- C37 needs the case value to fit: a larger one is cut and decodes as something else. -/
theorem C37_too_large :
    let u : Union := .mk ['u'] Ex.keyDisc [.mk ['a'] 256 (some (.struct Ex.keyS))] ⟨false, false⟩
    u.setDiscriminant .checked 0 [7, 9] = .ok [0, 9] ∧
    (u.write Ex.ctx (Ex.keyEnv [0, 9]) "k".toList (.union 0 (.struct [3, 4]))).res =
      .err (.invalidUnionDiscriminant 0) := by
  refine ⟨by rfl, by rfl⟩

/-! ## C38 -/

/-- The whole C38: a value of a case whose declared value differs from the discriminant is refused. -/
def C38_full : Prop := ∀ (c : Ctx) (u : Union) (env : Env) (on : Name) (d i : Nat) (k : UCase) (x : Value),
  u.discriminant.read c.p env on = .ok d → u.cases[i]? = some k → d ≠ k.case →
    (u.write c env on (.union i x)).res = .err (.invalidUnionDiscriminant d)

/-- C38 for cases with content: refused with an error carrying the discriminant, and nothing is
written. -/
theorem C38_refused (c : Ctx) {u : Union} {env : Env} {on : Name} {d i : Nat} {k : UCase}
    {r : Referenced} (hd : u.discriminant.read c.p env on = .ok d) (hi : u.cases[i]? = some k)
    (hk : k.itemType = some r) (hne : d ≠ k.case) (x : Value) :
    (u.write c env on (.union i x)).res = .err (.invalidUnionDiscriminant d) ∧
      (u.write c env on (.union i x)).bytes = [] := by
  rw [write_of_read hd hi, (writeCases_at c hi d x).2.2 r hk hne]
  exact ⟨rfl, rfl⟩

example : (Ex.choice.write Ex.ctx (Ex.keyEnv [0, 9]) "k".toList (.union 2 Ex.itemV)).res =
    .err (.invalidUnionDiscriminant 0) :=
  (C38_refused Ex.ctx (d := 0) (i := 2) (k := .mk "Itemized".toList 2 (some (.message Ex.item))) rfl rfl rfl
    (by decide) Ex.itemV).1

/-- C38: under the right discriminant exactly the content is written. -/
theorem C38_accepted (c : Ctx) {u : Union} {env : Env} {on : Name} {i : Nat} {k : UCase}
    {r : Referenced} (hd : u.discriminant.read c.p env on = .ok k.case) (hi : u.cases[i]? = some k)
    (hk : k.itemType = some r) (x : Value) :
    u.write c env on (.union i x) = r.write c x := by
  rw [write_of_read hd hi, (writeCases_at c hi _ x).2.1 r hk rfl]

example : Ex.choice.write Ex.ctx (Ex.keyEnv [2, 9]) "k".toList (.union 2 Ex.itemV) =
    Referenced.write Ex.ctx (.message Ex.item) Ex.itemV :=
  C38_accepted Ex.ctx (i := 2) (k := .mk "Itemized".toList 2 (some (.message Ex.item))) rfl rfl rfl _

example (b : Bytes) : Ex.choice.parse Ex.ctx (Ex.keyEnv [9, 9]) "k".toList b = .err (.invalidUnionDiscriminant 9) :=
  (C36_select Ex.ctx Ex.choice (d := 9) rfl b).1 (by
    intro k hk
    simp only [Ex.choice, Union.cases, List.mem_cons, List.not_mem_nil, or_false] at hk
    rcases hk with rfl | rfl | rfl <;> decide)

/-- C38: what happens for a case without content: accepted under every discriminant. -/
theorem C38_no_content (c : Ctx) {u : Union} {env : Env} {on : Name} {d i : Nat} {k : UCase}
    (hd : u.discriminant.read c.p env on = .ok d) (hi : u.cases[i]? = some k)
    (hk : k.itemType = none) (x : Value) : u.write c env on (.union i x) = .done := by
  rw [write_of_read hd hi, (writeCases_at c hi d x).1 hk]

example : Ex.choice.write Ex.ctx (Ex.keyEnv [5, 9]) "k".toList (.union 0 .unit) = .done :=
  C38_no_content Ex.ctx (d := 5) (k := .mk "Nothing".toList 0 none) rfl rfl rfl .unit

/-- C38, exactly: of the values whose case value differs from the discriminant, those of a case with
content are refused and the others are encoded, as nothing. -/
theorem C38_iff (c : Ctx) {u : Union} {env : Env} {on : Name} {d i : Nat} {k : UCase}
    (hd : u.discriminant.read c.p env on = .ok d) (hi : u.cases[i]? = some k) (hne : d ≠ k.case)
    (x : Value) :
    ((u.write c env on (.union i x)).res = .err (.invalidUnionDiscriminant d) ↔ k.itemType ≠ none) ∧
      ((u.write c env on (.union i x)).res = .ok () ↔ k.itemType = none) ∧
      (u.write c env on (.union i x)).bytes = [] := by
  cases hk : k.itemType with
  | none => rw [C38_no_content c hd hi hk x]; simp [Out.done, Out.bytes, Out.res]
  | some r =>
    obtain ⟨h1, h2⟩ := C38_refused c hd hi hk hne x
    rw [h1, h2]; simp

example : (Ex.choice.write Ex.ctx (Ex.keyEnv [5, 9]) "k".toList (.union 0 .unit)).res = .ok () :=
  (C38_iff Ex.ctx (d := 5) (k := .mk "Nothing".toList 0 none) rfl rfl (by decide) .unit).2.1.2 rfl

/-- C38 fails for a case without content: it is written under the discriminant of another case, whose
decoder then finds no content. -/
theorem C38_false :
    Ex.choice.discriminant.read .checked (Ex.keyEnv [1, 9]) "k".toList = .ok 1 ∧
    Ex.choice.write Ex.ctx (Ex.keyEnv [1, 9]) "k".toList (.union 0 .unit) = .done ∧
    Ex.choice.parse Ex.ctx (Ex.keyEnv [1, 9]) "k".toList [] = .err .truncated := by
  refine ⟨by rfl, by rfl, by rfl⟩

theorem C38_full_false : ¬ C38_full := by
  intro h
  have := h Ex.ctx Ex.choice (Ex.keyEnv [1, 9]) "k".toList 1 0 (.mk "Nothing".toList 0 none) .unit
    C38_false.1 rfl (by decide)
  rw [C38_false.2.1] at this
  cases this

example : Ex.choice.discriminant.read .checked (Ex.keyEnv [0, 9]) "k".toList = .ok 0 ∧
    Ex.choice.cases[2]? = some (.mk "Itemized".toList 2 (some (.message Ex.item))) := ⟨by rfl, by rfl⟩

/-! ## C39 -/

/-- C39: once a field that is not optional takes the rest of the input, and some later field needs at
least one byte, no input is accepted. -/
theorem C39_never (c : Ctx) {m : Message} {pre post : List MField} {f : MField}
    (hm : m.fields = pre ++ f :: post) (ho : f.optional = false)
    (hg : f.ty.greedy c.emb (c.emb m.id) = true) (hp : MField.listNonEmpty post = true) (b : Bytes)
    (r : Msg Value) : m.parse c b ≠ .ok r := by
  intro h
  obtain ⟨n, v⟩ := r
  obtain ⟨vs, rfl, hr⟩ := Message.parse_eq_ok.mp h
  rw [hm] at hr
  obtain ⟨_, e, he⟩ := runFields_eats (fun env => MField.eats ho hg env) hr
  have := runFields_needs (MField.listNonEmpty_needs hp) he
  omega

/-- C39: a message whose greedy part is last takes the whole input when it decodes. -/
theorem C39_takes_all (c : Ctx) {m : Message} (hg : m.greedy c.emb = true) {b : Bytes} {n : Nat}
    {v : Value} (h : m.parse c b = .ok ⟨n, v⟩) : n = b.length := (eatsInd c).all m hg b n v h

/-- A payload followed by a number: encodes, never decodes. -/
def Ex.afterPayload : Message :=
  .mk 30 ['m'] [.mk ['p'] .payload false ⟨true, true⟩ .little,
    .mk ['x'] (.fixed .u8) false ⟨false, false⟩ .little] ⟨true, true⟩

example : Ex.afterPayload.Repr Ex.ctx (.msg [(['p'], .buf [1, 2]), (['x'], .num 3)]) ∧
    (Ex.afterPayload.write Ex.ctx (.msg [(['p'], .buf [1, 2]), (['x'], .num 3)])).bytes = [1, 2, 3] ∧
    Ex.afterPayload.parse Ex.ctx [1, 2, 3] = .err .truncated := by
  refine ⟨?_, by rfl, by rfl⟩
  simp only [Ex.afterPayload, Message.Repr, MField.ListRepr]
  refine ⟨_, rfl, _, _, rfl, ?_, _, _, rfl, ?_, rfl⟩
  · simp only [MField.Repr, MFieldTy.Repr, Bool.false_eq_true, if_false]; exact ⟨_, rfl⟩
  · simp only [MField.Repr, MFieldTy.Repr, Bool.false_eq_true, if_false]; exact ⟨3, rfl, by decide⟩

example (b : Bytes) (r : Msg Value) : Ex.afterPayload.parse Ex.ctx b ≠ .ok r :=
  C39_never Ex.ctx (pre := []) (post := [.mk ['x'] (.fixed .u8) false ⟨false, false⟩ .little]) rfl rfl
    (by decide) (by decide) b r

/-! ## C40 -/

/-- The whole C40: whatever the items contain, a list of representable items decodes. -/
def C40_full : Prop := ∀ (c : Ctx) (m item : Message) (ty : FixedTy) (items : List Value),
  m.fields = [.mk ['l'] (.list ty item) false ⟨true, true⟩ .little] →
  c.emb item.id = true → items.length < 256 ^ ty.byteSize → (∀ x ∈ items, item.Repr c x) →
  ∃ l, (Seq.new []).writeItems Sink.vec (items.map (item.write c)) = (.ok (), l) ∧
    ∀ k, Lst.steps (item.parse c) (items.length + k) l =
      items.map (fun v => some (.ok v)) ++ List.replicate k none

/-- C40 for items without greedy part at any depth (lists inside them sit in messages flagged
embedded): building the list, encoding the message that holds it, decoding and iterating returns the
items, whether the list is scanned or lazily taken.  `C40_iff` settles the items with a greedy part. -/
theorem C40_roundtrip (c : Ctx) {m item : Message} {ty : FixedTy}
    (hm : m.fields = [.mk ['l'] (.list ty item) false ⟨true, true⟩ .little])
    (hd : item.delimited c.emb = true) {items : List Value} (hn : items.length < 256 ^ ty.byteSize)
    (hr : ∀ x ∈ items, item.Repr c x) :
    ∃ l : Seq Bytes, (Seq.new []).writeItems Sink.vec (items.map (item.write c)) = (.ok (), l) ∧
      (m.write c (.msg [(['l'], .seq l)])).res = .ok () ∧
      m.parse c (m.write c (.msg [(['l'], .seq l)])).bytes =
        .ok ⟨(m.write c (.msg [(['l'], .seq l)])).bytes.length, .msg [(['l'], .seq l)]⟩ ∧
      ∀ k, Lst.steps (item.parse c) (items.length + k) l =
        items.map (fun v => some (.ok v)) ++ List.replicate k none := by
  have hself : ∀ v ∈ items, SelfDelimiting (item.parse c) (item.write c) v := fun v hv =>
    ⟨(Message.roundTrips c item v (hr v hv)).1, fun t => C23_trailing c hd (hr v hv) t⟩
  have hbuild := C31_builder (item.write c) (Seq.new []) items (fun v hv => (hself v hv).1)
  simp only [Seq.new, List.nil_append, Nat.zero_add] at hbuild
  have hrepr : m.Repr c (.msg [(['l'],
      .seq ⟨items.flatMap (fun x => (item.write c x).bytes), items.length⟩)]) := by
    obtain ⟨id, nm, fs, sz⟩ := m
    simp only [Message.fields] at hm
    subst hm
    simp only [Message.Repr, MField.ListRepr]
    refine ⟨_, rfl, _, _, rfl, ?_, rfl⟩
    simp only [MField.Repr, MFieldTy.Repr, Bool.false_eq_true, if_false]
    exact ⟨_, rfl, hn, fun _ => ⟨items, rfl, hr, rfl⟩⟩
  have htail : m.tailGreedy c.emb = true := by
    obtain ⟨id, nm, fs, sz⟩ := m
    simp only [Message.fields] at hm
    subst hm
    simp [Message.tailGreedy, MField.listTailGreedy, MFieldTy.tailGreedy, hd]
  refine ⟨_, hbuild, (C22_roundtrip c htail hrepr).1, (C22_roundtrip c htail hrepr).2, fun k => ?_⟩
  simpa using steps_blocks (blocks_flatMap items hself) [] k

example : Ex.group.fields = [.mk "items".toList (.list .u8 Ex.item) false ⟨true, true⟩ .little] ∧
    Ex.group.delimited Ex.ctx.emb = true ∧ (∀ x ∈ [Ex.groupV, Ex.groupV], Ex.group.Repr Ex.ctx x) := by
  refine ⟨rfl, by decide, ?_⟩
  intro x hx
  simp only [List.mem_cons, List.not_mem_nil, or_false, or_self] at hx
  subst hx
  exact Ex.groupV_repr

namespace Ex

/-- One number; used as list item. -/
def leaf : Message :=
  .mk 20 "Leaf".toList [.mk "x".toList (.fixed .u8) false ⟨false, false⟩ .little] ⟨false, false⟩
/-- A list of leaves; not used as list item, hence not flagged embedded. -/
def middle : Message :=
  .mk 31 "Middle".toList [.mk "l".toList (.list .u8 leaf) false ⟨true, true⟩ .little] ⟨true, true⟩
/-- Refers to the list through a nested message; used as list item. -/
def wrapper : Message :=
  .mk 21 "Wrapper".toList [.mk "m".toList (.ref (.message middle)) false ⟨true, true⟩ .little] ⟨true, true⟩
/-- A list of wrappers. -/
def wrappers : Message :=
  .mk 32 "Wrappers".toList [.mk ['l'] (.list .u8 wrapper) false ⟨true, true⟩ .little] ⟨true, true⟩
def wrapperV : Value := .msg [("m".toList, .msg [("l".toList, .seq ⟨[7], 1⟩)])]

theorem wrapperV_repr : wrapper.Repr ctx wrapperV := by
  simp only [wrapper, wrapperV, Message.Repr, MField.ListRepr]
  refine ⟨_, rfl, _, _, rfl, ?_, rfl⟩
  simp only [MField.Repr, MFieldTy.Repr, Referenced.Repr, Bool.false_eq_true, if_false, middle,
    Message.Repr, MField.ListRepr]
  refine ⟨_, rfl, _, _, rfl, ⟨_, rfl, by decide, fun h => absurd h (by decide)⟩, rfl⟩

end Ex

/-- C40 fails when the inner list is reached through a nested message that is not itself a list item:
of two items written, the first one decoded swallows both and the second one is an error; the message
holding the list does round-trip, since it does not look at the items. -/
theorem C40_false :
    let two : Seq Bytes := ⟨[1, 7, 1, 7], 2⟩
    (Seq.new []).writeItems Sink.vec ([Ex.wrapperV, Ex.wrapperV].map (Ex.wrapper.write Ex.ctx)) =
      (.ok (), two) ∧
    Ex.wrappers.parse Ex.ctx [2, 1, 7, 1, 7] = .ok ⟨5, .msg [(['l'], .seq two)]⟩ ∧
    Lst.steps (Ex.wrapper.parse Ex.ctx) 2 two =
      [some (.ok (.msg [("m".toList, .msg [("l".toList, .seq ⟨[7, 1, 7], 1⟩)])])),
       some (.err .truncated)] := by
  refine ⟨by rfl, by rfl, by rfl⟩

theorem C40_full_false : ¬ C40_full := by
  intro h
  obtain ⟨l, h1, h2⟩ := h Ex.ctx Ex.wrappers Ex.wrapper .u8 [Ex.wrapperV, Ex.wrapperV] rfl rfl (by decide)
    (by
      intro x hx
      simp only [List.mem_cons, List.not_mem_nil, or_false, or_self] at hx
      subst hx
      exact Ex.wrapperV_repr)
  obtain ⟨h3, -, h4⟩ := C40_false
  rw [h3] at h1
  cases h1
  have := h2 0
  rw [show [Ex.wrapperV, Ex.wrapperV].length + 0 = 2 from rfl, h4] at this
  exact absurd (List.cons.inj this).2 (by simp)

/-- C40, exactly: whatever greedy part the items end with, building the list always succeeds, and
iterating over it yields the items iff no item whose greedy part is present is followed, at any
distance, by an item that encodes to at least one byte. -/
theorem C40_iff (c : Ctx) {item : Message} (hg : item.tailGreedy c.emb = true) {items : List Value}
    (hr : ∀ x ∈ items, item.Repr c x) :
    ∃ l : Seq Bytes, (Seq.new []).writeItems Sink.vec (items.map (item.write c)) = (.ok (), l) ∧
      ∀ k, Lst.steps (item.parse c) (items.length + k) l =
          items.map (fun v => some (.ok v)) ++ List.replicate k none ↔
        items.Pairwise fun v later => item.Open c.emb v → item.wire later = [] := by
  have hbuild := C31_builder (item.write c) (Seq.new []) items
    (fun v hv => (Message.roundTrips c item v (hr v hv)).1)
  simp only [Seq.new, List.nil_append, Nat.zero_add] at hbuild
  refine ⟨_, hbuild, fun k => ?_⟩
  rw [Lst.steps_iff (fun v hv => Message.ends c item v (hr v hv) hg) k]
  refine List.Pairwise.iff_of_mem fun {v v'} _ hv' => ?_
  rw [(C58_wire c (hr v' hv')).2]

example (n : Nat) : ∃ l : Seq Bytes,
    (Seq.new []).writeItems Sink.vec ((List.replicate n Ex.itemV).map (Ex.item.write Ex.ctx)) = (.ok (), l) ∧
      ∀ k, Lst.steps (Ex.item.parse Ex.ctx) ((List.replicate n Ex.itemV).length + k) l =
          (List.replicate n Ex.itemV).map (fun v => some (.ok v)) ++ List.replicate k none ↔
        (List.replicate n Ex.itemV).Pairwise fun v later => Ex.item.Open Ex.ctx.emb v → Ex.item.wire later = [] :=
  C40_iff Ex.ctx (by decide) fun x hx => (List.eq_of_mem_replicate hx) ▸ Ex.itemV_repr

/-- C40: the message that holds such a list, not being a list item itself, still gives the list back,
since it does not look at the items. -/
theorem C40_lazy (c : Ctx) {m item : Message} {ty : FixedTy}
    (hm : m.fields = [.mk ['l'] (.list ty item) false ⟨true, true⟩ .little])
    (he : c.emb m.id = false) {l : Seq Bytes} (hn : l.len < 256 ^ ty.byteSize) :
    (m.write c (.msg [(['l'], .seq l)])).res = .ok () ∧
      m.parse c (m.write c (.msg [(['l'], .seq l)])).bytes =
        .ok ⟨(m.write c (.msg [(['l'], .seq l)])).bytes.length, .msg [(['l'], .seq l)]⟩ := by
  obtain ⟨id, nm, fs, sz⟩ := m
  simp only [Message.fields] at hm
  simp only [Message.id] at he
  subst hm
  refine C22_roundtrip c ?_ ?_
  · simp [Message.tailGreedy, MField.listTailGreedy, MFieldTy.tailGreedy, he]
  · simp only [Message.Repr, MField.ListRepr]
    refine ⟨_, rfl, _, _, rfl, ?_, rfl⟩
    simp only [MField.Repr, MFieldTy.Repr, Bool.false_eq_true, if_false]
    exact ⟨_, rfl, hn, fun h => absurd h (by simp [he])⟩

def Ex.lists : Message := .mk 40 ['m'] [.mk ['l'] (.list .u8 Ex.item) false ⟨true, true⟩ .little] ⟨true, true⟩

example (l : Seq Bytes) (h : l.len < 256) :
    Ex.lists.parse ⟨.checked, fun _ => false⟩ (Ex.lists.write ⟨.checked, fun _ => false⟩ (.msg [(['l'], .seq l)])).bytes =
      .ok ⟨(Ex.lists.write ⟨.checked, fun _ => false⟩ (.msg [(['l'], .seq l)])).bytes.length, .msg [(['l'], .seq l)]⟩ :=
  (C40_lazy ⟨.checked, fun _ => false⟩ (item := Ex.item) (ty := .u8) rfl rfl h).2

/-- C40: an open value takes whatever follows it, and is told apart from what it took exactly when
something follows; a value that is not open ends on its own. -/
theorem C40_open (c : Ctx) {m : Message} (hg : m.tailGreedy c.emb = true) {v : Value}
    (hr : m.Repr c v) :
    (¬ m.Open c.emb v → ∀ t, m.parse c (m.wire v ++ t) = .ok ⟨(m.wire v).length, v⟩) ∧
    (m.Open c.emb v → ∀ t, ∃ v', m.parse c (m.wire v ++ t) = .ok ⟨(m.wire v ++ t).length, v'⟩ ∧
      (v' = v ↔ t = [])) := by
  have := Message.ends c m v hr hg
  unfold Ends at this
  rw [(C58_wire c hr).2] at this
  simpa only [List.length_append] using this

example : Ex.wrapper.tailGreedy Ex.ctx.emb = true ∧ Ex.wrapper.Open Ex.ctx.emb Ex.wrapperV ∧
    Ex.wrapper.wire Ex.wrapperV = [1, 7] := by
  refine ⟨by decide, ?_, by decide⟩
  simp only [Ex.wrapper, Ex.wrapperV, Message.Open, MField.ListOpen, MField.Open, MFieldTy.Open,
    Referenced.Open, Ex.middle]
  decide

/-! ## C29–C33 for messages -/

/-- C29 for messages: the size query on any value has the outcome of encoding it, and on success is the
number of bytes appended. -/
theorem C29_message (c : Ctx) (m : Message) (v : Value) (buf : Bytes)
    (hmem : (m.write c v).bytes.length < 2 ^ 64) :
    sizeOf c.p (m.write c v) = appended (m.write c v) buf := C29_size_of c.p _ buf hmem

example : sizeOf .checked (Ex.full.write Ex.ctx Ex.fullV) = appended (Ex.full.write Ex.ctx Ex.fullV) [1] :=
  C29_message Ex.ctx Ex.full Ex.fullV [1] (by decide +kernel)

/-- C29: for a representable value the size is the length of its wire form. -/
theorem C29_wire (c : Ctx) {m : Message} {v : Value} (h : m.Repr c v)
    (hmem : (m.wire v).length < 2 ^ 64) : sizeOf c.p (m.write c v) = .ok (m.wire v).length := by
  obtain ⟨h1, h2⟩ := C58_wire c h
  rw [C29_size_of c.p _ [] (by rw [h2]; exact hmem)]
  unfold appended
  rw [Out.run_vec, h1, h2]
  simp

example : sizeOf .checked (Ex.group.write Ex.ctx Ex.groupV) = .ok 10 :=
  C29_wire Ex.ctx Ex.groupV_repr (by decide)

/-- C31 for messages: a list of self-delimiting items built item by item, encoded, decoded with its
items checked and iterated gives back the items. -/
theorem C31_message (c : Ctx) (e : Endian) (sz : Nat) {m : Message} (hd : m.delimited c.emb = true)
    {items : List Value} (hr : ∀ x ∈ items, m.Repr c x) (hn : items.length < 256 ^ sz) (t : Bytes) :
    ∃ l l', (Seq.new []).writeItems Sink.vec (items.map (m.write c)) = (.ok (), l) ∧
      l.len = items.length ∧ (l.writeTo e sz).res = .ok () ∧
      Lst.fromSlice e sz (m.parse c) ((l.writeTo e sz).bytes ++ t) =
        .ok ⟨(l.writeTo e sz).bytes.length, l'⟩ ∧ l'.len = items.length ∧
      ∀ k, Lst.steps (m.parse c) (items.length + k) l' =
        items.map (fun v => some (.ok v)) ++ List.replicate k none :=
  C31_roundtrip e sz (m.parse c) (m.write c) items t (Message.cut c m)
    (fun v hv => ⟨(Message.roundTrips c m v (hr v hv)).1, fun t => C23_trailing c hd (hr v hv) t⟩) hn

example : ∃ l l', (Seq.new []).writeItems Sink.vec ([Ex.itemV, Ex.itemW].map (Ex.item.write Ex.ctx)) = (.ok (), l) ∧
    Lst.fromSlice .little 2 (Ex.item.parse Ex.ctx) ((l.writeTo .little 2).bytes ++ [9]) =
      .ok ⟨(l.writeTo .little 2).bytes.length, l'⟩ ∧
    Lst.steps (Ex.item.parse Ex.ctx) 3 l' = [some (.ok Ex.itemV), some (.ok Ex.itemW), none] :=
  let ⟨l, l', h1, _, _, h2, _, h3⟩ := C31_message Ex.ctx .little 2 (m := Ex.item) (by decide)
    (items := [Ex.itemV, Ex.itemW])
    (by intro x hx; simp at hx; rcases hx with rfl | rfl <;> first | exact Ex.itemV_repr | exact Ex.itemW_repr)
    (by decide) [9]
  ⟨l, l', h1, h2, h3 1⟩

/-- An item with a number, then a union. -/
def Ex.risky : Message :=
  .mk 40 "Risky".toList
    [ .mk "k".toList (.ref (.struct Ex.keyS)) false ⟨false, false⟩ .little,
      .mk "u".toList (.union Ex.choice "k".toList 0) false ⟨true, false⟩ .little ] ⟨true, false⟩

/-- C32 for messages: the full claim fails on an item with a union of the wrong case: the key structure
written before the refusal stays in the list. -/
theorem C32_message_false :
    (Seq.new []).writeItem Sink.vec
        (Ex.risky.write Ex.ctx (.msg [("k".toList, .struct [1, 9]), ("u".toList, .union 2 Ex.itemV)])) =
      (.err (.invalidUnionDiscriminant 1), ⟨[1, 9], 0⟩) := by rfl

end Proto.Props
