import Verif.Props.CompilePanic

/-!
# C123: exactly which descriptions compile

## In order, in terms of the description alone

The predicates in the namespace `Model` look only at declarations as they are written; nothing compiled
occurs in them.
-/

namespace Proto

namespace Model

/-- Among the declarations `ds` the last one of the name `n` is `x`, and `older` are those before it. -/
def Declares {α : Type} (name : α → Name) (ds : List α) (n : Name) (older : List α) (x : α) : Prop :=
  ∃ newer, ds = older ++ x :: newer ∧ name x = n ∧ ∀ y ∈ newer, name y ≠ n

/-- The names, none of which contains a dot, are joined by dots. -/
def Dotted (path : Name) (names : List Name) : Prop :=
  path = List.intercalate ['.'] names ∧ names ≠ [] ∧ ∀ n ∈ names, '.' ∉ n

/-- The bits a field of a scalar type takes; 0 for structures. -/
def SField.bits (f : SField) : Nat :=
  (match f.info with
    | .signed n => n
    | .unsigned n => n
    | .float n => n
    | .boolean n => n
    | .struct _ => 0) * f.arrayLen.getD 1

/-- A scalar field that is not an array. -/
def SField.Plain (f : SField) : Prop := (∀ t, f.info ≠ .struct t) ∧ f.arrayLen.getD 1 ≤ 1

/-- A field is in order after the structures `older`: the structure it refers to is one of them; a
number has 1 to 64 bits; an unsigned one may be viewed as a declared enum, a float one scaled, and must
be if it does not have 32 or 64 bits; arrays of scalars take whole bytes. -/
def SField.Accepted (enums : List Enum) (older : List Structure) (f : SField) : Prop :=
  match f.info with
  | .struct t => ∃ s ∈ older, s.name = t
  | .unsigned n => 1 ≤ n ∧ n ≤ 64 ∧ (f.view = none ∨ ∃ e ∈ enums, f.view = some (.enum e.name)) ∧
      (1 < f.arrayLen.getD 1 → f.bits % 8 = 0)
  | .signed n => 1 ≤ n ∧ n ≤ 64 ∧ f.view = none ∧ (1 < f.arrayLen.getD 1 → f.bits % 8 = 0)
  | .float n => 1 ≤ n ∧ n ≤ 64 ∧ ((∃ lo hi, f.view = some (.floatRange lo hi)) ∨
      (∃ k, f.view = some (.floatMultiplier k)) ∨ f.view = none ∧ (n = 32 ∨ n = 64)) ∧
      (1 < f.arrayLen.getD 1 → f.bits % 8 = 0)
  | .boolean _ => f.view = none ∧ (1 < f.arrayLen.getD 1 → f.bits % 8 = 0)

/-- The first field of the name `n` is `f`, at position `i`. -/
def Structure.Has (s : Structure) (n : Name) (i : Nat) (f : SField) : Prop :=
  s.fields[i]? = some f ∧ f.name = n ∧ ∀ j g, j < i → s.fields[j]? = some g → g.name ≠ n

/-- A path from the structure `s`, declared after the structures `older`, is followed to the position
`i` in the structure `leaf`.  A scalar ends the path, whatever follows.  At the end of a path that ends
with a structure, the position is the one of that structure in the one around it. -/
inductive Walks : List Structure → Structure → List Name → Structure → Nat → Prop where
  | plain {older : List Structure} {s : Structure} {n : Name} {rest : List Name} {i : Nat} {f : SField} :
      s.Has n i f → f.Plain → Walks older s (n :: rest) s i
  | last {older older' : List Structure} {s s' : Structure} {n t : Name} {i : Nat} {f : SField} :
      s.Has n i f → f.info = .struct t → Declares Structure.name older t older' s' → Walks older s [n] s' i
  | down {older older' : List Structure} {s s' leaf : Structure} {n m t : Name} {rest : List Name} {i j : Nat}
      {f : SField} : s.Has n i f → f.info = .struct t → Declares Structure.name older t older' s' →
      Walks older' s' (m :: rest) leaf j → Walks older s (n :: m :: rest) leaf j

/-- The text `c` is a case of a union decided by the field `f`: a variant of the enum it is viewed as,
a number that fits an unsigned word, or for signed, boolean and float fields one that fits a signed
word.  Scaled floats have no cases. -/
def CaseText (enums : List Enum) (f : SField) (c : Name) : Prop :=
  match f.view with
  | some (.enum n) => ∃ older e, Declares Enum.name enums n older e ∧ ∃ v ∈ e.variants, v.1 = c
  | some _ => False
  | none =>
    match f.info with
    | .unsigned _ => ∃ n, n < 2 ^ 64 ∧ (Props.Numeral c n ∨ ∃ cs, c = '+' :: cs ∧ Props.Numeral cs n)
    | _ => (∃ n, n < 2 ^ 63 ∧ (Props.Numeral c n ∨ ∃ cs, c = '+' :: cs ∧ Props.Numeral cs n)) ∨
        ∃ n cs, n ≤ 2 ^ 63 ∧ c = '-' :: cs ∧ Props.Numeral cs n

/-- A union is in order: its discriminant names a declared structure and a path in it, and if there are
cases the path leads to a scalar, the cases fit it and the contents of cases are declared structures. -/
def Union.Accepted (enums : List Enum) (structs : List Structure) (u : Union) : Prop :=
  ∃ name parts older root leaf i, Dotted u.discriminant (name :: parts) ∧
    Declares Structure.name structs name older root ∧ Walks older root parts leaf i ∧
    (u.cases = [] ∨ ∃ f, leaf.fields[i]? = some f ∧ f.Plain ∧
      ∀ c ∈ u.cases, CaseText enums f c.case ∧ ∀ t, c.itemType = some t → ∃ s ∈ structs, s.name = t)

/-- A union that takes the compiler down: its discriminant names a declared structure and nothing in it, or
there are cases and the path ends with a structure that has no scalar at the position of the last name. -/
def Union.Crashes (structs : List Structure) (u : Union) : Prop :=
  ∃ name parts older root, Dotted u.discriminant (name :: parts) ∧ Declares Structure.name structs name older root ∧
    (parts = [] ∨ u.cases ≠ [] ∧ ∃ leaf i, Walks older root parts leaf i ∧
      ∀ f, leaf.fields[i]? = some f → ¬ f.Plain)

/-- A structure that stands for a number: one scalar of whole bytes that is not viewed as an enum or
scaled, nor a signed one of an unusual width. -/
def Structure.Scalar (s : Structure) : Prop :=
  ∃ f, s.fields = [f] ∧ f.Plain ∧ f.view = none ∧ f.bits % 8 = 0 ∧
    ∀ n, f.info = .signed n → n = 8 ∨ n = 16 ∨ n = 32 ∨ n = 64

/-- A field of a message declared after the messages `older` has no fixed size: strings, lists, payloads,
and messages that have such a field. -/
inductive Varies (structs : List Structure) : List Message → MFieldTy → Prop where
  | string {older : List Message} {n : Option Nat} : Varies structs older (.string n)
  | list {older : List Message} {n : Nat} {t : Name} : Varies structs older (.list n t)
  | payload {older : List Message} : Varies structs older .payload
  | item {older older' : List Message} {t : Name} {m : Message} {g : MField} :
      (∀ s ∈ structs, s.name ≠ t) → Declares Message.name older t older' m → g ∈ m.fields →
      Varies structs older' g.info → Varies structs older (.item t)

/-- A field of a message declared after the messages `older` may reach to the end of the input: lists of
messages, payloads, and messages that have such a field. -/
inductive Reaches (structs : List Structure) : List Message → MFieldTy → Prop where
  | list {older : List Message} {n : Nat} {t : Name} :
      (∀ s ∈ structs, s.name ≠ t) → Reaches structs older (.list n t)
  | payload {older : List Message} : Reaches structs older .payload
  | item {older older' : List Message} {t : Name} {m : Message} {g : MField} :
      (∀ s ∈ structs, s.name ≠ t) → Declares Message.name older t older' m → g ∈ m.fields →
      Reaches structs older' g.info → Reaches structs older (.item t)

/-- The name is that of a declared structure or an earlier message. -/
def Known (structs : List Structure) (older : List Message) (t : Name) : Prop :=
  (∃ s ∈ structs, s.name = t) ∨ ∃ m ∈ older, m.name = t

/-- A field after the fields `before`, of a message declared after the messages `older`, is in order: what
it refers to is declared; a union follows the field deciding it, the first one of its name, which is a
structure that is not a plain number and the one in which the discriminant of the union begins. -/
def MField.Accepted (structs : List Structure) (unions : List Union) (older : List Message)
    (before : List MField) (f : MField) : Prop :=
  match f.info with
  | .item t => Known structs older t
  | .list _ t => Known structs older t
  | .string _ => True
  | .payload => True
  | .union on t => ∃ (i : Nat) (g : MField) (n : Name) (os : List Structure) (s : Structure) (ou : List Union)
      (u : Union) (parts : List Name),
      before[i]? = some g ∧ g.name = on ∧ (∀ (j : Nat) (h : MField), j < i → before[j]? = some h → h.name ≠ on) ∧
      g.info = .item n ∧ Declares Structure.name structs n os s ∧ ¬ s.Scalar ∧
      Declares Union.name unions t ou u ∧ Dotted u.discriminant (n :: parts)

/-- A message declared after the messages `older` is in order: its fields are, and none without fixed
size follows one that may reach to the end. -/
def Message.Accepted (structs : List Structure) (unions : List Union) (older : List Message) (m : Message) :
    Prop :=
  ∀ before f after, m.fields = before ++ f :: after → f.Accepted structs unions older before ∧
    ((∃ g ∈ before, Reaches structs older g.info) → ¬ Varies structs older f.info)

/-- A description without imports is in order: enums have variants, and structures, unions and messages
are in order, each after the ones declared before it. -/
def Protocol.Accepted (d : Protocol) : Prop :=
  (∀ e ∈ d.enums, e.variants ≠ []) ∧
  (∀ older s newer, d.structs = older ++ s :: newer → ∀ f ∈ s.fields, f.Accepted d.enums older) ∧
  (∀ u ∈ d.unions, u.Accepted d.enums d.structs) ∧
  ∀ older m newer, d.messages = older ++ m :: newer → m.Accepted d.structs d.unions older

end Model

end Proto

namespace Proto

open Model (Declares)

/-! ## Scopes -/

theorem declares_index {α : Type} {name : α → Name} {ds older : List α} {n : Name} {x : α}
    (h : Declares name ds n older x) : ds[older.length]? = some x ∧ older = ds.take older.length ∧ name x = n ∧
      ∀ (j : Nat) y, older.length < j → ds[j]? = some y → name y ≠ n := by
  obtain ⟨newer, rfl, hn, hl⟩ := h
  refine ⟨by simp, by simp, hn, fun j y hj hy => hl y ?_⟩
  rw [List.getElem?_append_right (by omega)] at hy
  obtain ⟨k, hk⟩ : ∃ k, j - older.length = k + 1 := ⟨j - older.length - 1, by omega⟩
  rw [hk, List.getElem?_cons_succ] at hy
  exact List.mem_of_getElem? hy

theorem declares_or {α : Type} (name : α → Name) (n : Name) (ds : List α) :
    (∀ x ∈ ds, name x ≠ n) ∨ ∃ older x, Declares name ds n older x := by
  induction ds with
  | nil => exact .inl (by simp)
  | cons d ds ih =>
    rcases ih with h | ⟨older, x, newer, rfl, hx, hn⟩
    · by_cases hd : name d = n
      · exact .inr ⟨[], d, ds, rfl, hd, h⟩
      · refine .inl fun x hx => ?_
        rcases List.mem_cons.1 hx with rfl | hx
        · exact hd
        · exact h x hx
    · exact .inr ⟨d :: older, x, newer, rfl, hx, hn⟩

theorem declares_iff {α : Type} {name : α → Name} {n : Name} {ds : List α} :
    (∃ older x, Declares name ds n older x) ↔ ∃ x ∈ ds, name x = n := by
  constructor
  · rintro ⟨older, x, newer, rfl, hx, -⟩
    exact ⟨x, by simp, hx⟩
  · rintro ⟨x, hx, hn⟩
    rcases declares_or name n ds with h | h
    · exact absurd hn (h x hx)
    · exact h

theorem declares_unique {α : Type} {name : α → Name} {n : Name} {ds older older' : List α} {x x' : α}
    (h : Declares name ds n older x) (h' : Declares name ds n older' x') : older = older' ∧ x = x' := by
  obtain ⟨a1, a2, a3, a4⟩ := declares_index h
  obtain ⟨b1, b2, b3, b4⟩ := declares_index h'
  have : older.length = older'.length := by
    rcases Nat.lt_trichotomy older.length older'.length with hl | hl | hl
    · exact absurd b3 (a4 _ _ hl b1)
    · exact hl
    · exact absurd a3 (b4 _ _ hl a1)
  rw [this] at a1 a2
  exact ⟨a2.trans b2.symm, by rw [a1] at b1; exact Option.some.inj b1⟩

/-- Compiled declarations in the place of the declarations, of the same names. -/
def Placed {α β : Type} (name : α → Name) (name' : β → Name) (ds : List α) (cs : List β) : Prop :=
  cs.length = ds.length ∧ ∀ (j : Nat) d c, ds[j]? = some d → cs[j]? = some c → name' c = name d

theorem Placed.take {α β : Type} {name : α → Name} {name' : β → Name} {ds : List α} {cs : List β}
    (h : Placed name name' ds cs) (j : Nat) : Placed name name' (ds.take j) (cs.take j) := by
  refine ⟨by simp [h.1], fun k d c hd hc => ?_⟩
  rw [List.getElem?_take] at hd hc
  split at hd
  · next hk =>
    rw [if_pos hk] at hc
    exact h.2 k d c hd hc
  · cases hd

theorem placed_get {α β : Type} {name : α → Name} {name' : β → Name} {ds : List α} {cs : List β}
    (h : Placed name name' ds cs) {j : Nat} {d : α} (hd : ds[j]? = some d) : ∃ c, cs[j]? = some c := by
  have hlt : j < ds.length := by
    rw [List.getElem?_eq_some_iff] at hd; exact hd.1
  exact ⟨cs[j]'(by rw [h.1]; exact hlt), List.getElem?_eq_getElem _⟩

theorem placed_get' {α β : Type} {name : α → Name} {name' : β → Name} {ds : List α} {cs : List β}
    (h : Placed name name' ds cs) {j : Nat} {c : β} (hc : cs[j]? = some c) : ∃ d, ds[j]? = some d := by
  have hlt : j < cs.length := by
    rw [List.getElem?_eq_some_iff] at hc; exact hc.1
  exact ⟨ds[j]'(by rw [← h.1]; exact hlt), List.getElem?_eq_getElem _⟩

theorem lookup_declares {α β : Type} {name : α → Name} {name' : β → Name} {ds : List α} {cs : List β}
    (h : Placed name name' ds cs) {n : Name} {older : List α} {x : α} (hd : Declares name ds n older x) :
    ∃ c, cs[older.length]? = some c ∧ (scope name' cs []).lookup n = some c := by
  obtain ⟨a1, a2, a3, a4⟩ := declares_index hd
  obtain ⟨c, hc⟩ := placed_get h a1
  refine ⟨c, hc, (Props.C44_scope name' cs [] n).1 older.length c hc ((h.2 _ _ _ a1 hc).trans a3) ?_⟩
  intro j y hj hy
  obtain ⟨d, hd⟩ := placed_get' h hy
  rw [h.2 _ _ _ hd hy]
  exact a4 j d hj hd

theorem lookup_undeclared {α β : Type} {name : α → Name} {name' : β → Name} {ds : List α} {cs : List β}
    (h : Placed name name' ds cs) {n : Name} (hn : ∀ x ∈ ds, name x ≠ n) :
    (scope name' cs []).lookup n = none := by
  rw [(Props.C44_scope name' cs [] n).2 ?_]
  · rfl
  · intro c hc
    obtain ⟨j, hj⟩ := List.getElem?_of_mem hc
    obtain ⟨d, hd⟩ := placed_get' h hj
    rw [h.2 _ _ _ hd hj]
    exact hn d (List.mem_of_getElem? hd)

theorem lookup_some {α β : Type} {name : α → Name} {name' : β → Name} {ds : List α} {cs : List β}
    (h : Placed name name' ds cs) {n : Name} {c : β} (hl : (scope name' cs []).lookup n = some c) :
    ∃ older x, Declares name ds n older x ∧ cs[older.length]? = some c := by
  rcases declares_or name n ds with hn | ⟨older, x, hd⟩
  · rw [lookup_undeclared h hn] at hl
    cases hl
  · obtain ⟨c', hc, hl'⟩ := lookup_declares h hd
    rw [hl'] at hl
    cases hl
    exact ⟨older, x, hd, hc⟩

theorem lookup_isSome {α β : Type} {name : α → Name} {name' : β → Name} {ds : List α} {cs : List β}
    (h : Placed name name' ds cs) {n : Name} :
    (∃ c, (scope name' cs []).lookup n = some c) ↔ ∃ x ∈ ds, name x = n := by
  rw [← declares_iff]
  constructor
  · rintro ⟨c, hc⟩
    obtain ⟨older, x, hd, -⟩ := lookup_some h hc
    exact ⟨older, x, hd⟩
  · rintro ⟨older, x, hd⟩
    obtain ⟨c, -, hc⟩ := lookup_declares h hd
    exact ⟨c, hc⟩

theorem lookup_none {α β : Type} {name : α → Name} {name' : β → Name} {ds : List α} {cs : List β}
    (h : Placed name name' ds cs) {n : Name} :
    (scope name' cs []).lookup n = none ↔ ∀ x ∈ ds, name x ≠ n := by
  refine ⟨fun hn x hx he => ?_, lookup_undeclared h⟩
  obtain ⟨c, hc⟩ := (lookup_isSome h).2 ⟨x, hx, he⟩
  rw [hn] at hc
  cases hc

/-! ## Fields of structures -/

/-- What the compiled field is. -/
def Shape (p : Profile) (structs : List (Name × Structure)) (enums : List (Name × Enum)) (v : Model.SField)
    (F : SField) : Prop :=
  (∃ t r loc, v.info = .struct t ∧ structs.lookup t = some r ∧ F = .struct v.name r loc) ∨
  ((∀ t, v.info ≠ .struct t) ∧ 1 < v.arrayLen.getD 1 ∧ ∃ a, F = .array a ∧ a.name = v.name) ∨
  (v.Plain ∧ ∃ g bits, F = .fixed g ∧ g.name = v.name ∧ v.info.bitSize? = some bits ∧
    View.fromModel p enums v.info.simple bits v.view = .ok g.view ∧ g.loc.bitSize % 8 = v.bits % 8)

/-- What a declared field must be. -/
def Taken (structs : List (Name × Structure)) (enums : List (Name × Enum)) (v : Model.SField) : Prop :=
  match v.info with
  | .struct t => ∃ r, structs.lookup t = some r
  | _ => ViewFits enums v ∧ WidthSupported v.info ∧ (1 < v.arrayLen.getD 1 → v.bits % 8 = 0)

theorem mulU_mod8 {p : Profile} {a b c : Nat} (h : (mulU p usizeBits a b : C Nat) = .ok c) :
    c % 8 = (a * b) % 8 := by
  unfold mulU at h
  split at h
  · cases h; rfl
  · cases p with
    | checked => cases h
    | wrapping =>
      cases h
      rw [show (2 : Nat) ^ usizeBits = 8 * 2 ^ 61 by decide, Nat.mod_mul_right_mod]

theorem sfield_shape {p : Profile} {structs : List (Name × Structure)} {enums : List (Name × Enum)} {e : Endian}
    {last next : Nat} {v : Model.SField} {F : SField}
    (h : SField.fromModel p structs enums e last v = .ok (F, next)) : F.name = v.name ∧ Shape p structs enums v F := by
  have scalar : ∀ bits, v.info.bitSize? = some bits → v.bits = bits * v.arrayLen.getD 1 →
      (do let arrayLen := v.arrayLen.getD 1
          let bits ← Res.ofOption CError.missingBitSize v.info.bitSize?
          let view ← View.fromModel p enums v.info.simple bits v.view
          let bitSize ← mulU p usizeBits bits arrayLen
          let ty ← FixedTy.fromModel v.info
          let loc := Loc.fromModel bitSize last
          if arrayLen > 1 then
            if bitSize % 8 ≠ 0 then .err .unalignedArrayCodec
            else do
              let next ← addU p usizeBits last bitSize
              pure (SField.array { name := v.name, endian := e, arrayLen, ty, loc }, next)
          else do
            let next ← addU p usizeBits last bitSize
            pure (SField.fixed { name := v.name, endian := e, ty, loc, view }, next)) = .ok (F, next) →
      F.name = v.name ∧ Shape p structs enums v F := by
    intro bits hb hw h
    have hns : ∀ t, v.info ≠ .struct t := fun t ht => by rw [ht] at hb; cases hb
    simp only [hb, Res.ofOption, Res.bind_ok] at h
    obtain ⟨view, hv, h⟩ := Res.bind_eq_ok.1 h
    obtain ⟨bs, hm, h⟩ := Res.bind_eq_ok.1 h
    obtain ⟨ty, hty, h⟩ := Res.bind_eq_ok.1 h
    split at h
    · next hl =>
      split at h
      · cases h
      · obtain ⟨nx, hn, h⟩ := Res.bind_eq_ok.1 h
        cases h
        exact ⟨rfl, .inr (.inl ⟨hns, hl, _, rfl, rfl⟩)⟩
    · next hl =>
      obtain ⟨nx, hn, h⟩ := Res.bind_eq_ok.1 h
      cases h
      refine ⟨rfl, .inr (.inr ⟨⟨hns, by omega⟩, _, bits, rfl, rfl, hb, hv, ?_⟩)⟩
      rw [hw]
      exact mulU_mod8 hm
  unfold SField.fromModel at h
  cases hi : v.info with
  | struct t =>
    simp only [hi] at h
    obtain ⟨r, hr, h⟩ := Res.bind_eq_ok.1 h
    obtain ⟨nx, hn, h⟩ := Res.bind_eq_ok.1 h
    cases h
    exact ⟨rfl, .inl ⟨t, r, _, hi, Res.ofOption_eq_ok hr, rfl⟩⟩
  | signed n =>
    refine scalar n (by rw [hi]; rfl) (by simp [Model.SField.bits, hi]) ?_
    simp only [hi] at h ⊢
    exact h
  | unsigned n =>
    refine scalar n (by rw [hi]; rfl) (by simp [Model.SField.bits, hi]) ?_
    simp only [hi] at h ⊢
    exact h
  | float n =>
    refine scalar n (by rw [hi]; rfl) (by simp [Model.SField.bits, hi]) ?_
    simp only [hi] at h ⊢
    exact h
  | boolean n =>
    refine scalar n (by rw [hi]; rfl) (by simp [Model.SField.bits, hi]) ?_
    simp only [hi] at h ⊢
    exact h

theorem wrapping_ok (a b : Nat) : (∃ c, (addU .wrapping usizeBits a b : C Nat) = .ok c) ∧
    (∃ c, (subU .wrapping usizeBits a b : C Nat) = .ok c) ∧ (∃ c, (mulU .wrapping usizeBits a b : C Nat) = .ok c) ∧
    ∃ c, (shlU .wrapping usizeBits a b : C Nat) = .ok c := by
  refine ⟨?_, ?_, ?_, ?_⟩
  · unfold addU; split <;> exact ⟨_, rfl⟩
  · unfold subU; split <;> exact ⟨_, rfl⟩
  · unfold mulU; split <;> exact ⟨_, rfl⟩
  · unfold shlU; split <;> exact ⟨_, rfl⟩

theorem view_wrapping {enums : List (Name × Enum)} {v : Model.SField} {bits : Nat}
    (hb : v.info.bitSize? = some bits) :
    (∃ w, View.fromModel .wrapping enums v.info.simple bits v.view = .ok w) ↔ ViewFits enums v := by
  unfold ViewFits
  cases hi : v.info with
  | struct t => rw [hi] at hb; cases hb
  | boolean n =>
    rcases hv : v.view with _ | w
    · simp [View.fromModel, Model.FieldTy.simple]
    · cases w <;> simp [View.fromModel, Model.FieldTy.simple]
  | unsigned n =>
    rcases hv : v.view with _ | w
    · simp [View.fromModel, Model.FieldTy.simple]
    · cases w with
      | enum t =>
        simp only [View.fromModel, Model.FieldTy.simple, ne_eq, not_true, if_false]
        cases enums.lookup t with
        | none => simp
        | some e => simp
      | _ => simp [View.fromModel, Model.FieldTy.simple]
  | signed n =>
    rcases hv : v.view with _ | w
    · simp only [View.fromModel, Model.FieldTy.simple, reduceCtorEq, false_and, if_false, true_and, iff_true]
      split
      · obtain ⟨a, ha⟩ := (wrapping_ok bits 1).2.1
        obtain ⟨b, hb⟩ := (wrapping_ok 1 a).2.2.2
        obtain ⟨c, hc⟩ := (wrapping_ok b 1).2.1
        rw [ha, Res.bind_ok, hb, Res.bind_ok, hc]
        exact ⟨_, rfl⟩
      · exact ⟨_, rfl⟩
    · cases w <;> simp [View.fromModel, Model.FieldTy.simple]
  | float n =>
    rw [hi] at hb
    obtain rfl : n = bits := by simpa [Model.FieldTy.bitSize?] using hb
    rcases hv : v.view with _ | w
    · simp only [View.fromModel, Model.FieldTy.simple, true_and, reduceCtorEq, false_and, if_false]
      by_cases hc : n ≠ 32 ∧ n ≠ 64
      · rw [if_pos hc]
        simp
        omega
      · rw [if_neg hc]
        simp
        omega
    · cases w with
      | enum t => simp [View.fromModel, Model.FieldTy.simple]
      | floatRange a b =>
        simp only [View.fromModel, Model.FieldTy.simple, ne_eq, not_true, if_false, iff_true]
        obtain ⟨b, hb⟩ := (wrapping_ok 1 n).2.2.2
        obtain ⟨c, hc⟩ := (wrapping_ok b 1).2.1
        rw [hb, Res.bind_ok, hc]
        exact ⟨_, rfl⟩
      | floatMultiplier m => simp [View.fromModel, Model.FieldTy.simple]

/-- The fields that release builds take. -/
theorem sfield_release {structs : List (Name × Structure)} {enums : List (Name × Enum)} {e : Endian}
    {last : Nat} {v : Model.SField} :
    (∃ r, SField.fromModel .wrapping structs enums e last v = .ok r) ↔ Taken structs enums v := by
  have scalar : ∀ bits, v.info.bitSize? = some bits → v.bits = bits * v.arrayLen.getD 1 →
      ((∃ r, (do
          let arrayLen := v.arrayLen.getD 1
          let bits ← Res.ofOption CError.missingBitSize v.info.bitSize?
          let view ← View.fromModel .wrapping enums v.info.simple bits v.view
          let bitSize ← mulU .wrapping usizeBits bits arrayLen
          let ty ← FixedTy.fromModel v.info
          let loc := Loc.fromModel bitSize last
          if arrayLen > 1 then
            if bitSize % 8 ≠ 0 then .err .unalignedArrayCodec
            else do
              let next ← addU .wrapping usizeBits last bitSize
              pure (SField.array { name := v.name, endian := e, arrayLen, ty, loc }, next)
          else do
            let next ← addU .wrapping usizeBits last bitSize
            pure (SField.fixed { name := v.name, endian := e, ty, loc, view }, next)) = .ok r) ↔
        ViewFits enums v ∧ WidthSupported v.info ∧ (1 < v.arrayLen.getD 1 → v.bits % 8 = 0)) := by
    intro bits hb hw
    simp only [hb, Res.ofOption, Res.bind_ok]
    rw [← view_wrapping hb, ← Props.width_supported hb]
    obtain ⟨bs, hm⟩ := (wrapping_ok bits (v.arrayLen.getD 1)).2.2.1
    have h8 := mulU_mod8 hm
    obtain ⟨nx, hn⟩ := (wrapping_ok last bs).1
    constructor
    · rintro ⟨r, h⟩
      obtain ⟨view, hv, h⟩ := Res.bind_eq_ok.1 h
      rw [hm, Res.bind_ok] at h
      obtain ⟨ty, hty, h⟩ := Res.bind_eq_ok.1 h
      refine ⟨⟨view, hv⟩, ⟨ty, hty⟩, fun hl => ?_⟩
      rw [if_pos hl] at h
      split at h
      · cases h
      · next h0 => rw [hw, ← h8]; omega
    · rintro ⟨⟨view, hv⟩, ⟨ty, hty⟩, hl⟩
      rw [hv, Res.bind_ok, hm, Res.bind_ok, hty, Res.bind_ok]
      split
      · next hlt =>
        have := hl hlt
        rw [if_neg (by rw [hw, ← h8] at this; omega), hn]
        exact ⟨_, rfl⟩
      · rw [hn]
        exact ⟨_, rfl⟩
  unfold SField.fromModel Taken
  cases hi : v.info with
  | struct t =>
    simp only
    constructor
    · rintro ⟨r, h⟩
      obtain ⟨s, hs, h⟩ := Res.bind_eq_ok.1 h
      exact ⟨s, Res.ofOption_eq_ok hs⟩
    · rintro ⟨s, hs⟩
      obtain ⟨nx, hn⟩ := (wrapping_ok last s.bitSize).1
      rw [hs]
      simp only [Res.ofOption, Res.bind_ok]
      rw [hn]
      exact ⟨_, rfl⟩
  | signed n =>
    have := scalar n (by rw [hi]; rfl) (by simp [Model.SField.bits, hi])
    simpa only [hi] using this
  | unsigned n =>
    have := scalar n (by rw [hi]; rfl) (by simp [Model.SField.bits, hi])
    simpa only [hi] using this
  | float n =>
    have := scalar n (by rw [hi]; rfl) (by simp [Model.SField.bits, hi])
    simpa only [hi] using this
  | boolean n =>
    have := scalar n (by rw [hi]; rfl) (by simp [Model.SField.bits, hi])
    simpa only [hi] using this

/-- The fields that builds with overflow checks take. -/
theorem sfield_debug {structs : List (Name × Structure)} {enums : List (Name × Enum)} {e : Endian}
    {last : Nat} {v : Model.SField} :
    (∃ r, SField.fromModel .checked structs enums e last v = .ok r) ↔
      Taken structs enums v ∧ NoShift v ∧ last + declWidth structs v < 2 ^ 64 := by
  have hp := Props.C48_field_panics (structs := structs) (enums := enums) (e := e) (last := last) (v := v)
  have over : ∀ {N V W A : Prop} {w : Nat}, V → W → A →
      (N ∨ V ∧ (2 ^ 64 ≤ w ∨ W ∧ A ∧ 2 ^ 64 ≤ last + w) ↔ N ∨ 2 ^ 64 ≤ last + w) := by
    intro N V W A w hV hW hA
    constructor
    · rintro (h | ⟨-, h | ⟨-, -, h⟩⟩)
      · exact .inl h
      · exact .inr (by omega)
      · exact .inr h
    · rintro (h | h)
      · exact .inl h
      · exact .inr ⟨hV, .inr ⟨hW, hA, h⟩⟩
  have key : Taken structs enums v → (FieldOverflows structs enums last v ↔
      ¬ NoShift v ∨ 2 ^ 64 ≤ last + declWidth structs v) := by
    unfold Taken FieldOverflows declWidth
    cases hi : v.info with
    | struct t =>
      simp only
      rintro ⟨r, hr⟩
      simp [hr]
    | signed n =>
      simp only [Model.SField.bits, hi]
      rintro ⟨h1, h2, h3⟩
      exact over h1 h2 h3
    | unsigned n =>
      simp only [Model.SField.bits, hi]
      rintro ⟨h1, h2, h3⟩
      exact over h1 h2 h3
    | float n =>
      simp only [Model.SField.bits, hi]
      rintro ⟨h1, h2, h3⟩
      exact over h1 h2 h3
    | boolean n =>
      simp only [Model.SField.bits, hi]
      rintro ⟨h1, h2, h3⟩
      exact over h1 h2 h3
  have ha := Props.agrees_field structs enums e last v
  constructor
  · rintro ⟨r, h⟩
    have hw : SField.fromModel .wrapping structs enums e last v = .ok r := by
      rcases ha with h' | h'
      · rw [h'] at h; cases h
      · rw [← h', h]
    have ht := sfield_release.1 ⟨r, hw⟩
    have : ¬ FieldOverflows structs enums last v := fun ho => by
      rw [hp.2 ho] at h; cases h
    rw [key ht] at this
    refine ⟨ht, ?_, by omega⟩
    exact Classical.byContradiction fun hn => this (.inl hn)
  · rintro ⟨ht, hn, hl⟩
    obtain ⟨r, hr⟩ := (sfield_release (e := e) (last := last)).2 ht
    rcases ha with h' | h'
    · have := (key ht).1 (hp.1 h')
      rcases this with h | h
      · exact absurd hn h
      · omega
    · exact ⟨r, h'.trans hr⟩

theorem sfields_release {structs : List (Name × Structure)} {enums : List (Name × Enum)} {e : Endian}
    {vs : List Model.SField} : ∀ {last : Nat},
    (∃ r, SField.fromModels .wrapping structs enums e last vs = .ok r) ↔ ∀ v ∈ vs, Taken structs enums v := by
  induction vs with
  | nil => exact fun {last} => ⟨fun _ => by simp, fun _ => ⟨_, rfl⟩⟩
  | cons v vs ih =>
    intro last
    unfold SField.fromModels
    constructor
    · rintro ⟨r, h⟩
      obtain ⟨⟨f, next⟩, h1, h⟩ := Res.bind_eq_ok.1 h
      obtain ⟨⟨fs', fin⟩, h2, h⟩ := Res.bind_eq_ok.1 h
      intro x hx
      rcases List.mem_cons.1 hx with rfl | hx
      · exact sfield_release.1 ⟨_, h1⟩
      · exact ih.1 ⟨_, h2⟩ x hx
    · intro h
      obtain ⟨⟨f, next⟩, h1⟩ := (sfield_release (e := e) (last := last)).2 (h v (by simp))
      obtain ⟨⟨fs, fin⟩, h2⟩ := (ih (last := next)).2 fun x hx => h x (by simp [hx])
      rw [h1, Res.bind_ok]
      simp only [h2, Res.bind_ok]
      exact ⟨_, rfl⟩

theorem sfields_debug {structs : List (Name × Structure)} {enums : List (Name × Enum)} {e : Endian}
    {vs : List Model.SField} : ∀ {last : Nat}, last < 2 ^ 64 →
    ((∃ r, SField.fromModels .checked structs enums e last vs = .ok r) ↔
      (∀ v ∈ vs, Taken structs enums v ∧ NoShift v) ∧ last + declTotal structs vs < 2 ^ 64) := by
  induction vs with
  | nil => exact fun {last} hl => ⟨fun _ => ⟨by simp, by simpa [declTotal] using hl⟩, fun _ => ⟨_, rfl⟩⟩
  | cons v vs ih =>
    intro last hl
    have ht : declTotal structs (v :: vs) = declWidth structs v + declTotal structs vs := by simp [declTotal]
    rw [ht]
    unfold SField.fromModels
    constructor
    · rintro ⟨r, h⟩
      obtain ⟨⟨f, next⟩, h1, h⟩ := Res.bind_eq_ok.1 h
      obtain ⟨⟨fs', fin⟩, h2, h⟩ := Res.bind_eq_ok.1 h
      obtain ⟨a1, a2, -⟩ := SField.fromModel_spec h1 (.inl rfl)
      obtain ⟨b1, b2, b3⟩ := sfield_debug.1 ⟨_, h1⟩
      obtain ⟨c1, c2⟩ := (ih a2).1 ⟨_, h2⟩
      refine ⟨fun x hx => ?_, by omega⟩
      rcases List.mem_cons.1 hx with rfl | hx
      · exact ⟨b1, b2⟩
      · exact c1 x hx
    · rintro ⟨h, hw⟩
      obtain ⟨⟨f, next⟩, h1⟩ := (sfield_debug (e := e) (last := last)).2
        ⟨(h v (by simp)).1, (h v (by simp)).2, by omega⟩
      obtain ⟨a1, a2, -⟩ := SField.fromModel_spec h1 (.inl rfl)
      obtain ⟨⟨fs, fin⟩, h2⟩ := (ih a2).2 ⟨fun x hx => h x (by simp [hx]), by omega⟩
      rw [h1, Res.bind_ok]
      simp only [h2, Res.bind_ok]
      exact ⟨_, rfl⟩

theorem sfields_shape {p : Profile} {structs : List (Name × Structure)} {enums : List (Name × Enum)} {e : Endian}
    {vs : List Model.SField} : ∀ {last final : Nat} {fs : List SField},
    SField.fromModels p structs enums e last vs = .ok (fs, final) → fs.length = vs.length ∧
      ∀ (i : Nat) v F, vs[i]? = some v → fs[i]? = some F → F.name = v.name ∧ Shape p structs enums v F := by
  induction vs with
  | nil =>
    intro last final fs h
    cases h
    exact ⟨rfl, fun i v F h => by simp at h⟩
  | cons v vs ih =>
    intro last final fs h
    unfold SField.fromModels at h
    obtain ⟨⟨f, next⟩, h1, h⟩ := Res.bind_eq_ok.1 h
    obtain ⟨⟨fs', fin⟩, h2, h⟩ := Res.bind_eq_ok.1 h
    cases h
    obtain ⟨a1, a2⟩ := ih h2
    refine ⟨by simp [a1], fun i w F hv hF => ?_⟩
    cases i with
    | zero =>
      cases hv
      cases hF
      exact sfield_shape h1
    | succ i => exact a2 i w F hv hF

/-- What a compiled structure has of the declared one. -/
theorem structure_shape {p : Profile} {structs : List (Name × Structure)} {enums : List (Name × Enum)} {e : Endian}
    {id : Nat} {v : Model.Structure} {S : Structure} (h : Structure.fromModel p structs enums e id v = .ok S) :
    S.name = v.name ∧ S.id = id ∧ S.fields.length = v.fields.length ∧
      ∀ (i : Nat) f F, v.fields[i]? = some f → S.fields[i]? = some F → F.name = f.name ∧ Shape p structs enums f F := by
  unfold Structure.fromModel at h
  obtain ⟨⟨fs, last⟩, h1, h⟩ := Res.bind_eq_ok.1 h
  cases h
  exact ⟨rfl, rfl, sfields_shape h1⟩

theorem structure_release {structs : List (Name × Structure)} {enums : List (Name × Enum)} {e : Endian}
    {id : Nat} {v : Model.Structure} : (∃ S, Structure.fromModel .wrapping structs enums e id v = .ok S) ↔
      ∀ f ∈ v.fields, Taken structs enums f := by
  rw [← sfields_release (e := e) (last := 0)]
  unfold Structure.fromModel
  constructor
  · rintro ⟨S, h⟩
    obtain ⟨r, h1, h⟩ := Res.bind_eq_ok.1 h
    exact ⟨r, h1⟩
  · rintro ⟨r, h⟩
    rw [h]
    exact ⟨_, rfl⟩

theorem structure_debug {structs : List (Name × Structure)} {enums : List (Name × Enum)} {e : Endian}
    {id : Nat} {v : Model.Structure} : (∃ S, Structure.fromModel .checked structs enums e id v = .ok S) ↔
      (∀ f ∈ v.fields, Taken structs enums f ∧ NoShift f) ∧ declTotal structs v.fields < 2 ^ 64 := by
  have := sfields_debug (structs := structs) (enums := enums) (e := e) (vs := v.fields) (last := 0) (by decide)
  rw [Nat.zero_add] at this
  rw [← this]
  unfold Structure.fromModel
  constructor
  · rintro ⟨S, h⟩
    obtain ⟨r, h1, h⟩ := Res.bind_eq_ok.1 h
    exact ⟨r, h1⟩
  · rintro ⟨r, h⟩
    rw [h]
    exact ⟨_, rfl⟩

/-! ## Enums and structures -/

theorem enums_iff {vs : List Model.Enum} {proto : Protocol} :
    (∃ proto', Protocol.addEnums proto vs = .ok proto') ↔ ∀ v ∈ vs, v.variants ≠ [] := by
  induction vs generalizing proto with
  | nil => exact ⟨fun _ => by simp, fun _ => ⟨_, rfl⟩⟩
  | cons v vs ih =>
    unfold Protocol.addEnums
    constructor
    · rintro ⟨r, h⟩
      obtain ⟨e, h1, h⟩ := Res.bind_eq_ok.1 h
      intro x hx
      rcases List.mem_cons.1 hx with rfl | hx
      · intro h0
        rw [(Props.C46_zero x).1 h0] at h1
        cases h1
      · exact ih.1 ⟨_, h⟩ x hx
    · intro h
      obtain ⟨e, he⟩ := (Props.C46_zero v).2 (h v (by simp))
      rw [he, Res.bind_ok]
      exact ih.2 fun x hx => h x (by simp [hx])

/-- A declared and a compiled enum. -/
def EnumsOf (ds : List Model.Enum) (cs : List Enum) : Prop :=
  cs.length = ds.length ∧ ∀ (j : Nat) d c, ds[j]? = some d → cs[j]? = some c → Enum.fromModel d = .ok c

theorem EnumsOf.placed {ds : List Model.Enum} {cs : List Enum} (h : EnumsOf ds cs) :
    Placed Model.Enum.name Enum.name ds cs :=
  ⟨h.1, fun j d c hd hc => (Props.C46_enum (h.2 j d c hd hc)).1⟩

theorem taken_iff {ds : List Model.Structure} {ss : List Structure} {es : List Model.Enum} {cs : List Enum}
    (hs : Placed Model.Structure.name Structure.name ds ss) (he : Placed Model.Enum.name Enum.name es cs)
    {v : Model.SField} :
    Taken (scope Structure.name ss []) (scope Enum.name cs []) v ↔ v.Accepted es ds := by
  unfold Taken Model.SField.Accepted
  cases hi : v.info with
  | struct t => exact lookup_isSome hs
  | unsigned n =>
    simp only [ViewFits, WidthSupported, hi]
    rcases hv : v.view with _ | w
    · simp [and_assoc]
    · cases w with
      | enum t =>
        simp only [lookup_isSome he, reduceCtorEq, false_or, Option.some.injEq, Model.FieldView.enum.injEq]
        constructor
        · rintro ⟨⟨x, hx, hn⟩, ⟨h1, h2⟩, h3⟩
          exact ⟨h1, h2, ⟨x, hx, hn.symm⟩, h3⟩
        · rintro ⟨h1, h2, ⟨x, hx, hn⟩, h3⟩
          exact ⟨⟨x, hx, hn.symm⟩, ⟨h1, h2⟩, h3⟩
      | floatRange a b => simp
      | floatMultiplier m => simp
  | signed n =>
    simp only [ViewFits, WidthSupported, hi]
    rcases hv : v.view with _ | w
    · simp [and_assoc]
    · cases w <;> simp
  | float n =>
    simp only [ViewFits, WidthSupported, hi]
    rcases hv : v.view with _ | w
    · simp only [reduceCtorEq, exists_false, false_or, true_and]
      constructor
      · rintro ⟨h1, ⟨h2, h3⟩, h4⟩
        exact ⟨h2, h3, h1, h4⟩
      · rintro ⟨h2, h3, h1, h4⟩
        exact ⟨h1, ⟨h2, h3⟩, h4⟩
    · cases w <;> simp [and_assoc]
  | boolean n =>
    simp only [ViewFits, WidthSupported, hi]
    rcases hv : v.view with _ | w
    · simp
    · cases w <;> simp

theorem forall_split_cons {α : Type} {P : List α → α → Prop} {v : α} {vs : List α} :
    (∀ older s newer, v :: vs = older ++ s :: newer → P older s) ↔
      P [] v ∧ ∀ older s newer, vs = older ++ s :: newer → P (v :: older) s := by
  constructor
  · intro h
    exact ⟨h [] v vs rfl, fun older s newer he => h (v :: older) s newer (by rw [he]; rfl)⟩
  · rintro ⟨h1, h2⟩ older s newer he
    cases older with
    | nil => cases he; exact h1
    | cons x older =>
      cases he
      exact h2 older s newer rfl

theorem Placed.snoc {α β : Type} {name : α → Name} {name' : β → Name} {ds : List α} {cs : List β}
    (h : Placed name name' ds cs) {d : α} {c : β} (hn : name' c = name d) :
    Placed name name' (ds ++ [d]) (cs ++ [c]) := by
  refine ⟨by simp [h.1], fun j x y hx hy => ?_⟩
  rw [List.getElem?_append] at hx hy
  rw [h.1] at hy
  split at hx
  · next hj => rw [if_pos hj] at hy; exact h.2 j x y hx hy
  · next hj =>
    rw [if_neg hj] at hy
    obtain ⟨k, hk⟩ : ∃ k, j - ds.length = k := ⟨_, rfl⟩
    rw [hk] at hx hy
    cases k with
    | zero => cases hx; cases hy; exact hn
    | succ k => simp at hx

theorem scope_snoc {α : Type} (name : α → Name) (cs : List α) (c : α) :
    (name c, c) :: scope name cs [] = scope name (cs ++ [c]) [] := by simp [scope]

/-- The structures that release builds take. -/
theorem structs_release {es : List Model.Enum} {cs : List Enum} (he : Placed Model.Enum.name Enum.name es cs)
    {vs : List Model.Structure} : ∀ {ds : List Model.Structure} {ss : List Structure} {next : Nat}
      {proto : Protocol}, Placed Model.Structure.name Structure.name ds ss →
      proto.structsByName = scope Structure.name ss [] → proto.enumsByName = scope Enum.name cs [] →
    ((∃ r, Protocol.addStructs .wrapping next proto vs = .ok r) ↔
      ∀ older s newer, vs = older ++ s :: newer → ∀ f ∈ s.fields, f.Accepted es (ds ++ older)) := by
  induction vs with
  | nil =>
    intro ds ss next proto _ _ _
    exact ⟨fun _ older s newer h => by simp at h, fun _ => ⟨_, rfl⟩⟩
  | cons v vs ih =>
    intro ds ss next proto hp hs hen
    rw [forall_split_cons (P := fun older (s : Model.Structure) => ∀ f ∈ s.fields, Model.SField.Accepted es (ds ++ older) f)]
    simp only [List.append_nil]
    have h1 := structure_release (structs := proto.structsByName) (enums := proto.enumsByName)
      (e := proto.endianness) (id := next) (v := v)
    rw [hs, hen] at h1
    simp only [taken_iff hp he] at h1
    rw [← h1]
    have step : ∀ S : Structure, S.name = v.name →
        ((∃ r, Protocol.addStructs .wrapping (next + 1) { proto with
            structsByName := (S.name, S) :: proto.structsByName, structs := proto.structs ++ [S] } vs = .ok r) ↔
          ∀ older s newer, vs = older ++ s :: newer → ∀ f ∈ s.fields, f.Accepted es (ds ++ v :: older)) := by
      intro S hS
      refine (ih (ds := ds ++ [v]) (ss := ss ++ [S]) (hp.snoc hS) ?_ ?_).trans ?_
      · simp only [hs]
        exact scope_snoc _ _ _
      · exact hen
      · simp
    unfold Protocol.addStructs
    rw [hs, hen] at *
    constructor
    · rintro ⟨r, h⟩
      obtain ⟨S, hS, h⟩ := Res.bind_eq_ok.1 h
      exact ⟨⟨S, hS⟩, (step S (structure_shape hS).1).1 ⟨r, h⟩⟩
    · rintro ⟨⟨S, hS⟩, h⟩
      rw [hS, Res.bind_ok]
      exact (step S (structure_shape hS).1).2 h

/-- The structures that builds with overflow checks take. -/
theorem structs_debug {es : List Model.Enum} {cs : List Enum} (he : Placed Model.Enum.name Enum.name es cs)
    {vs : List Model.Structure} : ∀ {ds : List Model.Structure} {ss : List Structure} {next : Nat}
      {proto : Protocol}, Placed Model.Structure.name Structure.name ds ss →
      proto.structsByName = scope Structure.name ss [] → proto.enumsByName = scope Enum.name cs [] →
    ((∃ r, Protocol.addStructs .checked next proto vs = .ok r) ↔
      (∀ older s newer, vs = older ++ s :: newer → ∀ f ∈ s.fields, f.Accepted es (ds ++ older)) ∧
      (∀ s ∈ vs, ∀ f ∈ s.fields, NoShift f) ∧
      DeclFits (proto.structsByName.map fun x => (x.1, x.2.bitSize)) vs) := by
  induction vs with
  | nil =>
    intro ds ss next proto _ _ _
    exact ⟨fun _ => ⟨fun older s newer h => by simp at h, by simp, trivial⟩, fun _ => ⟨_, rfl⟩⟩
  | cons v vs ih =>
    intro ds ss next proto hp hs hen
    rw [forall_split_cons (P := fun older (s : Model.Structure) => ∀ f ∈ s.fields, Model.SField.Accepted es (ds ++ older) f)]
    simp only [List.append_nil]
    have ht : (v.fields.map (declBits (proto.structsByName.map fun x => (x.1, x.2.bitSize)))).sum =
        declTotal proto.structsByName v.fields := by
      unfold declTotal
      congr 1
      refine List.map_congr_left fun f _ => ?_
      have hl : ∀ t, (proto.structsByName.map fun x => (x.1, x.2.bitSize)).lookup t =
          (proto.structsByName.lookup t).map Structure.bitSize := by
        intro t
        induction proto.structsByName with
        | nil => rfl
        | cons x l ih =>
          simp only [List.map_cons, List.lookup_cons, ih]
          obtain ⟨a, b⟩ := x
          rw [List.lookup_cons]
          cases (t == a) <;> rfl
      unfold declBits declWidth
      cases f.info <;> simp [hl]
    have h1 := structure_debug (structs := proto.structsByName) (enums := proto.enumsByName)
      (e := proto.endianness) (id := next) (v := v)
    have step : ∀ S : Structure, Structure.fromModel .checked proto.structsByName proto.enumsByName
          proto.endianness next v = .ok S →
        ((∃ r, Protocol.addStructs .checked (next + 1) { proto with
            structsByName := (S.name, S) :: proto.structsByName, structs := proto.structs ++ [S] } vs = .ok r) ↔
          (∀ older s newer, vs = older ++ s :: newer → ∀ f ∈ s.fields, f.Accepted es (ds ++ v :: older)) ∧
          (∀ s ∈ vs, ∀ f ∈ s.fields, NoShift f) ∧
          DeclFits ((v.name, declTotal proto.structsByName v.fields) ::
            proto.structsByName.map fun x => (x.1, x.2.bitSize)) vs) := by
      intro S hS
      obtain ⟨hn, _, hb, _⟩ := Props.C08_layout hS (.inl rfl)
      refine (ih (ds := ds ++ [v]) (ss := ss ++ [S]) (hp.snoc hn) ?_ ?_).trans ?_
      · simp only [hs]
        exact scope_snoc _ _ _
      · exact hen
      · simp only [List.map_cons, hb, hn]
        simp
    unfold Protocol.addStructs DeclFits
    rw [ht]
    constructor
    · rintro ⟨r, h⟩
      obtain ⟨S, hS, h⟩ := Res.bind_eq_ok.1 h
      obtain ⟨a1, a2⟩ := h1.1 ⟨S, hS⟩
      obtain ⟨b1, b2, b3⟩ := (step S hS).1 ⟨r, h⟩
      refine ⟨⟨fun f hf => ?_, b1⟩, fun s hs f hf => ?_, a2, b3⟩
      · rw [← taken_iff hp he, ← hs, ← hen]
        exact (a1 f hf).1
      · rcases List.mem_cons.1 hs with rfl | hs
        · exact (a1 f hf).2
        · exact b2 s hs f hf
    · rintro ⟨⟨c1, c2⟩, c3, c4, c5⟩
      obtain ⟨S, hS⟩ := h1.2 ⟨fun f hf => ⟨by rw [hs, hen, taken_iff hp he]; exact c1 f hf,
        c3 v (by simp) f hf⟩, c4⟩
      rw [hS, Res.bind_ok]
      exact (step S hS).2 ⟨c2, fun s hs => c3 s (by simp [hs]), c5⟩

/-! ## Unions -/

/-- Declared and compiled structures. -/
def StructsOf (p : Profile) (enums : List (Name × Enum)) (e : Endian) (next : Nat) (ds : List Model.Structure)
    (ss : List Structure) : Prop :=
  ss.length = ds.length ∧ ∀ (j : Nat) d c, ds[j]? = some d → ss[j]? = some c →
    Structure.fromModel p (scope Structure.name (ss.take j) []) enums e (next + j) d = .ok c

theorem StructsOf.placed {p : Profile} {enums : List (Name × Enum)} {e : Endian} {next : Nat}
    {ds : List Model.Structure} {ss : List Structure} (h : StructsOf p enums e next ds ss) :
    Placed Model.Structure.name Structure.name ds ss :=
  ⟨h.1, fun j d c hd hc => (structure_shape (h.2 j d c hd hc)).1⟩

theorem has_iff {p : Profile} {structs : List (Name × Structure)} {enums : List (Name × Enum)} {e : Endian}
    {id : Nat} {v : Model.Structure} {S : Structure} (h : Structure.fromModel p structs enums e id v = .ok S)
    {n : Name} {i : Nat} : S.fields.findIdx? (fun f => f.name == n) = some i ↔ ∃ f, v.Has n i f := by
  obtain ⟨-, -, hl, hf⟩ := structure_shape h
  rw [List.findIdx?_eq_some_iff_getElem]
  constructor
  · rintro ⟨hi, h1, h2⟩
    have hv : i < v.fields.length := by omega
    refine ⟨v.fields[i], List.getElem?_eq_getElem hv, ?_, fun j g hj hg hn => ?_⟩
    · rw [← (hf i _ _ (List.getElem?_eq_getElem hv) (List.getElem?_eq_getElem hi)).1]
      simpa using h1
    · have hj' : j < S.fields.length := by omega
      have := (hf j g _ hg (List.getElem?_eq_getElem hj')).1
      have h2 := h2 j hj
      rw [this, hn] at h2
      simp at h2
  · rintro ⟨f, h1, h2, h3⟩
    have hv : i < v.fields.length := by rw [List.getElem?_eq_some_iff] at h1; exact h1.1
    refine ⟨by omega, ?_, fun j hj => ?_⟩
    · rw [(hf i _ _ h1 (List.getElem?_eq_getElem (by omega))).1, h2]
      simp
    · have hj' : j < v.fields.length := by omega
      have := h3 j _ hj (List.getElem?_eq_getElem hj')
      rw [(hf j _ _ (List.getElem?_eq_getElem hj') (List.getElem?_eq_getElem (by omega))).1]
      simpa using this

theorem shape_plain {p : Profile} {structs : List (Name × Structure)} {enums : List (Name × Enum)}
    {f : Model.SField} {F : SField} (h : Shape p structs enums f F) : f.Plain ↔ ∃ g, F = .fixed g := by
  rcases h with ⟨t, r, loc, h1, -, rfl⟩ | ⟨-, h2, a, rfl, -⟩ | ⟨h1, g, bits, rfl, -⟩
  · exact ⟨fun h => absurd h1 (h.1 t), fun ⟨g, h⟩ => by cases h⟩
  · exact ⟨fun h => by have := h.2; omega, fun ⟨g, h⟩ => by cases h⟩
  · exact ⟨fun _ => ⟨g, rfl⟩, fun _ => h1⟩

theorem take_some {α : Type} {l : List α} {j k : Nat} {x : α} (h : (l.take j)[k]? = some x) :
    k < j ∧ l[k]? = some x := by
  rw [List.getElem?_take] at h
  split at h
  · next hk => exact ⟨hk, h⟩
  · cases h

/-- Following a path in the compiled structures is following it in the declared ones. -/
theorem walk_sound {p : Profile} {enums : List (Name × Enum)} {e : Endian} {next : Nat}
    {ds : List Model.Structure} {ss : List Structure} (h : StructsOf p enums e next ds ss) {nm : Name}
    {parts : List Name} : ∀ {j : Nat} {s : Model.Structure} {S L : Structure} {is : List Nat},
      parts ≠ [] → ds[j]? = some s → ss[j]? = some S → Discriminant.walk nm S parts = .ok (L, is) →
      ∃ (k : Nat) (l : Model.Structure) (i : Nat), ds[k]? = some l ∧ ss[k]? = some L ∧ is.getLast? = some i ∧
        Model.Walks (ds.take j) s parts l i := by
  induction parts with
  | nil => intro j s S L is h0; exact absurd rfl h0
  | cons n rest ih =>
    intro j s S L is _ hd hs hw
    have hm := h.2 j s S hd hs
    obtain ⟨-, -, hlen, hsh⟩ := structure_shape hm
    unfold Discriminant.walk at hw
    split at hw
    · cases hw
    · next i hi =>
      obtain ⟨f, hf⟩ := (has_iff hm).1 hi
      split at hw
      · next g hg =>
        cases hw
        refine ⟨j, s, i, hd, hs, rfl, .plain hf ?_⟩
        exact (shape_plain (hsh i f _ hf.1 hg).2).2 ⟨_, rfl⟩
      · next n' r loc hg =>
        obtain ⟨⟨L', is'⟩, h1, hw⟩ := Res.bind_eq_ok.1 hw
        cases hw
        rcases (hsh i f _ hf.1 hg).2 with ⟨t, r', loc', a1, a2, a3⟩ | ⟨-, -, a, a3, -⟩ | ⟨-, g, bits, a3, -⟩
        · cases a3
          obtain ⟨older, s', hdec, hr⟩ := lookup_some (h.placed.take j) a2
          obtain ⟨b1, b2, -⟩ := declares_index hdec
          obtain ⟨hk, hr⟩ := take_some hr
          obtain ⟨-, b1⟩ := take_some b1
          rw [List.take_take, Nat.min_eq_left (by omega)] at b2
          cases rest with
          | nil =>
            cases h1
            exact ⟨older.length, s', i, b1, hr, rfl, .last hf a1 hdec⟩
          | cons m rest =>
            obtain ⟨k, l, i', c1, c2, c3, c4⟩ := ih (by simp) b1 hr h1
            rw [← b2] at c4
            refine ⟨k, l, i', c1, c2, ?_, .down hf a1 hdec c4⟩
            rw [List.getLast?_cons, c3]
            rfl
        · cases a3
        · cases a3
      · cases hw

theorem walk_complete {p : Profile} {enums : List (Name × Enum)} {e : Endian} {next : Nat}
    {ds : List Model.Structure} {ss : List Structure} (h : StructsOf p enums e next ds ss) {nm : Name}
    {older : List Model.Structure} {s l : Model.Structure} {parts : List Name} {i : Nat}
    (hw : Model.Walks older s parts l i) : ∀ {j : Nat} {S : Structure}, older = ds.take j → ds[j]? = some s →
      ss[j]? = some S → ∃ (L : Structure) (is : List Nat) (k : Nat), Discriminant.walk nm S parts = .ok (L, is) ∧
        is.getLast? = some i ∧ ds[k]? = some l ∧ ss[k]? = some L := by
  have nested : ∀ {older older' : List Model.Structure} {s s' : Model.Structure} {n t : Name} {i : Nat}
      {f : Model.SField}, s.Has n i f → f.info = .struct t → Declares Model.Structure.name older t older' s' →
      ∀ {j : Nat} {S : Structure}, older = ds.take j → ds[j]? = some s → ss[j]? = some S →
      S.fields.findIdx? (fun f => f.name == n) = some i ∧ ∃ n' r loc, S.fields[i]? = some (.struct n' r loc) ∧
        older' = ds.take older'.length ∧ ds[older'.length]? = some s' ∧ ss[older'.length]? = some r := by
    intro older older' s s' n t i f hf ht hdec j S ho hd hs
    subst ho
    have hm := h.2 j s S hd hs
    obtain ⟨-, -, hlen, hsh⟩ := structure_shape hm
    refine ⟨(has_iff hm).2 ⟨f, hf⟩, ?_⟩
    have hi : i < S.fields.length := by
      have := hf.1
      rw [List.getElem?_eq_some_iff] at this
      obtain ⟨hi, -⟩ := this
      omega
    rcases (hsh i f _ hf.1 (List.getElem?_eq_getElem hi)).2 with ⟨t', r', loc', a1, a2, a3⟩ | ⟨a1, -⟩ | ⟨a1, -⟩
    · rw [ht] at a1
      cases a1
      obtain ⟨c, hc, hl⟩ := lookup_declares (h.placed.take j) hdec
      rw [a2] at hl
      cases hl
      obtain ⟨b1, b2, -⟩ := declares_index hdec
      obtain ⟨hk, hc⟩ := take_some hc
      obtain ⟨-, b1⟩ := take_some b1
      rw [List.take_take, Nat.min_eq_left (by omega)] at b2
      exact ⟨_, r', loc', by rw [List.getElem?_eq_getElem hi, a3], b2, b1, hc⟩
    · exact absurd ht (a1 t)
    · exact absurd ht (a1.1 t)
  induction hw with
  | @plain older s n rest i f hf hp =>
    intro j S ho hd hs
    have hm := h.2 j s S hd hs
    obtain ⟨-, -, hlen, hsh⟩ := structure_shape hm
    have hi : i < S.fields.length := by
      have := hf.1
      rw [List.getElem?_eq_some_iff] at this
      obtain ⟨hi, -⟩ := this
      omega
    obtain ⟨g, hg⟩ := (shape_plain (hsh i f _ hf.1 (List.getElem?_eq_getElem hi)).2).1 hp
    refine ⟨S, [i], j, ?_, rfl, hd, hs⟩
    unfold Discriminant.walk
    rw [(has_iff hm).2 ⟨f, hf⟩]
    simp only [List.getElem?_eq_getElem hi, hg]
    rfl
  | @last older older' s s' n t i f hf ht hdec =>
    intro j S ho hd hs
    obtain ⟨h1, n', r, loc, h2, -, h3, h4⟩ := nested hf ht hdec ho hd hs
    refine ⟨r, [i], older'.length, ?_, rfl, h3, h4⟩
    unfold Discriminant.walk
    rw [h1]
    simp only [h2]
    rfl
  | @down older older' s s' leaf n m t rest i j' f hf ht hdec _ ih =>
    intro j S ho hd hs
    obtain ⟨h1, n', r, loc, h2, h5, h3, h4⟩ := nested hf ht hdec ho hd hs
    obtain ⟨L, is, k, a1, a2, a3, a4⟩ := ih h5 h3 h4
    refine ⟨L, i :: is, k, ?_, ?_, a3, a4⟩
    · unfold Discriminant.walk
      rw [h1]
      simp only [h2, a1, Res.bind_ok]
      rfl
    · rw [List.getLast?_cons, a2]
      rfl

theorem dotted_split {path : Name} {names : List Name} : splitDot path = names ↔ Model.Dotted path names := by
  have hsplit : ∀ path, splitDot path ≠ [] ∧ (∀ n ∈ splitDot path, '.' ∉ n) ∧
      path = List.intercalate ['.'] (splitDot path) := by
    intro path
    induction path with
    | nil => exact ⟨by simp [splitDot], by simp [splitDot], rfl⟩
    | cons c cs ih =>
      obtain ⟨h1, h2, h3⟩ := ih
      by_cases hc : c = '.'
      · subst hc
        simp only [splitDot, if_true]
        refine ⟨by simp, ?_, ?_⟩
        · intro n hn
          rcases List.mem_cons.1 hn with rfl | hn
          · simp
          · exact h2 n hn
        · cases hs : splitDot cs with
          | nil => exact absurd hs h1
          | cons p ps =>
            rw [hs] at h3
            rw [List.intercalate_cons_cons, ← h3]
            rfl
      · simp only [splitDot, if_neg hc]
        cases hs : splitDot cs with
        | nil => exact absurd hs h1
        | cons p ps =>
          rw [hs] at h2 h3
          refine ⟨by simp, ?_, ?_⟩
          · intro n hn
            rcases List.mem_cons.1 hn with rfl | hn
            · have := h2 p (by simp)
              simp only [List.mem_cons, not_or]
              exact ⟨fun h => hc h.symm, this⟩
            · exact h2 n (by simp [hn])
          · cases ps with
            | nil => simp only [List.intercalate_singleton] at h3 ⊢; rw [h3]
            | cons q qs =>
              rw [List.intercalate_cons_cons] at h3 ⊢
              rw [List.cons_append, List.cons_append, ← h3]
  constructor
  · rintro rfl
    obtain ⟨h1, h2, h3⟩ := hsplit path
    exact ⟨h3, h1, h2⟩
  · rintro ⟨rfl, h1, h2⟩
    induction names with
    | nil => exact absurd rfl h1
    | cons n ns ih =>
      have hn := h2 n (by simp)
      cases ns with
      | nil =>
        rw [List.intercalate_singleton]
        exact (Props.C47_split n hn []).1
      | cons m ms =>
        rw [List.intercalate_cons_cons, List.append_assoc]
        have := (Props.C47_split n hn (List.intercalate ['.'] (m :: ms))).2
        rw [List.singleton_append, this, ih (by simp) fun x hx => h2 x (by simp [hx])]

theorem case_iff {p : Profile} {es : List Model.Enum} {cs : List Enum} (he : EnumsOf es cs) {f : Model.SField}
    {bits : Nat} {w : View} {c : Name} (hb : f.info.bitSize? = some bits)
    (h : View.fromModel p (scope Enum.name cs []) f.info.simple bits f.view = .ok w) :
    (∃ n, UCase.caseValue w c = .ok n) ↔ Model.CaseText es f c := by
  have signed : ∀ {w : View}, w = .transmute ∨ (∃ m, w = .signedCast m) → ((∃ n, UCase.caseValue w c = .ok n) ↔
      (∃ n, n < 2 ^ 63 ∧ (Props.Numeral c n ∨ ∃ cs, c = '+' :: cs ∧ Props.Numeral cs n)) ∨
        ∃ n cs, n ≤ 2 ^ 63 ∧ c = '-' :: cs ∧ Props.Numeral cs n) := by
    intro w hw
    obtain ⟨m, hw⟩ : ∃ m, w = .transmute ∨ w = .signedCast m := by
      rcases hw with rfl | ⟨m, rfl⟩
      · exact ⟨0, .inl rfl⟩
      · exact ⟨m, .inr rfl⟩
    constructor
    · rintro ⟨n, h⟩
      rcases (Props.C59_signed m c n hw).1 h with ⟨k, h1, -, h2⟩ | ⟨k, cs, h1, h2, h3, -⟩
      · exact .inl ⟨k, h1, h2⟩
      · exact .inr ⟨k, cs, h1, h2, h3⟩
    · rintro (⟨k, h1, h2⟩ | ⟨k, cs, h1, h2, h3⟩)
      · exact ⟨_, (Props.C59_signed m c _ hw).2 (.inl ⟨k, h1, rfl, h2⟩)⟩
      · exact ⟨_, (Props.C59_signed m c _ hw).2 (.inr ⟨k, cs, h1, h2, h3, rfl⟩)⟩
  unfold Model.CaseText
  rcases hv : f.view with _ | v
  · rw [hv] at h
    cases hi : f.info with
    | struct t => rw [hi] at hb; cases hb
    | unsigned n =>
      rw [hi] at h
      simp only [View.fromModel, Model.FieldTy.simple, reduceCtorEq, false_and, if_false, if_true] at h
      cases h
      simp only
      exact exists_congr fun n => Props.C59_unsigned c n
    | signed n =>
      simp only
      apply signed
      rw [hi] at h
      simp only [View.fromModel, Model.FieldTy.simple, reduceCtorEq, false_and, if_false, true_and] at h
      split at h
      · obtain ⟨a, -, h⟩ := Res.bind_eq_ok.1 h
        obtain ⟨b, -, h⟩ := Res.bind_eq_ok.1 h
        obtain ⟨m, -, h⟩ := Res.bind_eq_ok.1 h
        cases h
        exact .inr ⟨_, rfl⟩
      · cases h
        exact .inl rfl
    | float n =>
      simp only
      apply signed
      rw [hi] at h
      simp only [View.fromModel, Model.FieldTy.simple, reduceCtorEq, false_and, if_false, true_and] at h
      split at h
      · cases h
      · cases h
        exact .inl rfl
    | boolean n =>
      simp only
      apply signed
      rw [hi] at h
      simp only [View.fromModel, Model.FieldTy.simple, reduceCtorEq, false_and, if_false] at h
      cases h
      exact .inl rfl
  · rw [hv] at h
    cases v with
    | enum n =>
      simp only [View.fromModel] at h
      split at h
      · cases h
      · obtain ⟨E, hE, h⟩ := Res.bind_eq_ok.1 h
        cases h
        have hE := Res.ofOption_eq_ok hE
        obtain ⟨older, x, hd, hc⟩ := lookup_some he.placed hE
        have hx := he.2 _ _ _ (declares_index hd).1 hc
        have hperm := (Props.C46_enum hx).2.1
        simp only
        rw [(Props.C59_enum c).1 E]
        constructor
        · rintro ⟨n', h⟩
          split at h
          · next k hk =>
            exact ⟨older, x, hd, (c, k), hperm.mem_iff.1 (mem_of_lookup hk), rfl⟩
          · cases h
        · rintro ⟨older', x', hd', v, hv, rfl⟩
          obtain ⟨-, rfl⟩ := declares_unique hd hd'
          cases hl : E.variants.lookup v.1 with
          | some k => exact ⟨k, rfl⟩
          | none =>
            have := List.lookup_eq_none_iff.1 hl v (hperm.mem_iff.2 hv)
            simp at this
    | floatRange a b =>
      simp only [View.fromModel] at h
      split at h
      · cases h
      · obtain ⟨a, -, h⟩ := Res.bind_eq_ok.1 h
        obtain ⟨b, -, h⟩ := Res.bind_eq_ok.1 h
        cases h
        simp [UCase.caseValue]
    | floatMultiplier m =>
      simp only [View.fromModel] at h
      split at h
      · cases h
      · cases h
        simp [UCase.caseValue]

theorem content_iff {proto : Protocol} (hm : proto.messagesByName = []) {ds : List Model.Structure}
    {ss : List Structure} (hp : Placed Model.Structure.name Structure.name ds ss)
    (hs : proto.structsByName = scope Structure.name ss []) {o : Option Name} :
    ((∃ r, UCase.content proto o = .ok r) ↔ ∀ t, o = some t → ∃ s ∈ ds, s.name = t) ∧
    ∀ r, UCase.content proto o = .ok (some r) → r.size = ⟨false, false⟩ := by
  cases o with
  | none => exact ⟨⟨fun _ t h => (by cases h), fun _ => ⟨_, rfl⟩⟩, fun r h => by cases h⟩
  | some t =>
    have hl : Referenced.lookup proto t = (proto.structsByName.lookup t).map .struct := by
      unfold Referenced.lookup
      rw [hm]
      cases proto.structsByName.lookup t <;> rfl
    have hi := lookup_isSome hp (n := t)
    simp only [UCase.content, hl, hs]
    cases hc : (scope Structure.name ss []).lookup t with
    | none =>
      rw [hc] at hi
      refine ⟨⟨fun ⟨r, h⟩ => (by cases h), fun h => ?_⟩, fun r h => by cases h⟩
      obtain ⟨c, hc⟩ := hi.2 (h t rfl)
      cases hc
    | some c =>
      rw [hc] at hi
      refine ⟨⟨fun _ t' ht => ?_, fun _ => ⟨_, rfl⟩⟩, fun r h => ?_⟩
      · cases ht
        exact hi.1 ⟨c, rfl⟩
      · cases h
        rfl

theorem cases_iff {p : Profile} {proto : Protocol} (hm : proto.messagesByName = []) {ds : List Model.Structure}
    {ss : List Structure} (hp : Placed Model.Structure.name Structure.name ds ss)
    (hs : proto.structsByName = scope Structure.name ss []) {es : List Model.Enum} {cs : List Enum}
    (he : EnumsOf es cs) {f : Model.SField} {bits : Nat} (hb : f.info.bitSize? = some bits) {d : Discriminant}
    {g : FixedField} (hg : d.getLeaf = .ok g)
    (hv : View.fromModel p (scope Enum.name cs []) f.info.simple bits f.view = .ok g.view)
    {vs : List Model.UCase} :
    (∃ ks, Union.casesFromModel proto d vs = .ok ks) ↔
      ∀ c ∈ vs, Model.CaseText es f c.case ∧ ∀ t, c.itemType = some t → ∃ s ∈ ds, s.name = t := by
  induction vs with
  | nil => exact ⟨fun _ => by simp, fun _ => ⟨_, rfl⟩⟩
  | cons v vs ih =>
    unfold Union.casesFromModel
    rw [hg, Res.bind_ok]
    have hone : (∃ k, UCase.fromModel proto g v = .ok k) ↔
        Model.CaseText es f v.case ∧ ∀ t, v.itemType = some t → ∃ s ∈ ds, s.name = t := by
      rw [← case_iff he hb hv, ← (content_iff hm hp hs).1]
      unfold UCase.fromModel
      constructor
      · rintro ⟨k, h⟩
        obtain ⟨a, h1, h⟩ := Res.bind_eq_ok.1 h
        obtain ⟨b, h2, h⟩ := Res.bind_eq_ok.1 h
        exact ⟨⟨a, h1⟩, b, h2⟩
      · rintro ⟨⟨a, h1⟩, b, h2⟩
        rw [h1, Res.bind_ok, h2]
        exact ⟨_, rfl⟩
    constructor
    · rintro ⟨ks, h⟩
      obtain ⟨k, h1, h⟩ := Res.bind_eq_ok.1 h
      obtain ⟨ks', h2, h⟩ := Res.bind_eq_ok.1 h
      intro c hc
      rcases List.mem_cons.1 hc with rfl | hc
      · exact hone.1 ⟨k, h1⟩
      · exact ih.1 ⟨ks', h2⟩ c hc
    · intro h
      obtain ⟨k, h1⟩ := hone.2 (h v (by simp))
      obtain ⟨ks, h2⟩ := ih.2 fun c hc => h c (by simp [hc])
      rw [h1, Res.bind_ok, h2]
      exact ⟨_, rfl⟩

theorem cases_size {proto : Protocol} (hm : proto.messagesByName = []) {ds : List Model.Structure}
    {ss : List Structure} (hp : Placed Model.Structure.name Structure.name ds ss)
    (hs : proto.structsByName = scope Structure.name ss []) {d : Discriminant} {flag : SizeInfo → Bool}
    (hf : flag ⟨false, false⟩ = false) {vs : List Model.UCase} : ∀ {ks : List UCase},
    Union.casesFromModel proto d vs = .ok ks → Union.anySize flag ks = false := by
  induction vs with
  | nil => intro ks h; cases h; rfl
  | cons v vs ih =>
    intro ks h
    unfold Union.casesFromModel at h
    obtain ⟨l, -, h⟩ := Res.bind_eq_ok.1 h
    obtain ⟨k, h1, h⟩ := Res.bind_eq_ok.1 h
    obtain ⟨ks', h2, h⟩ := Res.bind_eq_ok.1 h
    cases h
    unfold UCase.fromModel at h1
    obtain ⟨a, -, h1⟩ := Res.bind_eq_ok.1 h1
    obtain ⟨b, hb, h1⟩ := Res.bind_eq_ok.1 h1
    cases h1
    have := ih h2
    unfold Union.anySize at this ⊢
    rw [List.any_cons, this, Bool.or_false]
    cases b with
    | none => rfl
    | some r =>
      simp only [UCase.itemType]
      rw [(content_iff hm hp hs).2 r hb, hf]

/-- Where a compiled union comes from. -/
def UnionOf (ss : List Structure) (u : Model.Union) (U : Union) : Prop :=
  U.name = u.name ∧ U.size = ⟨false, false⟩ ∧ ∃ name parts, Model.Dotted u.discriminant (name :: parts) ∧
    (scope Structure.name ss []).lookup name = some U.discriminant.root

/-- The unions that are taken. -/
theorem union_iff {p : Profile} {proto : Protocol} (hm : proto.messagesByName = []) {es : List Model.Enum}
    {cs : List Enum} (he : EnumsOf es cs) {e : Endian} {next : Nat} {ds : List Model.Structure}
    {ss : List Structure} (hst : StructsOf p (scope Enum.name cs []) e next ds ss)
    (hs : proto.structsByName = scope Structure.name ss []) {u : Model.Union} :
    ((∃ U, Union.fromModel proto u = .ok U) ↔ u.Accepted es ds) ∧
    ∀ U, Union.fromModel proto u = .ok U → UnionOf ss u U := by
  have hp := hst.placed
  have leafs : ∀ {d : Discriminant} {k i : Nat} {l : Model.Structure}, ds[k]? = some l → ss[k]? = some d.leaf →
      d.leafIndex = i →
      (∀ g, d.getLeaf = .ok g → ∃ f bits, l.fields[i]? = some f ∧ f.Plain ∧ f.info.bitSize? = some bits ∧
        View.fromModel p (scope Enum.name cs []) f.info.simple bits f.view = .ok g.view) ∧
      ∀ f, l.fields[i]? = some f → f.Plain → ∃ g bits, d.getLeaf = .ok g ∧ f.info.bitSize? = some bits ∧
        View.fromModel p (scope Enum.name cs []) f.info.simple bits f.view = .ok g.view := by
    intro d k i l hd hl hi
    subst hi
    obtain ⟨-, -, hlen, hsh⟩ := structure_shape (hst.2 k l _ hd hl)
    unfold Discriminant.getLeaf
    constructor
    · intro g hg
      split at hg
      · next F hF =>
        cases hg
        have hlt : d.leafIndex < l.fields.length := by
          rw [List.getElem?_eq_some_iff] at hF
          obtain ⟨h1, -⟩ := hF
          omega
        have hf := List.getElem?_eq_getElem hlt
        rcases (hsh _ _ _ hf hF).2 with ⟨t, r, loc, -, -, h3⟩ | ⟨-, -, a, h3, -⟩ | ⟨h1, g', bits, h3, -, h4, h5, -⟩
        · cases h3
        · cases h3
        · cases h3
          exact ⟨_, bits, hf, h1, h4, h5⟩
      · cases hg
    · intro f hf hpl
      have hlt : d.leafIndex < d.leaf.fields.length := by
        rw [List.getElem?_eq_some_iff] at hf
        obtain ⟨h1, -⟩ := hf
        omega
      have hF := List.getElem?_eq_getElem hlt
      have hx := (hsh _ _ _ hf hF).2
      rcases hx with ⟨t, r, loc, h1, -, h3⟩ | ⟨-, h2, a, h3, -⟩ | ⟨h1, g', bits, h3, -, h4, h5, -⟩
      · exact absurd h1 (hpl.1 t)
      · have := hpl.2
        omega
      · rw [hF, h3]
        exact ⟨g', bits, rfl, h4, h5⟩
  have disc : ∀ d, Discriminant.fromModel proto u.discriminant = .ok d ↔
      ∃ name parts is, Model.Dotted u.discriminant (name :: parts) ∧
        (scope Structure.name ss []).lookup name = some d.root ∧
        Discriminant.walk name d.root parts = .ok (d.leaf, is) ∧ is.getLast? = some d.leafIndex ∧ d.indexList = is := by
    intro d
    unfold Discriminant.fromModel
    constructor
    · intro h
      split at h
      · cases h
      · next name parts hsp =>
        obtain ⟨root, hr, h⟩ := Res.bind_eq_ok.1 h
        obtain ⟨⟨leaf, is⟩, hw, h⟩ := Res.bind_eq_ok.1 h
        have hr := Res.ofOption_eq_ok hr
        rw [hs] at hr
        simp only at h
        split at h
        · next i hi =>
          cases h
          exact ⟨name, parts, is, dotted_split.1 hsp, hr, hw, hi, rfl⟩
        · cases h
    · rintro ⟨name, parts, is, h1, h2, h3, h4, h5⟩
      rw [dotted_split.2 h1]
      simp only
      rw [hs, h2]
      simp only [Res.ofOption, Res.bind_ok, h3]
      rw [h4]
      subst h5
      rfl
  have hof : ∀ U, Union.fromModel proto u = .ok U → UnionOf ss u U := by
    intro U h
    unfold Union.fromModel at h
    obtain ⟨d, h1, h⟩ := Res.bind_eq_ok.1 h
    obtain ⟨ks, h2, h⟩ := Res.bind_eq_ok.1 h
    cases h
    obtain ⟨name, parts, is, a1, a2, -⟩ := (disc d).1 h1
    refine ⟨rfl, ?_, name, parts, a1, a2⟩
    simp only [Union.size]
    rw [cases_size hm hp hs rfl h2, cases_size hm hp hs rfl h2]
  refine ⟨?_, hof⟩
  constructor
  · rintro ⟨U, h⟩
    unfold Union.fromModel at h
    obtain ⟨d, h1, h⟩ := Res.bind_eq_ok.1 h
    obtain ⟨ks, h2, h⟩ := Res.bind_eq_ok.1 h
    obtain ⟨name, parts, is, a1, a2, a3, a4, a5⟩ := (disc d).1 h1
    obtain ⟨older, root, hdec, hroot⟩ := lookup_some hp a2
    obtain ⟨b1, b2, -⟩ := declares_index hdec
    have hne : parts ≠ [] := by
      rintro rfl
      have h0 : is = [] := by
        injection a3 with h
        exact (congrArg Prod.snd h).symm
      rw [h0] at a4
      cases a4
    obtain ⟨k, l, i, c1, c2, c3, c4⟩ := walk_sound hst hne b1 hroot a3
    rw [← b2] at c4
    rw [a4] at c3
    cases c3
    refine ⟨name, parts, older, root, l, _, a1, hdec, c4, ?_⟩
    cases hcs : u.cases with
    | nil => exact .inl rfl
    | cons v vs =>
      right
      have hleaf : ∃ g, d.getLeaf = .ok g := by
        rw [hcs] at h2
        unfold Union.casesFromModel at h2
        obtain ⟨g, hg, -⟩ := Res.bind_eq_ok.1 h2
        exact ⟨g, hg⟩
      obtain ⟨g, hg⟩ := hleaf
      obtain ⟨f, bits, e1, e2, e3, e4⟩ := (leafs c1 c2 rfl).1 g hg
      refine ⟨f, e1, e2, ?_⟩
      rw [← hcs]
      exact (cases_iff hm hp hs he e3 hg e4).1 ⟨ks, h2⟩
  · rintro ⟨name, parts, older, root, l, i, a1, hdec, hw, hcs⟩
    obtain ⟨b1, b2, -⟩ := declares_index hdec
    obtain ⟨R, hR, hl⟩ := lookup_declares hp hdec
    obtain ⟨L, is, k, c1, c2, c3, c4⟩ := walk_complete hst (nm := name) hw b2 b1 hR
    have hd : Discriminant.fromModel proto u.discriminant = .ok ⟨R, L, i, is⟩ :=
      (disc _).2 ⟨name, parts, is, a1, hl, c1, c2, rfl⟩
    have hks : ∃ ks, Union.casesFromModel proto ⟨R, L, i, is⟩ u.cases = .ok ks := by
      rcases hcs with h0 | ⟨f, h1, h2, h3⟩
      · rw [h0]
        exact ⟨_, rfl⟩
      · obtain ⟨g, bits, e1, e2, e3⟩ := (leafs (d := ⟨R, L, i, is⟩) c3 c4 rfl).2 f h1 h2
        exact (cases_iff hm hp hs he e2 e1 e3).2 h3
    obtain ⟨ks, hks⟩ := hks
    unfold Union.fromModel
    rw [hd, Res.bind_ok, hks]
    exact ⟨_, rfl⟩

theorem unions_iff {p : Profile} {es : List Model.Enum}
    {cs : List Enum} (he : EnumsOf es cs) {e : Endian} {next : Nat} {ds : List Model.Structure}
    {ss : List Structure} (hst : StructsOf p (scope Enum.name cs []) e next ds ss) {vs : List Model.Union} :
    ∀ {proto : Protocol}, proto.messagesByName = [] → proto.structsByName = scope Structure.name ss [] →
    ((∃ r, Protocol.addUnions proto vs = .ok r) ↔ ∀ u ∈ vs, u.Accepted es ds) := by
  induction vs with
  | nil => intro proto _ _; exact ⟨fun _ => by simp, fun _ => ⟨_, rfl⟩⟩
  | cons v vs ih =>
    intro proto hm hs
    unfold Protocol.addUnions
    have h1 := (union_iff hm he hst hs (u := v)).1
    constructor
    · rintro ⟨r, h⟩
      obtain ⟨U, hU, h⟩ := Res.bind_eq_ok.1 h
      intro x hx
      rcases List.mem_cons.1 hx with rfl | hx
      · exact h1.1 ⟨U, hU⟩
      · exact (ih (proto := { proto with unionsByName := (U.name, U) :: proto.unionsByName
                                         unions := proto.unions ++ [U] }) hm hs).1 ⟨r, h⟩ x hx
    · intro h
      obtain ⟨U, hU⟩ := h1.2 (h v (by simp))
      rw [hU, Res.bind_ok]
      exact (ih (proto := { proto with unionsByName := (U.name, U) :: proto.unionsByName
                                       unions := proto.unions ++ [U] }) hm hs).2 fun x hx => h x (by simp [hx])

/-! ## Messages -/

theorem transmute_iff {p : Profile} {enums : List (Name × Enum)} {f : Model.SField} {bits : Nat} {w : View}
    (hb : f.info.bitSize? = some bits) (h : View.fromModel p enums f.info.simple bits f.view = .ok w) :
    w.isTransmute = true ↔ f.view = none ∧ ∀ n, f.info = .signed n → n = 8 ∨ n = 16 ∨ n = 32 ∨ n = 64 := by
  rcases hv : f.view with _ | v
  · rw [hv] at h
    cases hi : f.info with
    | struct t => rw [hi] at hb; cases hb
    | unsigned n =>
      rw [hi] at h
      simp only [View.fromModel, Model.FieldTy.simple, reduceCtorEq, false_and, if_false, if_true] at h
      cases h
      simp [View.isTransmute]
    | signed n =>
      rw [hi] at h hb
      obtain rfl : n = bits := by simpa [Model.FieldTy.bitSize?] using hb
      simp only [View.fromModel, Model.FieldTy.simple, reduceCtorEq, false_and, if_false, true_and] at h
      split at h
      · next hn =>
        obtain ⟨a, -, h⟩ := Res.bind_eq_ok.1 h
        obtain ⟨b, -, h⟩ := Res.bind_eq_ok.1 h
        obtain ⟨m, -, h⟩ := Res.bind_eq_ok.1 h
        cases h
        refine ⟨fun h => (by cases h), fun h => ?_⟩
        have := h.2 n rfl
        omega
      · next hn =>
        cases h
        refine ⟨fun _ => ⟨rfl, fun m hm => ?_⟩, fun _ => rfl⟩
        cases hm
        omega
    | float n =>
      rw [hi] at h
      simp only [View.fromModel, Model.FieldTy.simple, reduceCtorEq, false_and, if_false, true_and] at h
      split at h
      · cases h
      · cases h
        simp [View.isTransmute]
    | boolean n =>
      rw [hi] at h
      simp only [View.fromModel, Model.FieldTy.simple, reduceCtorEq, false_and, if_false] at h
      cases h
      simp [View.isTransmute]
  · rw [hv] at h
    refine ⟨fun ht => ?_, fun h => by cases h.1⟩
    cases v with
    | enum n =>
      simp only [View.fromModel] at h
      split at h
      · cases h
      · obtain ⟨E, hE, h⟩ := Res.bind_eq_ok.1 h
        cases h
        cases ht
    | floatRange a b =>
      simp only [View.fromModel] at h
      split at h
      · cases h
      · obtain ⟨a, -, h⟩ := Res.bind_eq_ok.1 h
        obtain ⟨b, -, h⟩ := Res.bind_eq_ok.1 h
        cases h
        cases ht
    | floatMultiplier m =>
      simp only [View.fromModel] at h
      split at h
      · cases h
      · cases h
        cases ht

theorem scalar_iff {p : Profile} {structs : List (Name × Structure)} {enums : List (Name × Enum)} {e : Endian}
    {id : Nat} {v : Model.Structure} {S : Structure} (h : Structure.fromModel p structs enums e id v = .ok S) :
    S.asScalar = none ↔ ¬ v.Scalar := by
  obtain ⟨-, -, hl, hf⟩ := structure_shape h
  unfold Structure.asScalar Model.Structure.Scalar
  generalize S.fields = Fs at hl hf
  generalize v.fields = fs at hl hf
  match fs, Fs, hl with
  | [], [], _ => simp
  | [f], [F], _ =>
    rcases (hf 0 f F rfl rfl).2 with ⟨t, r, loc, h1, -, rfl⟩ | ⟨-, h2, a, rfl, -⟩ | ⟨h1, g, bits, rfl, -, h4, h5, h6⟩
    · simp only [true_iff]
      rintro ⟨f', hf', hp, -⟩
      cases hf'
      exact hp.1 t h1
    · simp only [true_iff]
      rintro ⟨f', hf', hp, -⟩
      cases hf'
      have := hp.2
      omega
    · have ht := transmute_iff h4 h5
      simp only
      split
      · next hc =>
        obtain ⟨a1, a2⟩ := ht.1 hc.1
        refine ⟨fun h => (by cases h), fun h => absurd ⟨f, rfl, h1, a1, ?_, a2⟩ h⟩
        rw [← h6]
        exact hc.2
      · next hc =>
        simp only [true_iff]
        rintro ⟨f', hf', -, b1, b2, b3⟩
        cases hf'
        exact hc ⟨ht.2 ⟨b1, b3⟩, by rw [h6]; exact b2⟩
  | f :: f' :: fs, F :: F' :: Fs, _ => simp

/-- What a compiled field has of the declared one. -/
def FieldSrc (ss : List Structure) (ds : List Model.Structure) (olds : List Model.Message) (v : Model.MField)
    (f : MField) : Prop :=
  f.name = v.name ∧ (f.size.isDynSized = true ↔ Model.Varies ds olds v.info) ∧
  (f.size.isElementDynSized = true ↔ Model.Reaches ds olds v.info) ∧
  ∀ s, f.ty = .ref (.struct s) ↔ ∃ n, v.info = .item n ∧ (scope Structure.name ss []).lookup n = some s ∧
    s.asScalar = none

/-- What the compiled messages have of the declared ones. -/
def MessagesOf (ds : List Model.Structure) (olds : List Model.Message) (ms : List Message) : Prop :=
  Placed Model.Message.name Message.name olds ms ∧ ∀ (j : Nat) d m, olds[j]? = some d → ms[j]? = some m →
    (m.size.isDynSized = true ↔ ∃ g ∈ d.fields, Model.Varies ds (olds.take j) g.info) ∧
    (m.size.isElementDynSized = true ↔ ∃ g ∈ d.fields, Model.Reaches ds (olds.take j) g.info)

/-- What compiled unions have of the declared ones. -/
def UnionsOf (ss : List Structure) (us : List Model.Union) (Us : List Union) : Prop :=
  Us.length = us.length ∧ ∀ (j : Nat) u U, us[j]? = some u → Us[j]? = some U → UnionOf ss u U

theorem UnionsOf.placed {ss : List Structure} {us : List Model.Union} {Us : List Union} (h : UnionsOf ss us Us) :
    Placed Model.Union.name Union.name us Us :=
  ⟨h.1, fun j d c hd hc => (h.2 j d c hd hc).1⟩

theorem reaches_varies {ds : List Model.Structure} {olds : List Model.Message} {t : Model.MFieldTy}
    (h : Model.Reaches ds olds t) : Model.Varies ds olds t := by
  induction h with
  | list _ => exact .list
  | payload => exact .payload
  | item h1 h2 h3 _ ih => exact .item h1 h2 h3 ih

theorem varies_item {ds : List Model.Structure} {olds older : List Model.Message} {t : Name} {m : Model.Message}
    (ht : ∀ s ∈ ds, s.name ≠ t) (hd : Declares Model.Message.name olds t older m) :
    (Model.Varies ds olds (.item t) ↔ ∃ g ∈ m.fields, Model.Varies ds older g.info) ∧
    (Model.Reaches ds olds (.item t) ↔ ∃ g ∈ m.fields, Model.Reaches ds older g.info) := by
  constructor
  · constructor
    · intro h
      cases h with
      | item h1 h2 h3 h4 =>
        obtain ⟨rfl, rfl⟩ := declares_unique h2 hd
        exact ⟨_, h3, h4⟩
    · rintro ⟨g, h1, h2⟩
      exact .item ht hd h1 h2
  · constructor
    · intro h
      cases h with
      | item h1 h2 h3 h4 =>
        obtain ⟨rfl, rfl⟩ := declares_unique h2 hd
        exact ⟨_, h3, h4⟩
    · rintro ⟨g, h1, h2⟩
      exact .item ht hd h1 h2

theorem varies_struct {ds : List Model.Structure} {olds : List Model.Message} {t : Name}
    (ht : ∃ s ∈ ds, s.name = t) : ¬ Model.Varies ds olds (.item t) ∧ ¬ Model.Reaches ds olds (.item t) ∧
      ∀ n, ¬ Model.Reaches ds olds (.list n t) := by
  obtain ⟨s, hs, hn⟩ := ht
  refine ⟨fun h => ?_, fun h => ?_, fun n h => ?_⟩
  · cases h with
    | item h1 => exact h1 s hs hn
  · cases h with
    | item h1 => exact h1 s hs hn
  · cases h with
    | list h1 => exact h1 s hs hn

/-- The surroundings of a message. -/
structure Around (proto : Protocol) (next : Nat) (ds : List Model.Structure) (ss : List Structure)
    (us : List Model.Union) (Us : List Union) (olds : List Model.Message) (ms : List Message) : Prop where
  structs : proto.structsByName = scope Structure.name ss []
  unions : proto.unionsByName = scope Union.name Us []
  messages : proto.messagesByName = scope Message.name ms []
  placed : Placed Model.Structure.name Structure.name ds ss
  ids : ∀ (j : Nat) S, ss[j]? = some S → S.id = next + j
  scalar : ∀ (j : Nat) d S, ds[j]? = some d → ss[j]? = some S → (S.asScalar = none ↔ ¬ d.Scalar)
  unionsOf : UnionsOf ss us Us
  messagesOf : MessagesOf ds olds ms

theorem fieldSrc {proto : Protocol} {next : Nat} {ds : List Model.Structure} {ss : List Structure}
    {us : List Model.Union} {Us : List Union} {olds : List Model.Message} {ms : List Message}
    (ha : Around proto next ds ss us Us olds ms) {before : List MField} {v : Model.MField} {f : MField}
    (h : FieldOf proto before v f) : FieldSrc ss ds olds v f := by
  obtain ⟨h1, -, h⟩ := h
  refine ⟨h1, ?_⟩
  rw [ha.structs, ha.messages, ha.unions] at h
  cases hi : v.info with
  | item t =>
    simp only [hi] at h
    rcases h with ⟨-, ⟨s, ty, a1, a2, a3, a4⟩ | ⟨s, a1, a2, a3, a4⟩ | ⟨a0, m, a1, a3, a4⟩⟩
    · obtain ⟨b1, b2, -⟩ := varies_struct (olds := olds) ((lookup_isSome ha.placed).1 ⟨s, a1⟩)
      rw [a4, a3]
      refine ⟨by simp [b1], by simp [b2], fun s' => ⟨fun h => (by cases h), ?_⟩⟩
      rintro ⟨n, hn, c1, c2⟩
      cases hn
      rw [a1] at c1
      cases c1
      rw [a2] at c2
      cases c2
    · obtain ⟨b1, b2, -⟩ := varies_struct (olds := olds) ((lookup_isSome ha.placed).1 ⟨s, a1⟩)
      rw [a4, a3]
      refine ⟨by simp [b1], by simp [b2], fun s' => ⟨fun h => ?_, ?_⟩⟩
      · cases h
        exact ⟨t, rfl, a1, a2⟩
      · rintro ⟨n, hn, c1, c2⟩
        cases hn
        rw [a1] at c1
        cases c1
        rfl
    · have ht := (lookup_none ha.placed).1 a0
      obtain ⟨older, d, hd, hm⟩ := lookup_some ha.messagesOf.1 a1
      obtain ⟨e1, e2, -⟩ := declares_index hd
      obtain ⟨c1, c2⟩ := ha.messagesOf.2 _ _ _ e1 hm
      obtain ⟨d1, d2⟩ := varies_item ht hd
      rw [← e2] at c1 c2
      rw [a4, a3, d1, d2]
      refine ⟨c1, c2, fun s' => ⟨fun h => (by cases h), ?_⟩⟩
      rintro ⟨n, hn, c1, c2⟩
      cases hn
      rw [a0] at c1
      cases c1
  | list n t =>
    simp only [hi] at h
    have hno : ∀ {s : Structure} {P : Name → Prop}, ¬ ∃ m, Model.MFieldTy.list n t = .item m ∧ P m := by
      rintro s P ⟨m, hm, -⟩
      cases hm
    rcases h with ⟨-, ty, -, ⟨s, a1, a3, a4⟩ | ⟨a0, m, a1, a3, a4⟩⟩
    · obtain ⟨-, -, b2⟩ := varies_struct (olds := olds) ((lookup_isSome ha.placed).1 ⟨s, a1⟩)
      rw [a4, a3]
      exact ⟨⟨fun _ => .list, fun _ => rfl⟩, by simp [b2], fun s' => ⟨fun h => (by cases h), fun ⟨m, hm, _⟩ => (by cases hm)⟩⟩
    · have ht := (lookup_none ha.placed).1 a0
      rw [a4, a3]
      exact ⟨⟨fun _ => .list, fun _ => rfl⟩, ⟨fun _ => .list ht, fun _ => rfl⟩,
        fun s' => ⟨fun h => (by cases h), fun ⟨m, hm, _⟩ => (by cases hm)⟩⟩
  | string n =>
    have hr : ¬ Model.Reaches ds olds (.string n) := fun h => by cases h
    have key : f.size = ⟨true, false⟩ ∧ ∀ s, f.ty ≠ .ref (.struct s) := by
      cases n with
      | none =>
        simp only [hi] at h
        obtain ⟨-, a3, a4⟩ := h
        exact ⟨a4, fun s => by rw [a3]; simp⟩
      | some n =>
        simp only [hi] at h
        obtain ⟨-, ty, -, a3, a4⟩ := h
        exact ⟨a4, fun s => by rw [a3]; simp⟩
    rw [key.1]
    exact ⟨⟨fun _ => .string, fun _ => rfl⟩, by simp [hr], fun s' => ⟨fun h => absurd h (key.2 s'), fun ⟨m, hm, _⟩ => (by cases hm)⟩⟩
  | payload =>
    simp only [hi] at h
    obtain ⟨-, a3, a4⟩ := h
    rw [a3, a4]
    exact ⟨⟨fun _ => .payload, fun _ => rfl⟩, ⟨fun _ => .payload, fun _ => rfl⟩,
      fun s' => ⟨fun h => (by cases h), fun ⟨m, hm, _⟩ => (by cases hm)⟩⟩
  | union on t =>
    simp only [hi] at h
    obtain ⟨-, U, i, g, s, a1, -, -, -, -, a3, a4⟩ := h
    obtain ⟨older, u, hd, hU⟩ := lookup_some ha.unionsOf.placed a1
    have hz := (ha.unionsOf.2 _ _ _ (declares_index hd).1 hU).2.1
    have hv : ¬ Model.Varies ds olds (.union on t) := fun h => by cases h
    have hr : ¬ Model.Reaches ds olds (.union on t) := fun h => by cases h
    rw [a4, a3, hz]
    exact ⟨by simp [hv], by simp [hr], fun s' => ⟨fun h => (by cases h), fun ⟨m, hm, _⟩ => (by cases hm)⟩⟩

/-- The compiled fields in the place of the declared ones. -/
def Matches (ss : List Structure) (ds : List Model.Structure) (olds : List Model.Message)
    (vs : List Model.MField) (fs : List MField) : Prop :=
  fs.length = vs.length ∧ ∀ (j : Nat) v f, vs[j]? = some v → fs[j]? = some f → FieldSrc ss ds olds v f

theorem maxValue_ok (n : Nat) : ∃ ty, FixedTy.fromMaxValue n = .ok ty := by
  unfold FixedTy.fromMaxValue
  simp only
  split
  · exact ⟨_, rfl⟩
  · split
    · exact ⟨_, rfl⟩
    · split <;> exact ⟨_, rfl⟩

theorem known_iff {proto : Protocol} {next : Nat} {ds : List Model.Structure} {ss : List Structure}
    {us : List Model.Union} {Us : List Union} {olds : List Model.Message} {ms : List Message}
    (ha : Around proto next ds ss us Us olds ms) {t : Name} :
    (∃ r, Referenced.lookup proto t = some r) ↔ Model.Known ds olds t := by
  unfold Model.Known
  rw [← lookup_isSome ha.placed, ← lookup_isSome ha.messagesOf.1]
  constructor
  · rintro ⟨r, hr⟩
    rcases Referenced.lookup_eq_some.1 hr with ⟨s, h1, -⟩ | ⟨-, m, h1, -⟩
    · rw [ha.structs] at h1; exact .inl ⟨s, h1⟩
    · rw [ha.messages] at h1; exact .inr ⟨m, h1⟩
  · intro h
    cases hs : proto.structsByName.lookup t with
    | some s => exact ⟨_, Referenced.lookup_eq_some.2 (.inl ⟨s, hs, rfl⟩)⟩
    | none =>
      rcases h with ⟨s, h⟩ | ⟨m, h⟩
      · rw [← ha.structs, hs] at h; cases h
      · rw [← ha.messages] at h
        exact ⟨_, Referenced.lookup_eq_some.2 (.inr ⟨hs, m, h, rfl⟩)⟩

/-- The fields of messages that are taken. -/
theorem mfield_iff {proto : Protocol} {next : Nat} {ds : List Model.Structure} {ss : List Structure}
    {us : List Model.Union} {Us : List Union} {olds : List Model.Message} {ms : List Message}
    (ha : Around proto next ds ss us Us olds ms) {before : List MField} {bs : List Model.MField}
    (hb : Matches ss ds olds bs before) {emb : List Nat} {v : Model.MField} :
    (∃ r, MField.fromModel proto emb before v = .ok r) ↔ v.Accepted ds us olds bs := by
  unfold Model.MField.Accepted MField.fromModel
  cases hi : v.info with
  | item t =>
    simp only
    rw [← known_iff ha]
    constructor
    · rintro ⟨r, h⟩
      obtain ⟨x, hx, -⟩ := Res.bind_eq_ok.1 h
      exact ⟨x, Res.ofOption_eq_ok hx⟩
    · rintro ⟨r, h⟩
      rw [h]
      simp only [Res.ofOption, Res.bind_ok]
      cases r with
      | struct s => simp only; split <;> exact ⟨_, rfl⟩
      | message m => exact ⟨_, rfl⟩
  | list n t =>
    simp only
    rw [← known_iff ha]
    constructor
    · rintro ⟨r, h⟩
      obtain ⟨x, hx, -⟩ := Res.bind_eq_ok.1 h
      exact ⟨x, Res.ofOption_eq_ok hx⟩
    · rintro ⟨r, h⟩
      obtain ⟨ty, hty⟩ := maxValue_ok n
      rw [h]
      simp only [Res.ofOption, Res.bind_ok, hty]
      cases r with
      | struct s => exact ⟨_, rfl⟩
      | message m => exact ⟨_, rfl⟩
  | string n =>
    cases n with
    | none => exact ⟨fun _ => trivial, fun _ => ⟨_, rfl⟩⟩
    | some n =>
      refine ⟨fun _ => trivial, fun _ => ?_⟩
      obtain ⟨ty, hty⟩ := maxValue_ok n
      simp only [hty, Res.bind_ok]
      exact ⟨_, rfl⟩
  | payload => exact ⟨fun _ => trivial, fun _ => ⟨_, rfl⟩⟩
  | union on t =>
    simp only
    have hidx : ∀ i, before.findIdx? (fun f => f.name == on) = some i ↔ ∃ g, bs[i]? = some g ∧ g.name = on ∧
        ∀ (j : Nat) (h : Model.MField), j < i → bs[j]? = some h → h.name ≠ on := by
      intro i
      rw [List.findIdx?_eq_some_iff_getElem]
      constructor
      · rintro ⟨hl, h1, h2⟩
        have hv : i < bs.length := by rw [← hb.1]; exact hl
        refine ⟨bs[i], List.getElem?_eq_getElem hv, ?_, fun j g hj hg hn => ?_⟩
        · rw [← (hb.2 i _ _ (List.getElem?_eq_getElem hv) (List.getElem?_eq_getElem hl)).1]
          simpa using h1
        · have hj' : j < before.length := by omega
          have := (hb.2 j g _ hg (List.getElem?_eq_getElem hj')).1
          have h2 := h2 j hj
          rw [this, hn] at h2
          simp at h2
      · rintro ⟨f, h1, h2, h3⟩
        have hv : i < bs.length := by rw [List.getElem?_eq_some_iff] at h1; exact h1.1
        have hl := hb.1
        refine ⟨by omega, ?_, fun j hj => ?_⟩
        · rw [(hb.2 i _ _ h1 (List.getElem?_eq_getElem (by omega))).1, h2]
          simp
        · have hj' : j < bs.length := by omega
          have := h3 j _ hj (List.getElem?_eq_getElem hj')
          rw [(hb.2 j _ _ (List.getElem?_eq_getElem hj') (List.getElem?_eq_getElem (by omega))).1]
          simpa using this
    constructor
    · rintro ⟨r, h⟩
      obtain ⟨i, h1, h⟩ := Res.bind_eq_ok.1 h
      obtain ⟨F, h2, h⟩ := Res.bind_eq_ok.1 h
      obtain ⟨U, h3, h⟩ := Res.bind_eq_ok.1 h
      obtain ⟨g, a1, a2, a3⟩ := (hidx i).1 (Res.ofOption_eq_ok h1)
      have h2 := Res.ofOption_eq_ok h2
      have h3 := Res.ofOption_eq_ok h3
      rw [ha.unions] at h3
      obtain ⟨ou, u, hd, hU⟩ := lookup_some ha.unionsOf.placed h3
      obtain ⟨-, -, name, parts, b1, b2⟩ := ha.unionsOf.2 _ _ _ (declares_index hd).1 hU
      split at h
      · next s hs =>
        split at h
        · next hid =>
          obtain ⟨n, c1, c2, c3⟩ := ((hb.2 i g F a1 h2).2.2.2 s).1 hs
          obtain ⟨os, S, d1, d2⟩ := lookup_some ha.placed c2
          obtain ⟨os', S', e1, e2⟩ := lookup_some ha.placed b2
          have hlen : os.length = os'.length := by
            have x1 := ha.ids _ _ d2
            have x2 := ha.ids _ _ e2
            omega
          obtain ⟨f1, -, f3, -⟩ := declares_index d1
          obtain ⟨g1, -, g3, -⟩ := declares_index e1
          rw [hlen, g1] at f1
          cases f1
          rw [f3] at g3
          subst g3
          exact ⟨i, g, n, os, S, ou, u, parts, a1, a2, a3, c1, d1,
            (ha.scalar _ _ _ (by rw [hlen]; exact g1) d2).1 c3, hd, b1⟩
        · cases h
      · cases h
    · rintro ⟨i, g, n, os, s, ou, u, parts, a1, a2, a3, c1, d1, d2, hd, b1⟩
      have hi' := (hidx i).2 ⟨g, a1, a2, a3⟩
      have hlt : i < before.length := by
        have := hb.1
        rw [List.getElem?_eq_some_iff] at a1
        obtain ⟨h, -⟩ := a1
        omega
      obtain ⟨U, hU, hl⟩ := lookup_declares ha.unionsOf.placed hd
      obtain ⟨-, -, name, parts', e1, e2⟩ := ha.unionsOf.2 _ _ _ (declares_index hd).1 hU
      have hsame : name :: parts' = n :: parts := by
        rw [← dotted_split.2 e1, dotted_split.2 b1]
      cases hsame
      obtain ⟨S, hS, hSl⟩ := lookup_declares ha.placed d1
      rw [hSl] at e2
      cases e2
      have hty := ((hb.2 i g _ a1 (List.getElem?_eq_getElem hlt)).2.2.2 U.discriminant.root).2
        ⟨n, c1, hSl, (ha.scalar _ _ _ (declares_index d1).1 hS).2 d2⟩
      rw [hi']
      simp only [Res.ofOption, Res.bind_ok, List.getElem?_eq_getElem hlt, ha.unions, hl]
      rw [hty]
      simp only [if_true]
      exact ⟨_, rfl⟩

theorem Matches.snoc {ss : List Structure} {ds : List Model.Structure} {olds : List Model.Message}
    {vs : List Model.MField} {fs : List MField} (h : Matches ss ds olds vs fs) {v : Model.MField} {f : MField}
    (hf : FieldSrc ss ds olds v f) : Matches ss ds olds (vs ++ [v]) (fs ++ [f]) := by
  refine ⟨by simp [h.1], fun j x y hx hy => ?_⟩
  rw [List.getElem?_append] at hx hy
  rw [h.1] at hy
  split at hx
  · next hl => rw [if_pos hl] at hy; exact h.2 j x y hx hy
  · next hl =>
    rw [if_neg hl] at hy
    rw [List.getElem?_singleton] at hx hy
    split at hx
    · next h0 =>
      rw [if_pos h0] at hy
      cases hx
      cases hy
      exact hf
    · cases hx

/-- The lists of fields that are taken, before the order of them is looked at. -/
theorem fields_iff {proto : Protocol} {next : Nat} {ds : List Model.Structure} {ss : List Structure}
    {us : List Model.Union} {Us : List Union} {olds : List Model.Message} {ms : List Message}
    (ha : Around proto next ds ss us Us olds ms) {vs : List Model.MField} :
    ∀ {before : List MField} {bs : List Model.MField} {emb : List Nat}, Matches ss ds olds bs before →
    ((∃ fs emb', Fields proto emb before vs fs emb') ↔
      ∀ pre f post, vs = pre ++ f :: post → f.Accepted ds us olds (bs ++ pre)) := by
  induction vs with
  | nil =>
    intro before bs emb _
    exact ⟨fun _ pre f post h => by simp at h, fun _ => ⟨[], emb, .nil⟩⟩
  | cons v vs ih =>
    intro before bs emb hb
    rw [forall_split_cons (P := fun pre (f : Model.MField) => f.Accepted ds us olds (bs ++ pre)), List.append_nil,
      ← mfield_iff ha hb (emb := emb)]
    constructor
    · rintro ⟨fs, emb', h⟩
      cases h with
      | cons h1 h2 =>
        refine ⟨⟨_, h1⟩, fun pre f post he => ?_⟩
        simpa using (ih (hb.snoc (fieldSrc ha (MField.fromModel_spec h1).1))).1 ⟨_, _, h2⟩ pre f post he
    · rintro ⟨⟨⟨f, emb1⟩, h1⟩, h2⟩
      obtain ⟨fs, emb', h3⟩ := (ih (emb := emb1) (hb.snoc (fieldSrc ha (MField.fromModel_spec h1).1))).2
        fun pre f post he => by simpa using h2 pre f post he
      exact ⟨_, _, .cons h1 h3⟩

theorem fields_matches {proto : Protocol} {next : Nat} {ds : List Model.Structure} {ss : List Structure}
    {us : List Model.Union} {Us : List Union} {olds : List Model.Message} {ms : List Message}
    (ha : Around proto next ds ss us Us olds ms) {vs : List Model.MField} {fs before : List MField}
    {emb emb' : List Nat} (h : Fields proto emb before vs fs emb') : Matches ss ds olds vs fs := by
  induction h with
  | nil => exact ⟨rfl, fun j v f h => by simp at h⟩
  | cons h1 _ ih =>
    refine ⟨by simp [ih.1], fun j v f hv hf => ?_⟩
    cases j with
    | zero => cases hv; cases hf; exact fieldSrc ha (MField.fromModel_spec h1).1
    | succ j => exact ih.2 j v f hv hf

theorem legal_index {fs : List MField} : Legal fs ↔ ∀ (i j : Nat) (F G : MField), i < j → fs[i]? = some F →
    fs[j]? = some G → F.size.isElementDynSized = true →
    G.size.isDynSized = false ∧ G.size.isElementDynSized = false := by
  constructor
  · intro h i j F G hij hF hG
    obtain ⟨hi, rfl⟩ := List.getElem?_eq_some_iff.1 hF
    refine fun he => h (fs.take i) fs[i] (fs.drop (i + 1)) (by simp) he G ?_
    have : (fs.drop (i + 1))[j - (i + 1)]? = some G := by
      rw [List.getElem?_drop, ← hG]
      congr 1
      omega
    exact List.mem_of_getElem? this
  · intro h pre f post he hf g hg
    obtain ⟨k, hk⟩ := List.getElem?_of_mem hg
    refine h pre.length (pre.length + 1 + k) f g (by omega) ?_ ?_ hf
    · rw [he]; simp
    · rw [he, List.getElem?_append_right (by omega), ← hk,
        show pre.length + 1 + k - pre.length = k + 1 by omega, List.getElem?_cons_succ]

theorem split_index {α : Type} {A B : α → Prop} {vs : List α} :
    (∀ pre f post, vs = pre ++ f :: post → (∃ g ∈ pre, A g) → B f) ↔
      ∀ (i j : Nat) (x y : α), i < j → vs[i]? = some x → vs[j]? = some y → A x → B y := by
  constructor
  · intro h i j x y hij hx hy ha
    obtain ⟨hj, rfl⟩ := List.getElem?_eq_some_iff.1 hy
    refine h (vs.take j) vs[j] (vs.drop (j + 1)) (by simp) ⟨x, ?_, ha⟩
    have : (vs.take j)[i]? = some x := by rw [List.getElem?_take_of_lt hij, hx]
    exact List.mem_of_getElem? this
  · rintro h pre f post he ⟨g, hg, ha⟩
    obtain ⟨k, hk⟩ := List.getElem?_of_mem hg
    have hlt := (List.getElem?_eq_some_iff.1 hk).1
    refine h k pre.length g f hlt ?_ ?_ ha
    · rw [he, List.getElem?_append_left hlt, hk]
    · rw [he]; simp

theorem Matches.at {ss : List Structure} {ds : List Model.Structure} {olds : List Model.Message}
    {vs : List Model.MField} {fs : List MField} (h : Matches ss ds olds vs fs) :
    (∀ (j : Nat) f, fs[j]? = some f → ∃ v, vs[j]? = some v ∧ FieldSrc ss ds olds v f) ∧
    ∀ (j : Nat) v, vs[j]? = some v → ∃ f, fs[j]? = some f ∧ FieldSrc ss ds olds v f := by
  have hl := h.1
  constructor
  · intro j f hf
    have hj := (List.getElem?_eq_some_iff.1 hf).1
    have hv := List.getElem?_eq_getElem (l := vs) (i := j) (by omega)
    exact ⟨_, hv, h.2 _ _ _ hv hf⟩
  · intro j v hv
    have hj := (List.getElem?_eq_some_iff.1 hv).1
    have hf := List.getElem?_eq_getElem (l := fs) (i := j) (by omega)
    exact ⟨_, hf, h.2 _ _ _ hv hf⟩

theorem legal_iff {ss : List Structure} {ds : List Model.Structure} {olds : List Model.Message}
    {vs : List Model.MField} {fs : List MField} (h : Matches ss ds olds vs fs) :
    Legal fs ↔ ∀ pre f post, vs = pre ++ f :: post → (∃ g ∈ pre, Model.Reaches ds olds g.info) →
      ¬ Model.Varies ds olds f.info := by
  rw [split_index (A := fun g : Model.MField => Model.Reaches ds olds g.info)
    (B := fun f : Model.MField => ¬ Model.Varies ds olds f.info), legal_index]
  obtain ⟨h1, h2⟩ := h.at
  constructor
  · intro hL i j x y hij hx hy hr hv
    obtain ⟨F, hF, -, -, f3, -⟩ := h2 i x hx
    obtain ⟨G, hG, -, g2, -, -⟩ := h2 j y hy
    have := (hL i j F G hij hF hG (f3.2 hr)).1
    rw [g2.2 hv] at this
    cases this
  · intro hL i j F G hij hF hG he
    obtain ⟨x, hx, -, -, f3, -⟩ := h1 i F hF
    obtain ⟨y, hy, -, g2, g3, -⟩ := h1 j G hG
    have hn := hL i j x y hij hx hy (f3.1 he)
    exact ⟨Bool.eq_false_iff.2 fun hc => hn (g2.1 hc),
      Bool.eq_false_iff.2 fun hc => hn (reaches_varies (g3.1 hc))⟩

theorem any_iff {ss : List Structure} {ds : List Model.Structure} {olds : List Model.Message}
    {vs : List Model.MField} {fs : List MField} (h : Matches ss ds olds vs fs) :
    (fs.any (fun f => f.size.isDynSized) = true ↔ ∃ g ∈ vs, Model.Varies ds olds g.info) ∧
    (fs.any (fun f => f.size.isElementDynSized) = true ↔ ∃ g ∈ vs, Model.Reaches ds olds g.info) := by
  obtain ⟨h1, h2⟩ := h.at
  simp only [List.any_eq_true]
  constructor
  · constructor
    · rintro ⟨f, hf, hd⟩
      obtain ⟨k, hk⟩ := List.getElem?_of_mem hf
      obtain ⟨v, hv, -, e, -⟩ := h1 k f hk
      exact ⟨v, List.mem_of_getElem? hv, e.1 hd⟩
    · rintro ⟨f, hf, hd⟩
      obtain ⟨k, hk⟩ := List.getElem?_of_mem hf
      obtain ⟨v, hv, -, e, -⟩ := h2 k f hk
      exact ⟨v, List.mem_of_getElem? hv, e.2 hd⟩
  · constructor
    · rintro ⟨f, hf, hd⟩
      obtain ⟨k, hk⟩ := List.getElem?_of_mem hf
      obtain ⟨v, hv, -, -, e, -⟩ := h1 k f hk
      exact ⟨v, List.mem_of_getElem? hv, e.1 hd⟩
    · rintro ⟨f, hf, hd⟩
      obtain ⟨k, hk⟩ := List.getElem?_of_mem hf
      obtain ⟨v, hv, -, -, e, -⟩ := h2 k f hk
      exact ⟨v, List.mem_of_getElem? hv, e.2 hd⟩

/-- The messages that are taken. -/
theorem message_iff {proto : Protocol} {next : Nat} {ds : List Model.Structure} {ss : List Structure}
    {us : List Model.Union} {Us : List Union} {olds : List Model.Message} {ms : List Message}
    (ha : Around proto next ds ss us Us olds ms) {emb : List Nat} {id : Nat} {v : Model.Message} :
    (∃ r, Message.fromModel proto emb id v = .ok r) ↔ v.Accepted ds us olds := by
  have h0 : Matches ss ds olds [] [] := ⟨rfl, fun j v f h => by simp at h⟩
  have hf := fields_iff ha (vs := v.fields) (emb := emb) h0
  simp only [List.nil_append] at hf
  unfold Model.Message.Accepted
  constructor
  · rintro ⟨⟨m, emb'⟩, h⟩
    obtain ⟨fs, h1, h2, -⟩ := Props.C42_accepts.1 h
    intro pre f post he
    exact ⟨hf.1 ⟨_, _, h1⟩ pre f post he, (legal_iff (fields_matches ha h1)).1 h2 pre f post he⟩
  · intro h
    obtain ⟨fs, emb', h1⟩ := hf.2 fun pre f post he => (h pre f post he).1
    exact ⟨(_, emb'), Props.C42_accepts.2 ⟨fs, h1, (legal_iff (fields_matches ha h1)).2
      fun pre f post he => (h pre f post he).2, rfl⟩⟩

theorem Around.snoc {proto : Protocol} {next : Nat} {ds : List Model.Structure} {ss : List Structure}
    {us : List Model.Union} {Us : List Union} {olds : List Model.Message} {ms : List Message}
    (ha : Around proto next ds ss us Us olds ms) {emb emb' : List Nat} {id : Nat} {v : Model.Message}
    {m : Message} (h : Message.fromModel proto emb id v = .ok (m, emb')) :
    Around { proto with messagesByName := (m.name, m) :: proto.messagesByName
                        messages := proto.messages ++ [m] } next ds ss us Us (olds ++ [v]) (ms ++ [m]) := by
  obtain ⟨fs, h1, -, hm⟩ := Props.C42_accepts.1 h
  obtain ⟨e1, e2⟩ := any_iff (fields_matches ha h1)
  refine ⟨ha.structs, ha.unions, ?_, ha.placed, ha.ids, ha.scalar, ha.unionsOf, ?_, ?_⟩
  · simp only [ha.messages]
    exact scope_snoc _ _ _
  · exact ha.messagesOf.1.snoc (by rw [hm]; rfl)
  · intro j x y hx hy
    have hl := ha.messagesOf.1.1
    rw [List.getElem?_append] at hx hy
    rw [hl] at hy
    split at hx
    · next hj =>
      rw [if_pos hj] at hy
      rw [List.take_append_of_le_length (by omega)]
      exact ha.messagesOf.2 j x y hx hy
    · next hj =>
      rw [if_neg hj] at hy
      rw [List.getElem?_singleton] at hx hy
      split at hx
      · next h0 =>
        rw [if_pos h0] at hy
        cases hx
        cases hy
        obtain rfl : j = olds.length := by omega
        rw [List.take_left' rfl, hm]
        exact ⟨e1, e2⟩
      · cases hx

theorem messages_iff {next : Nat} {ds : List Model.Structure} {ss : List Structure}
    {us : List Model.Union} {Us : List Union} {vs : List Model.Message} :
    ∀ {proto : Protocol} {w : World} {olds : List Model.Message} {ms : List Message},
    Around proto next ds ss us Us olds ms →
    ((∃ r, Protocol.addMessages w proto vs = .ok r) ↔
      ∀ older m newer, vs = older ++ m :: newer → m.Accepted ds us (olds ++ older)) := by
  induction vs with
  | nil =>
    intro proto w olds ms _
    exact ⟨fun _ pre f post h => by simp at h, fun _ => ⟨_, rfl⟩⟩
  | cons v vs ih =>
    intro proto w olds ms ha
    rw [forall_split_cons (P := fun pre (f : Model.Message) => f.Accepted ds us (olds ++ pre)), List.append_nil,
      ← message_iff ha (emb := w.embedded) (id := w.next)]
    unfold Protocol.addMessages
    constructor
    · rintro ⟨r, h⟩
      obtain ⟨⟨m, emb⟩, h1, h⟩ := Res.bind_eq_ok.1 h
      exact ⟨⟨_, h1⟩, fun pre f post he => by simpa using (ih (ha.snoc h1)).1 ⟨r, h⟩ pre f post he⟩
    · rintro ⟨⟨⟨m, emb⟩, h1⟩, h2⟩
      rw [h1, Res.bind_ok]
      exact (ih (ha.snoc h1)).2 fun pre f post he => by simpa using h2 pre f post he

theorem enums_out {d : Model.Protocol} {p2 : Protocol}
    (h : Protocol.addEnums (Protocol.empty d) d.enums = .ok p2) :
    ∃ cs, EnumsOf d.enums cs ∧ p2.structsByName = [] ∧ p2.enumsByName = scope Enum.name cs [] ∧
      p2.messagesByName = [] ∧ p2.unionsByName = [] := by
  obtain ⟨cs, c1, rfl, c3⟩ := (Props.C44_enums _ _ _).1 h
  refine ⟨cs, ⟨c1, fun j x c hx hc => ?_⟩, rfl, rfl, rfl, rfl⟩
  obtain ⟨q1, rfl⟩ := List.getElem?_eq_some_iff.1 hx
  obtain ⟨q2, rfl⟩ := List.getElem?_eq_some_iff.1 hc
  exact c3 j q2 q1

theorem structs_out {p : Profile} {vs : List Model.Structure} {p2 p3 : Protocol} {n next : Nat} {cs : List Enum}
    (a1 : p2.structsByName = []) (a2 : p2.enumsByName = scope Enum.name cs []) (a3 : p2.messagesByName = [])
    (a4 : p2.unionsByName = []) (h : Protocol.addStructs p n p2 vs = .ok (p3, next)) :
    ∃ ss, StructsOf p (scope Enum.name cs []) p2.endianness n vs ss ∧
      p3.structsByName = scope Structure.name ss [] ∧ p3.messagesByName = [] ∧ p3.unionsByName = [] := by
  obtain ⟨ss, c1, -, rfl, c3⟩ := (Props.C44_structs _ _ _ _ _ _).1 h
  refine ⟨ss, ⟨c1, fun j x c hx hc => ?_⟩, by rw [← a1], a3, a4⟩
  obtain ⟨q1, rfl⟩ := List.getElem?_eq_some_iff.1 hx
  obtain ⟨q2, rfl⟩ := List.getElem?_eq_some_iff.1 hc
  have := c3 j q2 q1
  rwa [a1, a2] at this

theorem plain_leaf {p : Profile} {enums : List (Name × Enum)} {e : Endian} {next : Nat}
    {ds : List Model.Structure} {ss : List Structure} (hst : StructsOf p enums e next ds ss) {k i : Nat}
    {l : Model.Structure} {L : Structure} (hd : ds[k]? = some l) (hl : ss[k]? = some L) :
    (∃ g, L.fields[i]? = some (.fixed g)) ↔ ∃ f, l.fields[i]? = some f ∧ f.Plain := by
  obtain ⟨-, -, hlen, hsh⟩ := structure_shape (hst.2 k l _ hd hl)
  constructor
  · rintro ⟨g, hF⟩
    have hlt : i < l.fields.length := by
      have := (List.getElem?_eq_some_iff.1 hF).1
      omega
    have hf := List.getElem?_eq_getElem hlt
    rcases (hsh _ _ _ hf hF).2 with ⟨t, r, loc, -, -, h3⟩ | ⟨-, -, a, h3, -⟩ | ⟨h1, -⟩
    · cases h3
    · cases h3
    · exact ⟨_, hf, h1⟩
  · rintro ⟨f, hf, hpl⟩
    have hlt : i < L.fields.length := by
      have := (List.getElem?_eq_some_iff.1 hf).1
      omega
    have hF := List.getElem?_eq_getElem hlt
    rcases (hsh _ _ _ hf hF).2 with ⟨t, r, loc, h1, -, h3⟩ | ⟨-, h2, a, h3, -⟩ | ⟨h1, g', bits, h3, -⟩
    · exact absurd h1 (hpl.1 t)
    · have := hpl.2
      omega
    · exact ⟨g', by rw [hF, h3]⟩

/-- The unions that take the compiler down. -/
theorem union_crash {p : Profile} {proto : Protocol} {enums : List (Name × Enum)} {e : Endian} {next : Nat}
    {ds : List Model.Structure} {ss : List Structure} (hst : StructsOf p enums e next ds ss)
    (hs : proto.structsByName = scope Structure.name ss []) {u : Model.Union} :
    Union.fromModel proto u = .panic ↔ u.Crashes ds := by
  have hp := hst.placed
  rw [Props.C48_union_panics]
  unfold Model.Union.Crashes
  constructor
  · rintro ⟨name, parts, R, h1, h2, h3⟩
    rw [hs] at h2
    obtain ⟨older, root, hdec, hroot⟩ := lookup_some hp h2
    obtain ⟨b1, b2, -⟩ := declares_index hdec
    refine ⟨name, parts, older, root, dotted_split.1 h1, hdec, ?_⟩
    by_cases h0 : parts = []
    · exact .inl h0
    · obtain ⟨hc, L, is, i, q1, q2, q3⟩ := h3.resolve_left h0
      obtain ⟨k, l, i', c1, c2, c3, c4⟩ := walk_sound hst h0 b1 hroot (Props.walk_stops (name := name) q1)
      rw [q2] at c3
      cases c3
      rw [← b2] at c4
      refine .inr ⟨hc, l, i, c4, fun f hf hpl => ?_⟩
      obtain ⟨g, hg⟩ := (plain_leaf hst c1 c2).2 ⟨f, hf, hpl⟩
      exact q3 g hg
  · rintro ⟨name, parts, older, root, h1, hdec, h3⟩
    obtain ⟨b1, b2, -⟩ := declares_index hdec
    obtain ⟨R, hR, hl⟩ := lookup_declares hp hdec
    refine ⟨name, parts, R, dotted_split.2 h1, by rw [hs]; exact hl, ?_⟩
    rcases h3 with h0 | ⟨hc, l, i, hw, hn⟩
    · exact .inl h0
    · obtain ⟨L, is, k, c1, c2, c3, c4⟩ := walk_complete hst (nm := name) hw b2 b1 hR
      have hno : ∀ g, L.fields[i]? ≠ some (.fixed g) := by
        intro g hg
        obtain ⟨f, hf, hpl⟩ := (plain_leaf hst c3 c4).1 ⟨g, hg⟩
        exact hn f hf hpl
      refine .inr ⟨hc, L, is, i, ?_, c2, hno⟩
      rcases Props.walk_ok c1 with ⟨f, hf⟩ | h
      · obtain ⟨j, hj, hg⟩ := Props.leads_ne_nil hf
        rw [c2] at hj
        cases hj
        exact absurd hg (hno f)
      · exact h

/-- What is taken once the structures are. -/
theorem phases_iff {p : Profile} {sv : Resolver} {w : World} {d : Model.Protocol} (hi : d.imports = [])
    {S : Prop}
    (hS : ∀ (proto : Protocol) (cs : List Enum), Placed Model.Enum.name Enum.name d.enums cs →
      proto.structsByName = [] → proto.enumsByName = scope Enum.name cs [] →
      ((∃ r, Protocol.addStructs p w.next proto d.structs = .ok r) ↔ S)) :
    (∃ r, Protocol.fromModel p sv w d = .ok r) ↔
      (∀ e ∈ d.enums, e.variants ≠ []) ∧ S ∧ (∀ u ∈ d.unions, u.Accepted d.enums d.structs) ∧
      ∀ older m newer, d.messages = older ++ m :: newer → m.Accepted d.structs d.unions older := by
  have huni : ∀ p3 p4 cs ss en, EnumsOf d.enums cs →
      StructsOf p (scope Enum.name cs []) en w.next d.structs ss → p3.structsByName = scope Structure.name ss [] →
      p3.messagesByName = [] → p3.unionsByName = [] → Protocol.addUnions p3 d.unions = .ok p4 →
      ∃ Us, Around p4 w.next d.structs ss d.unions Us [] [] := by
    intro p3 p4 cs ss en hc hst b1 b2 b3 h4
    obtain ⟨Us, c1, rfl, c3⟩ := (Props.C44_unions _ _ _).1 h4
    refine ⟨Us, ⟨b1, by rw [← b3], b2, hst.placed, fun j S hj => ?_, fun j x S hx hj => ?_, ⟨c1, ?_⟩,
      ⟨rfl, fun j x y h => by simp at h⟩, fun j x y h => by simp at h⟩⟩
    · have hjl := (List.getElem?_eq_some_iff.1 hj).1
      have := hst.1
      exact (structure_shape (hst.2 j _ S (List.getElem?_eq_getElem (by omega)) hj)).2.1
    · exact scalar_iff (hst.2 j x S hx hj)
    · intro j x c hx hcj
      obtain ⟨q1, rfl⟩ := List.getElem?_eq_some_iff.1 hx
      obtain ⟨q2, rfl⟩ := List.getElem?_eq_some_iff.1 hcj
      exact (union_iff b2 hc hst b1).2 _ (c3 j q2 q1)
  constructor
  · rintro ⟨⟨proto, w'⟩, h⟩
    obtain ⟨p1, p2, p3, p4, next, h1, h2, h3, h4, h5⟩ := (Props.C44_phases _ _ _ _ _ _).1 h
    rw [hi] at h1
    cases h1
    obtain ⟨cs, hc, a1, a2, a3, a4⟩ := enums_out h2
    obtain ⟨ss, hst, b1, b2, b3⟩ := structs_out a1 a2 a3 a4 h3
    obtain ⟨Us, ha⟩ := huni p3 p4 cs ss _ hc hst b1 b2 b3 h4
    refine ⟨enums_iff.1 ⟨_, h2⟩, (hS p2 cs hc.placed a1 a2).1 ⟨_, h3⟩, (unions_iff hc hst b2 b1).1 ⟨_, h4⟩, ?_⟩
    exact (messages_iff ha).1 ⟨_, h5⟩
  · rintro ⟨he, hs, hu, hm⟩
    obtain ⟨p2, h2⟩ := enums_iff.2 he
    obtain ⟨cs, hc, a1, a2, a3, a4⟩ := enums_out h2
    obtain ⟨⟨p3, next⟩, h3⟩ := (hS p2 cs hc.placed a1 a2).2 hs
    obtain ⟨ss, hst, b1, b2, b3⟩ := structs_out a1 a2 a3 a4 h3
    obtain ⟨p4, h4⟩ := (unions_iff hc hst b2 b1).2 hu
    obtain ⟨Us, ha⟩ := huni p3 p4 cs ss _ hc hst b1 b2 b3 h4
    obtain ⟨⟨proto, w'⟩, h5⟩ := (messages_iff (w := ⟨next, w.embedded⟩) ha).2 hm
    exact ⟨(proto, w'), (Props.C44_phases _ _ _ _ _ _).2
      ⟨Protocol.empty d, p2, p3, p4, next, by rw [hi]; rfl, h2, h3, h4, h5⟩⟩

end Proto

namespace Proto.Props

/-- C123: a release build of the compiler takes a description without imports exactly if it is in
order. -/
theorem C123_release {sv : Resolver} {w : World} {d : Model.Protocol} (hi : d.imports = []) :
    (∃ r, Protocol.fromModel .wrapping sv w d = .ok r) ↔ d.Accepted := by
  refine phases_iff hi fun proto cs hc hs he => ?_
  exact structs_release hc (ds := []) (ss := []) ⟨rfl, fun j x y h => by simp at h⟩ hs he

/-- C123: a debug build of the compiler takes a description without imports exactly if it is in order,
no structure has `2^64` bits or more, and no parameter of a view is computed by a shift that is too
far. -/
theorem C123_debug {sv : Resolver} {w : World} {d : Model.Protocol} (hi : d.imports = []) :
    (∃ r, Protocol.fromModel .checked sv w d = .ok r) ↔
      d.Accepted ∧ (∀ s ∈ d.structs, ∀ f ∈ s.fields, NoShift f) ∧ DeclFits [] d.structs := by
  refine (phases_iff hi (S := (∀ older s newer, d.structs = older ++ s :: newer →
    ∀ f ∈ s.fields, f.Accepted d.enums older) ∧ (∀ s ∈ d.structs, ∀ f ∈ s.fields, NoShift f) ∧
      DeclFits [] d.structs) fun proto cs hc hs he => ?_).trans ?_
  · have := structs_debug hc (vs := d.structs) (ds := []) (ss := []) (next := w.next) (proto := proto)
      ⟨rfl, fun j x y h => by simp at h⟩ hs he
    rw [this, hs]
    rfl
  · unfold Model.Protocol.Accepted
    constructor
    · rintro ⟨h1, ⟨h2, h3⟩, h4, h5⟩
      exact ⟨⟨h1, h2, h4, h5⟩, h3⟩
    · rintro ⟨⟨h1, h2, h4, h5⟩, h3⟩
      exact ⟨h1, ⟨h2, h3⟩, h4, h5⟩

/-- C123: a release build of the compiler crashes on a description without imports exactly if the enums
and structures are in order, and some unions, up to one that takes it down.  Everything else that is not in
order is reported. -/
theorem C123_crash {sv : Resolver} {w : World} {d : Model.Protocol} (hi : d.imports = []) :
    Protocol.fromModel .wrapping sv w d = .panic ↔
      (∀ e ∈ d.enums, e.variants ≠ []) ∧
      (∀ older s newer, d.structs = older ++ s :: newer → ∀ f ∈ s.fields, f.Accepted d.enums older) ∧
      ∃ older u newer, d.unions = older ++ u :: newer ∧ (∀ v ∈ older, v.Accepted d.enums d.structs) ∧
        u.Crashes d.structs := by
  rw [C48_protocol_panics, hi]
  constructor
  · rintro ⟨p1, p2, h1, h2, h⟩
    cases h1
    obtain ⟨cs, hc, a1, a2, a3, a4⟩ := enums_out h2
    rcases h with ⟨pre, x, post, p3, n3, -, -, h⟩ | ⟨p3, n3, h3, pre, u, post, p4, e, h4, h5⟩
    · refine absurd ?_ (C48_structs_release [x] n3 p3)
      unfold Protocol.addStructs
      rw [h]
      rfl
    · obtain ⟨ss, hst, b1, b2, b3⟩ := structs_out a1 a2 a3 a4 h3
      refine ⟨enums_iff.1 ⟨_, h2⟩, ?_, pre, u, post, e, (unions_iff hc hst b2 b1).1 ⟨_, h4⟩, ?_⟩
      · exact (structs_release hc.placed (ds := []) (ss := []) ⟨rfl, fun j x y h => by simp at h⟩ a1 a2).1 ⟨_, h3⟩
      · obtain ⟨Us, -, rfl, -⟩ := (C44_unions _ _ _).1 h4
        exact (union_crash hst (by exact b1)).1 h5
  · rintro ⟨he, hs, older, u, newer, e, hu, hcr⟩
    obtain ⟨p2, h2⟩ := enums_iff.2 he
    obtain ⟨cs, hc, a1, a2, a3, a4⟩ := enums_out h2
    obtain ⟨⟨p3, next⟩, h3⟩ := (structs_release hc.placed (ds := []) (ss := []) (next := w.next) (proto := p2)
      ⟨rfl, fun j x y h => by simp at h⟩ a1 a2).2 hs
    obtain ⟨ss, hst, b1, b2, b3⟩ := structs_out a1 a2 a3 a4 h3
    obtain ⟨p4, h4⟩ := (unions_iff hc hst b2 b1).2 hu
    refine ⟨Protocol.empty d, p2, rfl, h2, .inr ⟨p3, next, h3, older, u, newer, p4, e, h4, ?_⟩⟩
    obtain ⟨Us, -, rfl, -⟩ := (C44_unions _ _ _).1 h4
    exact (union_crash hst (by exact b1)).2 hcr

/-- C123: descriptions without imports are taken together exactly if each is in order: none depends on
the others, on the order they are loaded in, or on what was compiled before. -/
theorem C123_loader {l : Loader} {solver : SimpleImportSolver} {w : World}
    (hi : ∀ x ∈ l.importedModels, x.2.imports = []) (hm : ∀ d ∈ l.models, d.imports = []) :
    (∃ r, l.compile .wrapping solver w = .ok r) ↔
      (∀ x ∈ l.importedModels, x.2.Accepted) ∧ ∀ d ∈ l.models, d.Accepted := by
  obtain ⟨models, imported⟩ := l
  simp only at hi hm ⊢
  have key : ∀ (sv : Resolver) (ds : List Model.Protocol) (w : World), (∀ d ∈ ds, d.imports = []) →
      ((∃ r, Loader.compileModels .wrapping sv w ds = .ok r) ↔ ∀ d ∈ ds, d.Accepted) := by
    intro sv ds
    induction ds with
    | nil => intro w _; exact ⟨fun _ => by simp, fun _ => ⟨_, rfl⟩⟩
    | cons d ds ih =>
      intro w hd
      have h0 := C123_release (sv := sv) (w := w) (hd d (by simp))
      unfold Loader.compileModels
      simp only [List.mem_cons, forall_eq_or_imp]
      rw [← h0]
      constructor
      · rintro ⟨r, h⟩
        obtain ⟨⟨proto, w1⟩, h1, h⟩ := Res.bind_eq_ok.1 h
        obtain ⟨⟨protos, w2⟩, h2, h⟩ := Res.bind_eq_ok.1 h
        exact ⟨⟨_, h1⟩, (ih w1 fun x hx => hd x (by simp [hx])).1 ⟨_, h2⟩⟩
      · rintro ⟨⟨⟨proto, w1⟩, h1⟩, h2⟩
        obtain ⟨⟨protos, w2⟩, h2⟩ := (ih w1 fun x hx => hd x (by simp [hx])).2 h2
        simp only [h1, h2, Res.bind_ok]
        exact ⟨_, rfl⟩
  induction imported generalizing solver w with
  | nil =>
    unfold Loader.compile
    simp only [Loader.compileImports, Res.pure_eq, Res.bind_ok]
    rw [key _ _ _ hm]
    simp
  | cons x xs ih =>
    obtain ⟨path, d⟩ := x
    have h0 := C123_release (sv := solver.resolver) (w := w) (hi (path, d) (by simp))
    simp only at h0
    unfold Loader.compile Loader.compileImports
    simp only [List.mem_cons, forall_eq_or_imp]
    rw [← h0]
    unfold Loader.compile at ih
    have ih := fun (s : SimpleImportSolver) (w : World) =>
      ih (solver := s) (w := w) fun x hx => hi x (by simp [hx])
    constructor
    · rintro ⟨r, h⟩
      obtain ⟨⟨s1, w1⟩, h1, h⟩ := Res.bind_eq_ok.1 h
      obtain ⟨⟨proto, w2⟩, h2, h1⟩ := Res.bind_eq_ok.1 h1
      obtain ⟨a1, a2⟩ := (ih _ w2).1 ⟨r, by rw [h1, Res.bind_ok]; exact h⟩
      exact ⟨⟨⟨_, h2⟩, a1⟩, a2⟩
    · rintro ⟨⟨⟨⟨proto, w1⟩, h1⟩, h2⟩, h3⟩
      obtain ⟨r, hr⟩ := (ih (solver.register path proto) w1).2 ⟨h2, h3⟩
      obtain ⟨⟨s1, w2⟩, h4, h5⟩ := Res.bind_eq_ok.1 hr
      simp only [h1, Res.bind_ok, h4]
      exact ⟨r, h5⟩

namespace Ex

/-- An enum, a structure within a structure, a union decided by the inner one, and a message within a
message. -/
def acceptDecl : Model.Protocol where
  name := "p".toList
  enums := [⟨"Kind".toList, [("A".toList, 0), ("B".toList, 1)]⟩]
  structs := [⟨"Inner".toList, [⟨"kind".toList, .unsigned 8, some (.enum "Kind".toList), none⟩,
      ⟨"rest".toList, .signed 12, none, some 2⟩]⟩,
    ⟨"Outer".toList, [⟨"flag".toList, .boolean 1, none, none⟩, ⟨"inner".toList, .struct "Inner".toList, none, none⟩]⟩]
  unions := [⟨"U".toList, "Outer.inner.kind".toList, [⟨"a".toList, "A".toList, some "Inner".toList⟩,
    ⟨"b".toList, "B".toList, none⟩]⟩]
  messages := [⟨"M".toList, [⟨"head".toList, .item "Outer".toList, none⟩, ⟨"s".toList, .string (some 10), none⟩,
      ⟨"u".toList, .union "head".toList "U".toList, none⟩]⟩,
    ⟨"N".toList, [⟨"m".toList, .item "M".toList, none⟩, ⟨"ms".toList, .list 5 "M".toList, none⟩,
      ⟨"o".toList, .item "Outer".toList, none⟩]⟩]

theorem accept_inOrder : acceptDecl.Accepted := by
  have kind : Model.Declares Model.Enum.name acceptDecl.enums "Kind".toList [] acceptDecl.enums[0] :=
    ⟨[], rfl, rfl, by simp⟩
  have inner : Model.Declares Model.Structure.name [acceptDecl.structs[0]] "Inner".toList [] acceptDecl.structs[0] :=
    ⟨[], rfl, rfl, by simp⟩
  have outer : Model.Declares Model.Structure.name acceptDecl.structs "Outer".toList [acceptDecl.structs[0]]
      acceptDecl.structs[1] := ⟨[], rfl, rfl, by simp⟩
  have union : Model.Declares Model.Union.name acceptDecl.unions "U".toList [] acceptDecl.unions[0] :=
    ⟨[], rfl, rfl, by simp⟩
  have dotted : Model.Dotted "Outer.inner.kind".toList ["Outer".toList, "inner".toList, "kind".toList] := by
    refine ⟨rfl, by simp, ?_⟩
    intro n hn
    simp only [List.mem_cons, List.not_mem_nil, or_false] at hn
    rcases hn with rfl | rfl | rfl <;> decide
  refine ⟨?_, ?_, ?_, ?_⟩
  · intro e he
    cases List.mem_singleton.1 he
    simp
  · unfold acceptDecl
    simp only
    rw [forall_split_cons (P := fun older (s : Model.Structure) => ∀ f ∈ s.fields, Model.SField.Accepted _ older f),
      forall_split_cons (P := fun older (s : Model.Structure) => ∀ f ∈ s.fields, Model.SField.Accepted _ (_ :: older) f)]
    simp [Model.SField.Accepted, Model.SField.bits]
  · intro u hu
    cases List.mem_singleton.1 hu
    refine ⟨"Outer".toList, ["inner".toList, "kind".toList], _, _, acceptDecl.structs[0], 0, dotted, outer, ?_,
      .inr ⟨_, rfl, ⟨by simp, by simp⟩, ?_⟩⟩
    · refine .down (i := 1) (f := acceptDecl.structs[1].fields[1]) ⟨rfl, rfl, ?_⟩ rfl inner
        (.plain ⟨rfl, rfl, fun j g h => absurd h (Nat.not_lt_zero j)⟩ ⟨?_, by simp [acceptDecl]⟩)
      · intro j g hj hg
        obtain rfl : j = 0 := by omega
        cases hg
        decide
      · intro t ht
        cases ht
    · intro c hc
      simp only [List.mem_cons, List.not_mem_nil, or_false] at hc
      rcases hc with rfl | rfl
      · exact ⟨⟨_, _, kind, ("A".toList, 0), List.mem_cons_self .., rfl⟩,
          fun t ht => ⟨acceptDecl.structs[0], List.mem_cons_self .., by cases ht; rfl⟩⟩
      · exact ⟨⟨_, _, kind, ("B".toList, 1), List.mem_cons_of_mem _ (List.mem_cons_self ..), rfl⟩,
          fun t ht => by cases ht⟩
  · have notOuter : ∀ {older}, ¬ Model.Varies acceptDecl.structs older (.item "Outer".toList) := by
      intro older h
      cases h with
      | item h => exact h acceptDecl.structs[1] (List.mem_cons_of_mem _ (List.mem_cons_self ..)) rfl
    have knownOuter : ∀ {older}, Model.Known acceptDecl.structs older "Outer".toList :=
      .inl ⟨acceptDecl.structs[1], List.mem_cons_of_mem _ (List.mem_cons_self ..), rfl⟩
    rw [show acceptDecl.messages = [acceptDecl.messages[0], acceptDecl.messages[1]] from rfl,
      forall_split_cons (P := fun older (m : Model.Message) => m.Accepted _ _ older),
      forall_split_cons (P := fun older (m : Model.Message) => m.Accepted _ _ (_ :: older))]
    refine ⟨?_, ?_, by simp⟩
    · unfold Model.Message.Accepted
      rw [show acceptDecl.messages[0].fields = [acceptDecl.messages[0].fields[0], acceptDecl.messages[0].fields[1],
          acceptDecl.messages[0].fields[2]] from rfl,
        forall_split_cons (P := fun before (f : Model.MField) => f.Accepted _ _ [] before ∧
          ((∃ g ∈ before, _) → ¬ Model.Varies _ [] f.info)),
        forall_split_cons (P := fun before (f : Model.MField) => f.Accepted _ _ [] (_ :: before) ∧
          ((∃ g ∈ _ :: before, _) → ¬ Model.Varies _ [] f.info)),
        forall_split_cons (P := fun before (f : Model.MField) => f.Accepted _ _ [] (_ :: _ :: before) ∧
          ((∃ g ∈ _ :: _ :: before, _) → ¬ Model.Varies _ [] f.info))]
      refine ⟨⟨knownOuter, by simp⟩, ⟨trivial, ?_⟩, ⟨?_, fun _ h => by cases h⟩, by simp⟩
      · rintro ⟨g, hg, h⟩
        cases List.mem_singleton.1 hg
        exact absurd (reaches_varies h) notOuter
      · refine ⟨0, _, "Outer".toList, _, _, _, _, _, rfl, rfl, fun j h hj => absurd hj (Nat.not_lt_zero j), rfl,
          outer, ?_, union, dotted⟩
        rintro ⟨f, hf, -⟩
        cases hf
    · have knownM : Model.Known acceptDecl.structs [acceptDecl.messages[0]] "M".toList :=
        .inr ⟨_, List.mem_cons_self .., rfl⟩
      unfold Model.Message.Accepted
      rw [show acceptDecl.messages[1].fields = [acceptDecl.messages[1].fields[0], acceptDecl.messages[1].fields[1],
          acceptDecl.messages[1].fields[2]] from rfl,
        forall_split_cons (P := fun before (f : Model.MField) => f.Accepted _ _ [_] before ∧
          ((∃ g ∈ before, _) → ¬ Model.Varies _ [_] f.info)),
        forall_split_cons (P := fun before (f : Model.MField) => f.Accepted _ _ [_] (_ :: before) ∧
          ((∃ g ∈ _ :: before, _) → ¬ Model.Varies _ [_] f.info)),
        forall_split_cons (P := fun before (f : Model.MField) => f.Accepted _ _ [_] (_ :: _ :: before) ∧
          ((∃ g ∈ _ :: _ :: before, _) → ¬ Model.Varies _ [_] f.info))]
      refine ⟨⟨knownM, by simp⟩, ⟨knownM, ?_⟩, ⟨knownOuter, fun _ => notOuter⟩, by simp⟩
      rintro ⟨g, hg, h⟩
      cases List.mem_singleton.1 hg
      exfalso
      rcases h with _ | _ | ⟨h1, h2, h3, h4⟩
      obtain ⟨-, rfl⟩ := declares_unique h2 (⟨[], rfl, rfl, by simp⟩ :
        Model.Declares Model.Message.name [acceptDecl.messages[0]] "M".toList [] acceptDecl.messages[0])
      simp only [acceptDecl, List.getElem_cons_zero, List.mem_cons, List.not_mem_nil, or_false] at h3
      rcases h3 with rfl | rfl | rfl
      · exact absurd (reaches_varies h4) notOuter
      · cases h4
      · cases h4

/-- A message after a list of messages may not have a string in it. -/
def rejectDecl : Model.Protocol :=
  { acceptDecl with messages := acceptDecl.messages ++ [⟨"L".toList, [⟨"ms".toList, .list 5 "M".toList, none⟩,
      ⟨"m".toList, .item "M".toList, none⟩]⟩] }

end Ex

/-- A description with every kind of declaration is in order, so it compiles, whatever else is. -/
example (sv : Resolver) (w : World) : ∃ r, Protocol.fromModel .wrapping sv w Ex.acceptDecl = .ok r :=
  (C123_release rfl).2 Ex.accept_inOrder

/-- It stops being so with a message of variable size after a list of messages. -/
example (sv : Resolver) (w : World) : ¬ ∃ r, Protocol.fromModel .wrapping sv w Ex.rejectDecl = .ok r := by
  rw [C123_release rfl]
  intro h
  have hm := (h.2.2.2 Ex.acceptDecl.messages _ [] rfl) [⟨"ms".toList, .list 5 "M".toList, none⟩] _ [] rfl
  refine hm.2 ⟨_, List.mem_singleton.2 rfl, .list ?_⟩ ?_
  · intro s hs
    simp [Ex.rejectDecl, Ex.acceptDecl] at hs
    rcases hs with rfl | rfl <;> decide
  · refine .item (older' := []) (m := ⟨"M".toList, _⟩) (g := ⟨"s".toList, .string (some 10), none⟩) ?_
      ⟨_, rfl, rfl, ?_⟩ (by simp) .string
    · intro s hs
      simp [Ex.rejectDecl, Ex.acceptDecl] at hs
      rcases hs with rfl | rfl <;> decide
    · intro y hy
      simp at hy
      subst hy
      decide

/-- Naming a structure and no field of it takes the compiler down, also in front of a message that is not in
order. -/
example (sv : Resolver) (w : World) :
    Protocol.fromModel .wrapping sv w { Ex.rejectDecl with unions := Ex.rejectDecl.unions ++
      [⟨"V".toList, "Outer".toList, []⟩] } = .panic := by
  rw [C123_crash rfl]
  refine ⟨Ex.accept_inOrder.1, Ex.accept_inOrder.2.1, Ex.rejectDecl.unions, _, [], rfl, Ex.accept_inOrder.2.2.1,
    "Outer".toList, [], [Ex.acceptDecl.structs[0]], Ex.acceptDecl.structs[1], ⟨rfl, by simp, ?_⟩,
    ⟨[], rfl, rfl, by simp⟩, .inl rfl⟩
  intro n hn
  cases List.mem_singleton.1 hn
  decide

end Proto.Props
