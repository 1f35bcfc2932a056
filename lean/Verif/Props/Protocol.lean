import Verif.Props.Compile

/-!
# C43–C45, C49, C50, C60, C61: whole protocols
-/

namespace Proto.Props

open Proto

/-! ## C44 -/

/-- C44: in a scope, a name denotes its latest declaration, else what it denotes outside. -/
theorem C44_scope {α : Type} (name : α → Name) (decls : List α) (outer : List (Name × α)) (n : Name) :
    (∀ (i : Nat) x, decls[i]? = some x → name x = n → (∀ (j : Nat) y, i < j → decls[j]? = some y → name y ≠ n) →
      (scope name decls outer).lookup n = some x) ∧
    ((∀ x ∈ decls, name x ≠ n) → (scope name decls outer).lookup n = outer.lookup n) := by
  induction decls generalizing outer with
  | nil => exact ⟨fun i x h => by simp at h, fun _ => rfl⟩
  | cons d ds ih =>
    have hs : scope name (d :: ds) outer = scope name ds ((name d, d) :: outer) := by
      simp [scope]
    rw [hs]
    obtain ⟨ih1, ih2⟩ := ih ((name d, d) :: outer)
    refine ⟨fun i x hx hn hlast => ?_, fun hn => ?_⟩
    · cases i with
      | zero =>
        simp only [List.getElem?_cons_zero, Option.some.injEq] at hx
        subst hx
        rw [ih2, List.lookup_cons]
        · simp [hn]
        · intro y hy
          obtain ⟨j, hj⟩ := List.getElem?_of_mem hy
          exact hlast (j + 1) y (by omega) (by simpa using hj)
      | succ i =>
        exact ih1 i x (by simpa using hx) hn fun j y hj hy =>
          hlast (j + 1) y (by omega) (by simpa using hy)
    · rw [ih2 (fun x hx => hn x (by simp [hx])), List.lookup_cons]
      have := hn d (by simp)
      rw [show (n == name d) = false by simpa using fun h => this h.symm]

example : (scope Structure.name [Ex.innerC, Ex.outerC] [("Inner".toList, Ex.skewedC)]).lookup "Inner".toList =
    some Ex.innerC :=
  (C44_scope Structure.name [Ex.innerC, Ex.outerC] [("Inner".toList, Ex.skewedC)] "Inner".toList).1 0 _ rfl rfl
    (by
      intro j y hj hy
      rcases j with _ | _ | j
      · omega
      · cases hy; decide
      · cases hy)

theorem scope_cons {α : Type} (name : α → Name) (d : α) (ds : List α) (outer : List (Name × α)) :
    scope name ds ((name d, d) :: outer) = scope name (d :: ds) outer := by
  simp [scope]

/-- C44: the structures of a protocol compile in order, each seeing exactly the structures declared
before it, then the imported ones. -/
theorem C44_structs (p : Profile) (vs : List Model.Structure) (next next' : Nat) (proto proto' : Protocol) :
    Protocol.addStructs p next proto vs = .ok (proto', next') ↔
      ∃ ss : List Structure, ss.length = vs.length ∧ next' = next + vs.length ∧
        proto' = { proto with structsByName := scope Structure.name ss proto.structsByName,
                              structs := proto.structs ++ ss } ∧
        ∀ j (hs : j < ss.length) (hv : j < vs.length),
          Structure.fromModel p (scope Structure.name (ss.take j) proto.structsByName) proto.enumsByName
            proto.endianness (next + j) vs[j] = .ok ss[j] := by
  induction vs generalizing next proto with
  | nil =>
    constructor
    · intro h
      cases h
      exact ⟨[], rfl, rfl, by simp [scope], by simp⟩
    · rintro ⟨ss, h1, h2, h3, -⟩
      have := List.length_eq_zero_iff.1 h1
      subst this
      simp [Protocol.addStructs, h2, h3, scope]
  | cons v vs ih =>
    unfold Protocol.addStructs
    constructor
    · intro h
      obtain ⟨s, h1, h⟩ := Res.bind_eq_ok.1 h
      obtain ⟨ss, hl, hn, hp, hi⟩ := (ih _ _).1 h
      refine ⟨s :: ss, by simp [hl], by simp; omega, ?_, fun j hs hv => ?_⟩
      · rw [hp, ← scope_cons]; simp
      · cases j with
        | zero => simpa [scope] using h1
        | succ j =>
          have := hi j (by simpa using hs) (by simpa using hv)
          simp only [scope_cons] at this
          rw [show next + (j + 1) = next + 1 + j by omega]
          exact this
    · rintro ⟨ss, hl, hn, hp, hi⟩
      cases ss with
      | nil => simp at hl
      | cons s ss =>
        have h0 := hi 0 (by simp) (by simp)
        simp only [List.take_zero, List.getElem_cons_zero, Nat.add_zero] at h0
        rw [show scope Structure.name [] proto.structsByName = proto.structsByName from rfl] at h0
        rw [h0, Res.bind_ok]
        refine (ih _ _).2 ⟨ss, by simpa using hl, by simp at hn; omega, ?_, fun j hs hv => ?_⟩
        · rw [hp, ← scope_cons]; simp
        · have := hi (j + 1) (by simpa using hs) (by simpa using hv)
          simp only [scope_cons]
          rw [show next + 1 + j = next + (j + 1) by omega]
          exact this

/-- C44: the enums, likewise (they refer to nothing). -/
theorem C44_enums (vs : List Model.Enum) (proto proto' : Protocol) :
    Protocol.addEnums proto vs = .ok proto' ↔
      ∃ es : List Enum, es.length = vs.length ∧
        proto' = { proto with enumsByName := scope Enum.name es proto.enumsByName,
                              enums := proto.enums ++ es } ∧
        ∀ j (hs : j < es.length) (hv : j < vs.length), Enum.fromModel vs[j] = .ok es[j] := by
  induction vs generalizing proto with
  | nil =>
    constructor
    · intro h
      cases h
      exact ⟨[], rfl, by simp [scope], by simp⟩
    · rintro ⟨ss, h1, h3, -⟩
      have := List.length_eq_zero_iff.1 h1
      subst this
      simp [Protocol.addEnums, h3, scope]
  | cons v vs ih =>
    unfold Protocol.addEnums
    constructor
    · intro h
      obtain ⟨s, h1, h⟩ := Res.bind_eq_ok.1 h
      obtain ⟨ss, hl, hp, hi⟩ := (ih _).1 h
      refine ⟨s :: ss, by simp [hl], ?_, fun j hs hv => ?_⟩
      · rw [hp, ← scope_cons]; simp
      · cases j with
        | zero => simpa using h1
        | succ j => exact hi j (by simpa using hs) (by simpa using hv)
    · rintro ⟨ss, hl, hp, hi⟩
      cases ss with
      | nil => simp at hl
      | cons s ss =>
        have h0 := hi 0 (by simp) (by simp)
        simp only [List.getElem_cons_zero] at h0
        rw [h0, Res.bind_ok]
        refine (ih _).2 ⟨ss, by simpa using hl, ?_, fun j hs hv => ?_⟩
        · rw [hp, ← scope_cons]; simp
        · exact hi (j + 1) (by simpa using hs) (by simpa using hv)

/-- C44: the unions compile in order against all structures and the imported messages. -/
theorem C44_unions (vs : List Model.Union) (proto proto' : Protocol) :
    Protocol.addUnions proto vs = .ok proto' ↔
      ∃ us : List Union, us.length = vs.length ∧
        proto' = { proto with unionsByName := scope Union.name us proto.unionsByName,
                              unions := proto.unions ++ us } ∧
        ∀ j (hs : j < us.length) (hv : j < vs.length), Union.fromModel proto vs[j] = .ok us[j] := by
  have hind : ∀ (proto : Protocol) a b v, Union.fromModel { proto with unionsByName := a, unions := b } v =
      Union.fromModel proto v := by
    intro proto a b v
    have hd : ∀ n, Discriminant.fromModel { proto with unionsByName := a, unions := b } n =
        Discriminant.fromModel proto n := fun n => rfl
    have hc : ∀ d vs, Union.casesFromModel { proto with unionsByName := a, unions := b } d vs =
        Union.casesFromModel proto d vs := by
      intro d vs
      induction vs with
      | nil => rfl
      | cons v vs ih =>
        unfold Union.casesFromModel
        rw [ih]
        rfl
    unfold Union.fromModel
    simp only [hd, hc]
  induction vs generalizing proto with
  | nil =>
    constructor
    · intro h
      cases h
      exact ⟨[], rfl, by simp [scope], by simp⟩
    · rintro ⟨ss, h1, h3, -⟩
      have := List.length_eq_zero_iff.1 h1
      subst this
      simp [Protocol.addUnions, h3, scope]
  | cons v vs ih =>
    unfold Protocol.addUnions
    constructor
    · intro h
      obtain ⟨s, h1, h⟩ := Res.bind_eq_ok.1 h
      obtain ⟨ss, hl, hp, hi⟩ := (ih _).1 h
      refine ⟨s :: ss, by simp [hl], ?_, fun j hs hv => ?_⟩
      · rw [hp, ← scope_cons]; simp
      · cases j with
        | zero => simpa using h1
        | succ j =>
          have := hi j (by simpa using hs) (by simpa using hv)
          rw [hind] at this
          exact this
    · rintro ⟨ss, hl, hp, hi⟩
      cases ss with
      | nil => simp at hl
      | cons s ss =>
        have h0 := hi 0 (by simp) (by simp)
        simp only [List.getElem_cons_zero] at h0
        rw [h0, Res.bind_ok]
        refine (ih _).2 ⟨ss, by simpa using hl, ?_, fun j hs hv => ?_⟩
        · rw [hp, ← scope_cons]; simp
        · have := hi (j + 1) (by simpa using hs) (by simpa using hv)
          rw [hind]
          exact this

/-- C44: the messages compile in order, each seeing exactly the messages declared before it, then the
imported ones, and all structures and unions; `embs j` are the messages used as list items before
message `j`. -/
theorem C44_messages (vs : List Model.Message) (w w' : World) (proto proto' : Protocol) :
    Protocol.addMessages w proto vs = .ok (proto', w') ↔
      ∃ (ms : List Message) (embs : Nat → List Nat), ms.length = vs.length ∧
        w' = ⟨w.next + vs.length, embs vs.length⟩ ∧ embs 0 = w.embedded ∧
        proto' = { proto with messagesByName := scope Message.name ms proto.messagesByName,
                              messages := proto.messages ++ ms } ∧
        ∀ j (hs : j < ms.length) (hv : j < vs.length),
          Message.fromModel
            { proto with messagesByName := scope Message.name (ms.take j) proto.messagesByName,
                         messages := proto.messages ++ ms.take j }
            (embs j) (w.next + j) vs[j] = .ok (ms[j], embs (j + 1)) := by
  induction vs generalizing w proto with
  | nil =>
    constructor
    · intro h
      cases h
      exact ⟨[], fun _ => w'.embedded, rfl, rfl, rfl, by simp [scope], by simp⟩
    · rintro ⟨ms, embs, h1, h2, h3, h4, -⟩
      have := List.length_eq_zero_iff.1 h1
      subst this
      simp [Protocol.addMessages, h2, h3, h4, scope]
  | cons v vs ih =>
    unfold Protocol.addMessages
    constructor
    · intro h
      obtain ⟨⟨m, emb⟩, h1, h⟩ := Res.bind_eq_ok.1 h
      obtain ⟨ms, embs, hl, hw, h0, hp, hi⟩ := (ih _ _).1 h
      refine ⟨m :: ms, fun j => if j = 0 then w.embedded else embs (j - 1), by simp [hl], ?_, rfl, ?_,
        fun j hs hv => ?_⟩
      · rw [hw]
        simp
        omega
      · rw [hp, ← scope_cons]; simp
      · cases j with
        | zero => simpa [scope, h0] using h1
        | succ j =>
          have := hi j (by simpa using hs) (by simpa using hv)
          simp only [scope_cons, List.append_assoc, List.singleton_append] at this
          rw [show w.next + (j + 1) = w.next + 1 + j by omega]
          simpa using this
    · rintro ⟨ms, embs, hl, hw, h0, hp, hi⟩
      cases ms with
      | nil => simp at hl
      | cons m ms =>
        have h1 := hi 0 (by simp) (by simp)
        simp only [List.take_zero, List.getElem_cons_zero, Nat.add_zero, List.append_nil, h0] at h1
        rw [show scope Message.name [] proto.messagesByName = proto.messagesByName from rfl] at h1
        have h1' : Message.fromModel proto w.embedded w.next v = .ok (m, embs 1) := h1
        rw [h1', Res.bind_ok]
        refine (ih _ _).2 ⟨ms, fun j => embs (j + 1), by simpa using hl, ?_, rfl, ?_, fun j hs hv => ?_⟩
        · rw [hw]; simp; omega
        · rw [hp, ← scope_cons]; simp
        · have := hi (j + 1) (by simpa using hs) (by simpa using hv)
          simp only [scope_cons, List.append_assoc, List.singleton_append]
          rw [show w.next + 1 + j = w.next + (j + 1) by omega]
          simpa using this

/-- C44: a protocol is its imports, then its enums, structures, unions and messages, in that order. -/
theorem C44_phases (p : Profile) (solver : Resolver) (w w' : World) (v : Model.Protocol) (proto : Protocol) :
    Protocol.fromModel p solver w v = .ok (proto, w') ↔
      ∃ p1 p2 p3 p4 next, Protocol.addImports solver (Protocol.empty v) v.imports = .ok p1 ∧
        Protocol.addEnums p1 v.enums = .ok p2 ∧ Protocol.addStructs p w.next p2 v.structs = .ok (p3, next) ∧
        Protocol.addUnions p3 v.unions = .ok p4 ∧
        Protocol.addMessages ⟨next, w.embedded⟩ p4 v.messages = .ok (proto, w') := by
  unfold Protocol.fromModel
  constructor
  · intro h
    obtain ⟨p1, h1, h⟩ := Res.bind_eq_ok.1 h
    obtain ⟨p2, h2, h⟩ := Res.bind_eq_ok.1 h
    obtain ⟨⟨p3, next⟩, h3, h⟩ := Res.bind_eq_ok.1 h
    obtain ⟨p4, h4, h⟩ := Res.bind_eq_ok.1 h
    exact ⟨p1, p2, p3, p4, next, h1, h2, h3, h4, h⟩
  · rintro ⟨p1, p2, p3, p4, next, h1, h2, h3, h4, h⟩
    rw [h1, Res.bind_ok, h2, Res.bind_ok, h3, Res.bind_ok]
    simp only
    rw [h4, Res.bind_ok, h]

/-- C44: exactly the fields `FieldOf` describes are produced, and a list flags its item message. -/
theorem C44_field {proto : Protocol} {emb emb' : List Nat} {before : List MField} {v : Model.MField}
    {f : MField} :
    MField.fromModel proto emb before v = .ok (f, emb') ↔
      FieldOf proto before v f ∧ emb' = (f.listItem?.map Message.id).toList ++ emb := by
  refine ⟨MField.fromModel_spec, ?_⟩
  rintro ⟨⟨hn, he, h⟩, rfl⟩
  obtain ⟨name, info, optional⟩ := v
  obtain ⟨fn, ft, fo, fs, fe⟩ := f
  have e1 : (MField.mk fn ft fo fs fe).optional = fo := rfl
  have e2 : (MField.mk fn ft fo fs fe).ty = ft := rfl
  have e3 : (MField.mk fn ft fo fs fe).size = fs := rfl
  have hn : fn = name := hn
  have he : fe = proto.endianness := he
  rw [e1, e2, e3] at h
  subst hn he
  unfold MField.fromModel
  cases info with
  | item t =>
    simp only at h ⊢
    rcases h with ⟨rfl, ⟨s, ty, hl, ha, rfl, rfl⟩ | ⟨s, hl, ha, rfl, rfl⟩ | ⟨hl', m, hl, rfl, rfl⟩⟩
    · simp [Referenced.lookup, hl, ha, MField.listItem?, MField.ty]
    · simp [Referenced.lookup, hl, ha, MField.listItem?, MField.ty]
    · simp [Referenced.lookup, hl, hl', MField.listItem?, MField.ty]
  | list maxLen t =>
    simp only at h ⊢
    rcases h with ⟨rfl, ty, hty, ⟨s, hl, rfl, rfl⟩ | ⟨hl', m, hl, rfl, rfl⟩⟩
    · simp [Referenced.lookup, hl, hty, MField.listItem?, MField.ty]
    · simp [Referenced.lookup, hl, hl', hty, MField.listItem?, MField.ty]
  | string maxLen =>
    cases maxLen with
    | none =>
      obtain ⟨rfl, rfl, rfl⟩ := h
      simp [MField.listItem?, MField.ty]
    | some maxLen =>
      obtain ⟨rfl, ty, hty, rfl, rfl⟩ := h
      simp [hty, MField.listItem?, MField.ty]
  | union on t =>
    obtain ⟨rfl, u, i, g, s, hl, hi, hg, ht, hid, rfl, rfl⟩ := h
    have hname : g.name = on := by
      obtain ⟨hlt, hx, _⟩ := List.findIdx?_eq_some_iff_getElem.1 hi
      rw [List.getElem?_eq_getElem hlt] at hg
      cases hg
      simpa using hx
    simp only [hi, hg, hl, ht, hid, Res.ofOption_some, Res.bind_ok, if_true]
    simp [MField.listItem?, MField.ty, hname]
  | payload =>
    obtain ⟨rfl, rfl, rfl⟩ := h
    simp [MField.listItem?, MField.ty]

example : FieldOf Ex.proto [] ⟨"l".toList, .list 300 "Item".toList, none⟩
    (.mk "l".toList (.list .u16 Ex.item) false ⟨true, true⟩ .little) :=
  (C44_field (emb := []) (emb' := [20])).1 rfl |>.1

/-- C44: a name that denotes nothing of the right kind is rejected as an undefined reference. -/
theorem C44_undefined (proto : Protocol) (emb : List Nat) (before : List MField) (n t on : Name) (k : Nat)
    (o : Option Bool) :
    (proto.structsByName.lookup t = none → proto.messagesByName.lookup t = none →
      MField.fromModel proto emb before ⟨n, .item t, o⟩ = .err (.undefinedReference t) ∧
      MField.fromModel proto emb before ⟨n, .list k t, o⟩ = .err (.undefinedReference t)) ∧
    ((∀ g ∈ before, g.name ≠ on) →
      MField.fromModel proto emb before ⟨n, .union on t, o⟩ = .err (.undefinedReference on)) ∧
    ((∃ g ∈ before, g.name = on) → proto.unionsByName.lookup t = none →
      MField.fromModel proto emb before ⟨n, .union on t, o⟩ = .err (.undefinedReference t)) := by
  refine ⟨fun h1 h2 => ?_, fun h => ?_, fun ⟨g, hg, hn⟩ h => ?_⟩
  · constructor <;> simp [MField.fromModel, Referenced.lookup, h1, h2]
  · have : before.findIdx? (fun f => f.name == on) = none := by
      rw [List.findIdx?_eq_none_iff]
      intro g hg
      simpa using h g hg
    simp [MField.fromModel, this]
  · cases hi : before.findIdx? (fun f => f.name == on) with
    | none =>
      rw [List.findIdx?_eq_none_iff] at hi
      have := hi g hg
      simp [hn] at this
    | some i =>
      obtain ⟨hlt, _, _⟩ := List.findIdx?_eq_some_iff_getElem.1 hi
      simp [MField.fromModel, hi, List.getElem?_eq_getElem hlt, h]

example : MField.fromModel Ex.proto [] [] ⟨"x".toList, .item "Nope".toList, none⟩ =
    .err (.undefinedReference "Nope".toList) :=
  ((C44_undefined Ex.proto [] [] "x".toList "Nope".toList [] 0 none).1 rfl rfl).1

/-- C44: a union field whose key is not the structure its discriminant starts from is rejected. -/
theorem C44_union_mismatch {proto : Protocol} {emb : List Nat} {before : List MField} {n t on : Name}
    {o : Option Bool} {g : MField} {u : Union} (hg : before.find? (fun g => g.name == on) = some g)
    (hu : proto.unionsByName.lookup t = some u)
    (hk : ∀ s, g.ty = .ref (.struct s) → u.discriminant.root.id ≠ s.id) :
    MField.fromModel proto emb before ⟨n, .union on t, o⟩ = .err .unionTypeMismatch := by
  cases hi : before.findIdx? (fun f => f.name == on) with
  | none =>
    rw [List.findIdx?_eq_none_iff] at hi
    have h1 := hi g (List.mem_of_find?_eq_some hg)
    have h2 := List.find?_some hg
    rw [h1] at h2
    cases h2
  | some i =>
    rw [find?_of_findIdx? hi] at hg
    simp only [MField.fromModel, hi, hg, hu, Res.ofOption_some, Res.bind_ok]
    split
    · next s hs => rw [if_neg (hk s hs)]
    · rfl

example : MField.fromModel { Ex.proto with unionsByName := [("Choice".toList, Ex.choice)] } []
    [.mk "k".toList (.fixed .u8) false ⟨false, false⟩ .little] ⟨"u".toList, .union "k".toList "Choice".toList, none⟩ =
    .err .unionTypeMismatch :=
  C44_union_mismatch (u := Ex.choice) rfl rfl (by intro s h; cases h)

/-- C44: in a structure, a field of a structure type that is not in scope is rejected. -/
theorem C44_struct_undefined (p : Profile) (structs : List (Name × Structure)) (enums : List (Name × Enum))
    (e : Endian) (last : Nat) (n t : Name) (vw : Option Model.FieldView) (al : Option Nat)
    (h : structs.lookup t = none) :
    SField.fromModel p structs enums e last ⟨n, .struct t, vw, al⟩ = .err (.undefinedReference t) := by
  simp [SField.fromModel, h]

example : ∃ r, Protocol.fromModel .checked Resolver.none ⟨0, []⟩
    { name := ['p'],
      structs := [⟨['A'], [⟨['x'], .unsigned 8, none, none⟩, ⟨['y'], .unsigned 8, none, none⟩]⟩,
                  ⟨['B'], [⟨['a'], .struct ['A'], none, none⟩, ⟨['z'], .boolean 1, none, none⟩]⟩],
      messages := [⟨['M'], [⟨['b'], .item ['B'], none⟩]⟩, ⟨['N'], [⟨['m'], .list 3 ['M'], none⟩]⟩] } = .ok r :=
  ⟨_, rfl⟩

theorem structRef_isSome {p : Profile} {structs : List (Name × Structure)} {enums : List (Name × Enum)}
    {e : Endian} {vs : List Model.SField} : ∀ {last : Nat} {r : List SField × Nat},
    SField.fromModels p structs enums e last vs = .ok r →
    ∀ v ∈ vs, ∀ t, v.info = .struct t → ∃ s, structs.lookup t = some s := by
  induction vs with
  | nil => intro _ _ _ v hv; simp at hv
  | cons x vs ih =>
    intro last r h v hv t ht
    unfold SField.fromModels at h
    obtain ⟨r1, h1, h⟩ := Res.bind_eq_ok.1 h
    obtain ⟨r2, h2, h⟩ := Res.bind_eq_ok.1 h
    rcases List.mem_cons.1 hv with rfl | hv
    · unfold SField.fromModel at h1
      rw [ht] at h1
      obtain ⟨s, hs, _⟩ := Res.bind_eq_ok.1 h1
      exact ⟨s, Res.ofOption_eq_ok hs⟩
    · exact ih h2 v hv t ht

theorem scope_lookup_some {α : Type} {name : α → Name} {decls : List α} {outer : List (Name × α)} {n : Name}
    {x : α} (h : (scope name decls outer).lookup n = some x) :
    (∃ d ∈ decls, name d = n) ∨ outer.lookup n = some x := by
  by_cases hd : ∃ d ∈ decls, name d = n
  · exact .inl hd
  · rw [(C44_scope name decls outer n).2 (fun d hd' he => hd ⟨d, hd', he⟩)] at h
    exact .inr h

/-- C44: in an accepted protocol, a structure only refers to structures declared before it or
imported; in particular neither to itself nor to a later one, unless the name was imported. -/
theorem C44_struct_refs {p : Profile} {vs : List Model.Structure} {next next' : Nat} {proto proto' : Protocol}
    (h : Protocol.addStructs p next proto vs = .ok (proto', next')) {j : Nat} (hj : j < vs.length)
    {f : Model.SField} (hf : f ∈ vs[j].fields) {t : Name} (ht : f.info = .struct t) :
    (∃ (i : Nat) (hi : i < vs.length), i < j ∧ vs[i].name = t) ∨ ∃ s, proto.structsByName.lookup t = some s := by
  obtain ⟨ss, hlen, _, _, hall⟩ := (C44_structs _ _ _ _ _ _).1 h
  have hj' : j < ss.length := by omega
  have hjs := hall j hj' hj
  unfold Structure.fromModel at hjs
  obtain ⟨r, h1, _⟩ := Res.bind_eq_ok.1 hjs
  obtain ⟨s, hs⟩ := structRef_isSome h1 f hf t ht
  rcases scope_lookup_some hs with ⟨d, hd, hn⟩ | ho
  · obtain ⟨i, hi, rfl⟩ := List.getElem_of_mem hd
    rw [List.length_take] at hi
    rw [List.getElem_take] at hn
    refine .inl ⟨i, by omega, by omega, ?_⟩
    rw [← hn]
    have his := hall i (by omega) (by omega)
    unfold Structure.fromModel at his
    obtain ⟨r, _, his⟩ := Res.bind_eq_ok.1 his
    cases his' : ss[i]'(by omega) with
    | mk id n fs a b =>
      rw [his'] at his
      cases his
      rfl
  · exact .inr ⟨s, ho⟩

/-- C44: likewise a message only refers to structures and to messages declared before it or
imported. -/
theorem C44_message_refs {vs : List Model.Message} {w w' : World} {proto proto' : Protocol}
    (h : Protocol.addMessages w proto vs = .ok (proto', w')) {j : Nat} (hj : j < vs.length)
    {f : Model.MField} (hf : f ∈ vs[j].fields) {t : Name}
    (ht : f.info = .item t ∨ ∃ k, f.info = .list k t) :
    (∃ (i : Nat) (hi : i < vs.length), i < j ∧ vs[i].name = t) ∨ (∃ s, proto.structsByName.lookup t = some s) ∨
      ∃ m, proto.messagesByName.lookup t = some m := by
  obtain ⟨ms, embs, hlen, _, _, _, hall⟩ := (C44_messages _ _ _ _ _).1 h
  have hj' : j < ms.length := by omega
  obtain ⟨fs, hfs, _, _⟩ := Message.fromModel_eq_ok.1 (hall j hj' hj)
  have hmem : ∀ {proto : Protocol} {emb emb' : List Nat} {before fs : List MField} {vs : List Model.MField},
      Fields proto emb before vs fs emb' → ∀ v ∈ vs, ∃ before f, FieldOf proto before v f := by
    intro proto emb emb' before fs vs h
    induction h with
    | nil => simp
    | @cons emb emb1 emb2 before fs v vs f hf _ ih =>
      intro v' hv'
      rcases List.mem_cons.1 hv' with rfl | hv'
      · exact ⟨_, _, (MField.fromModel_spec hf).1⟩
      · exact ih v' hv'
  obtain ⟨before, g, -, -, hg⟩ := hmem hfs f hf
  have hlook : (∃ s, proto.structsByName.lookup t = some s) ∨
      ∃ m, (scope Message.name (ms.take j) proto.messagesByName).lookup t = some m := by
    rcases ht with ht | ⟨k, ht⟩ <;> rw [ht] at hg <;> simp only at hg
    · rcases hg with ⟨_, ⟨s, ty, hl, _⟩ | ⟨s, hl, _⟩ | ⟨_, m, hl, _⟩⟩
      · exact .inl ⟨s, hl⟩
      · exact .inl ⟨s, hl⟩
      · exact .inr ⟨m, hl⟩
    · rcases hg with ⟨_, ty, _, ⟨s, hl, _⟩ | ⟨_, m, hl, _⟩⟩
      · exact .inl ⟨s, hl⟩
      · exact .inr ⟨m, hl⟩
  rcases hlook with hs | ⟨m, hm⟩
  · exact .inr (.inl hs)
  · rcases scope_lookup_some hm with ⟨d, hd, hn⟩ | ho
    · obtain ⟨i, hi, rfl⟩ := List.getElem_of_mem hd
      rw [List.length_take] at hi
      rw [List.getElem_take] at hn
      refine .inl ⟨i, by omega, by omega, ?_⟩
      rw [← hn]
      obtain ⟨fs, _, _, he⟩ := Message.fromModel_eq_ok.1 (hall i (by omega) (by omega))
      rw [he]
      rfl
    · exact .inr (.inr ⟨m, ho⟩)

namespace Ex

/-- Two structures, the second one made of the first, and two messages. -/
def linked : Model.Protocol :=
  { name := ['p'],
    structs := [⟨['A'], [⟨['x'], .unsigned 8, none, none⟩, ⟨['y'], .unsigned 8, none, none⟩]⟩,
                ⟨['B'], [⟨['a'], .struct ['A'], none, none⟩, ⟨['z'], .boolean 1, none, none⟩]⟩],
    messages := [⟨['M'], [⟨['b'], .item ['B'], none⟩]⟩, ⟨['N'], [⟨['m'], .list 3 ['M'], none⟩]⟩] }

end Ex

example : (∃ r, Protocol.addStructs .checked 0 (Protocol.empty Ex.linked) Ex.linked.structs = .ok r) ∧
    ∀ r, Protocol.addStructs .checked 0 (Protocol.empty Ex.linked) Ex.linked.structs = .ok r →
      (∃ (i : Nat) (hi : i < 2), i < 1 ∧ Ex.linked.structs[i].name = ['A']) ∨
        ∃ s, (Protocol.empty Ex.linked).structsByName.lookup ['A'] = some s :=
  ⟨⟨_, rfl⟩, fun r h => C44_struct_refs (proto' := r.1) (next' := r.2) h (j := 1) (by decide)
    (f := ⟨['a'], .struct ['A'], none, none⟩) (by simp [Ex.linked]) rfl⟩

/-- C44: a structure cannot contain itself or a later one, nor a message itself. -/
theorem C44_no_recursion :
    Protocol.fromModel .checked Resolver.none ⟨0, []⟩
      { name := ['p'], structs := [⟨['A'], [⟨['x'], .struct ['A'], none, none⟩]⟩] } =
        .err (.undefinedReference ['A']) ∧
    Protocol.fromModel .checked Resolver.none ⟨0, []⟩
      { name := ['p'], messages := [⟨['M'], [⟨['x'], .list 1 ['M'], none⟩]⟩] } =
        .err (.undefinedReference ['M']) := ⟨rfl, rfl⟩

/-! ## C60: structures of compiled protocols -/

/-- The declared field has a width the generator supports: booleans of 1 to 64 bits, and no array of
length zero.  (Other scalars are only accepted with 1 to 64 bits.) -/
def Ranged (v : Model.SField) : Prop :=
  (∀ n, v.info = .boolean n → 1 ≤ n ∧ n ≤ 64) ∧ v.arrayLen ≠ some 0

theorem sized_of_ranged {p : Profile} {structs : List (Name × Structure)} {enums : List (Name × Enum)}
    {v : Model.SField} {f : SField} (hd : Describes p structs enums .little v f)
    (hw : f.loc.bitSize = declWidth structs v) (hr : Ranged v)
    (hs : ∀ n s, structs.lookup n = some s → s.Sized) : f.Sized := by
  have hbits : ∀ t, FixedTy.fromModel v.info = .ok t →
      ∃ bits, 1 ≤ bits ∧ bits ≤ 64 ∧ declWidth structs v = bits * v.arrayLen.getD 1 := by
    intro t ht
    have hel := C08_element_type _ _ ht
    unfold declWidth
    cases hi : v.info with
    | struct n => rw [hi] at hel; exact absurd hel (by simp [ElementType])
    | boolean n => exact ⟨n, (hr.1 n hi).1, (hr.1 n hi).2, rfl⟩
    | unsigned n =>
      have := (C41_domain n).1.1 ⟨t, by rw [← hi]; exact ht⟩
      exact ⟨n, this.1, this.2, rfl⟩
    | signed n =>
      have := (C41_domain n).2.1.1 ⟨t, by rw [← hi]; exact ht⟩
      exact ⟨n, this.1, this.2, rfl⟩
    | float n =>
      have := (C08_width_domain n).2.2.1.1 ⟨t, by rw [← hi]; exact ht⟩
      exact ⟨n, this.1, this.2, rfl⟩
  cases f with
  | fixed f =>
    obtain ⟨_, hal, hty, he, _⟩ := hd
    obtain ⟨bits, h1, h2, hdw⟩ := hbits _ hty
    have : v.arrayLen.getD 1 = 1 := by
      cases ha : v.arrayLen with
      | none => rfl
      | some k =>
        rw [ha] at hal
        have : k ≠ 0 := fun h => hr.2 (by rw [ha, h])
        simp only [Option.getD_some] at hal ⊢
        omega
    rw [this, Nat.mul_one] at hdw
    simp only [SField.loc] at hw
    simp only [SField.Sized]
    rw [hw, hdw]
    exact ⟨h1, h2, he⟩
  | array a =>
    obtain ⟨_, hal, hlt, hty, he⟩ := hd
    obtain ⟨bits, h1, h2, hdw⟩ := hbits _ hty
    rw [hal, Option.getD_some] at hdw
    simp only [SField.loc] at hw
    simp only [SField.Sized, ArrayField.itemBitSize]
    rw [hw, hdw, Nat.mul_div_cancel _ (by omega)]
    exact ⟨h1, h2, he⟩
  | struct n r loc =>
    obtain ⟨_, t, _, hl⟩ := hd
    simp only [SField.Sized]
    exact hs t r hl

theorem listSized_of {fs : List SField} (h : ∀ i (hi : i < fs.length), fs[i].Sized) :
    SField.listSized fs := by
  induction fs with
  | nil => simp [SField.listSized]
  | cons f fs ih =>
    simp only [SField.listSized]
    exact ⟨h 0 (by simp), ih fun i hi => h (i + 1) (by simpa using hi)⟩

theorem structure_usable {p : Profile} {structs : List (Name × Structure)} {enums : List (Name × Enum)}
    {id : Nat} {v : Model.Structure} {s : Structure} (hr : ∀ f ∈ v.fields, Ranged f)
    (hs : ∀ n s, structs.lookup n = some s → s.Usable)
    (h : Structure.fromModel p structs enums .little id v = .ok s)
    (hp : p = .checked ∨ declTotal structs v.fields < 2 ^ 64) : s.Usable := by
  have hwf := Structure.fromModel_WF (fun n s hl => (hs n s hl).1) h hp
  obtain ⟨_, hlen, hbits, hbytes, hf⟩ := C08_layout h hp
  refine ⟨hwf, ?_, ?_⟩
  · have : SField.listSized s.fields := listSized_of fun i hi => by
      have hv : i < v.fields.length := by omega
      obtain ⟨hd, _, _, _, hw, _⟩ := hf i hi hv
      exact sized_of_ranged hd hw (hr _ (List.getElem_mem hv)) (fun n s hl => (hs n s hl).2.1)
    obtain ⟨_, _, fs, _, _⟩ := s
    simpa only [Structure.Sized, Structure.fields] using this
  · have hlt : s.bitSize < 2 ^ 64 := by
      rcases hp with rfl | hp
      · unfold Structure.fromModel at h
        obtain ⟨⟨fs, last⟩, h1, h⟩ := Res.bind_eq_ok.1 h
        cases h
        exact SField.fromModels_lt h1 (by decide)
      · omega
    omega

/-- What the loader guarantees: some assignment `T` of identities to structures such that every
structure is registered in it and usable, and every message and every union content is accepted. -/
theorem compiled_types {l : Loader} {solver : SimpleImportSolver} {w w' : World} {protos : List Protocol}
    (hr : ∀ v ∈ l.importedModels.map Prod.snd ++ l.models, ∀ s ∈ v.structs, ∀ f ∈ s.fields, Ranged f)
    (hs : solver.importMap = []) (h : Loader.compile .checked l solver w = .ok (protos, w')) :
    ∃ T : Heap, ∀ proto ∈ protos, proto.Types (HeapS Structure.Usable T) (HeapU Structure.Usable T)
      (fun m => m.AllMessages (Message.Accepted Structure.Usable)) := by
  have c := heapClosed .checked (fun v => ∀ f ∈ v.fields, Ranged f) Structure.Usable
    (fun structs enums id v s hd hs h => structure_usable hd hs h (.inl rfl))
  obtain ⟨T, _, _, hT⟩ := c.compile (k := fun _ => none) (fun _ _ => rfl)
    (by intro x hx; rw [hs] at hx; simp at hx)
    (fun v hv => hr v.2 (by simp only [List.mem_append, List.mem_map]; exact .inl ⟨v, hv, rfl⟩))
    (fun v hv => hr v (by simp [hv])) h
  exact ⟨T, hT⟩

/-- The same without any assumption on widths and in both profiles, without the guarantee on
structures. -/
theorem compiled_accepted {p : Profile} {l : Loader} {solver : SimpleImportSolver} {w w' : World}
    {protos : List Protocol} (hs : solver.importMap = [])
    (h : Loader.compile p l solver w = .ok (protos, w')) :
    ∃ T : Heap, ∀ proto ∈ protos, proto.Types (HeapS (fun _ => True) T) (HeapU (fun _ => True) T)
      (fun m => m.AllMessages (Message.Accepted fun _ => True)) := by
  have c := heapClosed p (fun _ => True) (fun _ => True) (fun _ _ _ _ _ _ _ _ => trivial)
  obtain ⟨T, _, _, hT⟩ := c.compile (k := fun _ => none) (fun _ _ => rfl)
    (by intro x hx; rw [hs] at hx; simp at hx) (fun _ _ _ _ => trivial) (fun _ _ _ _ => trivial) h
  exact ⟨T, hT⟩

/-- C60: every structure of every protocol a loader compiles (declared or imported) is packed at every
depth, has only supported widths, and fits the address space. -/
theorem C60_structures {l : Loader} {solver : SimpleImportSolver} {w w' : World} {protos : List Protocol}
    (hr : ∀ v ∈ l.importedModels.map Prod.snd ++ l.models, ∀ s ∈ v.structs, ∀ f ∈ s.fields, Ranged f)
    (hs : solver.importMap = []) (h : Loader.compile .checked l solver w = .ok (protos, w'))
    {proto : Protocol} (hp : proto ∈ protos) :
    (∀ s ∈ proto.structs, s.WF ∧ s.Sized ∧ s.byteSize < 2 ^ 64) ∧
    ∀ n s, proto.structsByName.lookup n = some s → s.WF ∧ s.Sized ∧ s.byteSize < 2 ^ 64 := by
  obtain ⟨T, hT⟩ := compiled_types hr hs h
  exact ⟨fun s hs => ((hT proto hp).structs s hs).2,
    fun n s hl => ((hT proto hp).structsByName _ (mem_of_lookup hl)).2⟩

example : (∃ r, Loader.compile .checked ⟨[Ex.linked], []⟩ SimpleImportSolver.default ⟨0, []⟩ = .ok r) ∧
    ∀ protos w', Loader.compile .checked ⟨[Ex.linked], []⟩ SimpleImportSolver.default ⟨0, []⟩ = .ok (protos, w') →
      ∀ proto ∈ protos, ∀ s ∈ proto.structs, s.WF ∧ s.Sized ∧ s.byteSize < 2 ^ 64 :=
  ⟨⟨_, rfl⟩, fun _ _ h _ hp => (C60_structures (by
    intro v hv s hs f hf
    simp [Ex.linked] at hv
    subst hv
    simp at hs
    rcases hs with rfl | rfl <;> simp at hf <;> rcases hf with rfl | rfl <;> simp [Ranged]) rfl h hp).1⟩

/-! ## C43 -/

/-- C43: a compiled message classified as not element-dynamic is self-delimiting, whichever messages
are used as list items. -/
theorem C43_delimited {p : Profile} {l : Loader} {solver : SimpleImportSolver} {w w' : World}
    {protos : List Protocol} (hs : solver.importMap = [])
    (h : Loader.compile p l solver w = .ok (protos, w')) {proto : Protocol} (hp : proto ∈ protos)
    {m : Message} (hm : m ∈ proto.messages) (hd : m.size.isElementDynSized = false) (c : Ctx) :
    m.delimited c.emb = true ∧
    ∀ v, m.Repr c v → ∀ t, m.parse c ((m.write c v).bytes ++ t) = .ok ⟨(m.write c v).bytes.length, v⟩ := by
  obtain ⟨T, hT⟩ := compiled_accepted hs h
  have hdel := Message.delimited_of_flagged (((hT proto hp).messages m hm).mono fun _ h => h.flagged) hd c.emb
  exact ⟨hdel, fun v hv t => C23_trailing c hdel hv t⟩

/-- C43: a compiled message classified as not dynamically sized, without optional and union fields at
any depth, always encodes to the same number of bytes. -/
theorem C43_constant {p : Profile} {l : Loader} {solver : SimpleImportSolver} {w w' : World}
    {protos : List Protocol} (hs : solver.importMap = [])
    (h : Loader.compile p l solver w = .ok (protos, w')) {proto : Protocol} (hp : proto ∈ protos)
    {m : Message} (hm : m ∈ proto.messages) (hd : m.size.isDynSized = false)
    (hno : m.allFields MField.notOptional = true) (hnu : m.allFields MField.notUnion = true) (c : Ctx)
    {v : Value} (hv : m.Repr c v) : (m.write c v).bytes.length = m.constSize := by
  obtain ⟨T, hT⟩ := compiled_accepted hs h
  rw [(C58_wire c hv).2]
  exact Message.wire_constSize (((hT proto hp).messages m hm).mono fun _ h => h.flagged) hd hno hnu hv

/-- C43: the flags of every message of every compiled protocol, at every depth. -/
theorem C43_flags {p : Profile} {l : Loader} {solver : SimpleImportSolver} {w w' : World}
    {protos : List Protocol} (hs : solver.importMap = [])
    (h : Loader.compile p l solver w = .ok (protos, w')) {proto : Protocol} (hp : proto ∈ protos)
    {m : Message} (hm : m ∈ proto.messages) :
    m.AllMessages fun m => m.Flagged ∧ Legal m.fields := by
  obtain ⟨T, hT⟩ := compiled_accepted hs h
  exact ((hT proto hp).messages m hm).mono fun _ h => ⟨h.flagged, h.legal⟩

/-- C43: a union is flagged dynamic (with dynamic elements) exactly when some case has a content that
is. -/
theorem C43_union_flags {proto : Protocol} {v : Model.Union} {u : Union}
    (h : Union.fromModel proto v = .ok u) :
    (u.size.isDynSized = true ↔ ∃ k ∈ u.cases, ∃ r, k.itemType = some r ∧ r.size.isDynSized = true) ∧
    (u.size.isElementDynSized = true ↔
      ∃ k ∈ u.cases, ∃ r, k.itemType = some r ∧ r.size.isElementDynSized = true) := by
  obtain ⟨d, ks, _, _, rfl⟩ := Union.fromModel_eq_ok.1 h
  have key : ∀ flag : SizeInfo → Bool, Union.anySize flag ks = true ↔
      ∃ k ∈ ks, ∃ r, k.itemType = some r ∧ flag r.size = true := by
    intro flag
    unfold Union.anySize
    rw [List.any_eq_true]
    constructor
    · rintro ⟨k, hk, hf⟩
      cases hr : k.itemType with
      | none => rw [hr] at hf; cases hf
      | some r => rw [hr] at hf; exact ⟨k, hk, r, hr, hf⟩
    · rintro ⟨k, hk, r, hr, hf⟩
      exact ⟨k, hk, by rw [hr]; exact hf⟩
  exact ⟨key _, key _⟩

namespace Ex

/-- A model with a fixed-size message, a dynamic one and a greedy one. -/
def sizes : Model.Protocol :=
  { name := ['p'],
    structs := [⟨['A'], [⟨['x'], .unsigned 8, none, none⟩, ⟨['y'], .unsigned 8, none, none⟩]⟩],
    messages := [⟨['F'], [⟨['a'], .item ['A'], none⟩, ⟨['b'], .item ['A'], none⟩]⟩,
                 ⟨['D'], [⟨['f'], .item ['F'], none⟩, ⟨['s'], .string none, none⟩]⟩,
                 ⟨['G'], [⟨['l'], .list 3 ['D'], none⟩]⟩] }

end Ex

example : (match Loader.compile .checked ⟨[Ex.sizes], []⟩ SimpleImportSolver.default ⟨0, []⟩ with
    | .ok (protos, _) => protos.map fun q => q.messages.map fun m =>
        (m.size.isDynSized, m.size.isElementDynSized, m.constSize)
    | _ => []) = [[(false, false, 4), (true, false, 4), (true, true, 0)]] := by decide +kernel

namespace Ex

/-- The messages `sizes` compiles to. -/
def sA : Structure :=
  .mk 0 ['A'] [.fixed ⟨['x'], .u8, ⟨0, 0, 1, 8⟩, .none, .little⟩, .fixed ⟨['y'], .u8, ⟨1, 0, 1, 8⟩, .none, .little⟩] 2 16
def mF : Message :=
  .mk 1 ['F'] [.mk ['a'] (.ref (.struct sA)) false ⟨false, false⟩ .little,
    .mk ['b'] (.ref (.struct sA)) false ⟨false, false⟩ .little] ⟨false, false⟩
def mD : Message :=
  .mk 2 ['D'] [.mk ['f'] (.ref (.message mF)) false ⟨false, false⟩ .little,
    .mk ['s'] .nullTerminatedString false ⟨true, false⟩ .little] ⟨true, false⟩
def mG : Message := .mk 3 ['G'] [.mk ['l'] (.list .u8 mD) false ⟨true, true⟩ .little] ⟨true, true⟩

theorem sizes_compiles : ∃ proto w', Loader.compile .checked ⟨[sizes], []⟩ SimpleImportSolver.default
    ⟨0, []⟩ = .ok ([proto], w') ∧ proto.messages = [mF, mD, mG] := ⟨_, _, rfl, rfl⟩

end Ex

example : Ex.mD.delimited Ex.ctx.emb = true := by
  obtain ⟨proto, w', h, hm⟩ := Ex.sizes_compiles
  exact (C43_delimited rfl h (List.mem_singleton.2 rfl) (m := Ex.mD) (by rw [hm]; simp) rfl Ex.ctx).1

example (v : Value) (hv : Ex.mF.Repr Ex.ctx v) : (Ex.mF.write Ex.ctx v).bytes.length = 4 := by
  obtain ⟨proto, w', h, hm⟩ := Ex.sizes_compiles
  exact C43_constant rfl h (List.mem_singleton.2 rfl) (m := Ex.mF) (by rw [hm]; simp) rfl (by decide)
    (by decide) Ex.ctx hv

example : Ex.mG.AllMessages fun m => m.Flagged ∧ Legal m.fields := by
  obtain ⟨proto, w', h, hm⟩ := Ex.sizes_compiles
  exact C43_flags rfl h (List.mem_singleton.2 rfl) (m := Ex.mG) (by rw [hm]; simp)

/-! ## C61 -/

/-- The key of every union field of the message is not optional, and its discriminant path leads to a
fixed-width field. -/
def GoodKeys (m : Message) : Prop :=
  ∀ before f after, m.fields = before ++ f :: after → ∀ u on i, f.ty = .union u on i →
    (∀ g, before.find? (fun g => g.name == on) = some g → g.optional = false) ∧
    u.discriminant.access ≠ none

theorem keyed_of_accepted {m : Message} (h : m.Accepted Structure.Usable) (hk : GoodKeys m) : m.Keyed := by
  intro before f after heq
  unfold MField.Keyed
  split
  · next u on i ht =>
    obtain ⟨g, hg, _, hgt⟩ := h.linked before f after heq u on i ht
    obtain ⟨ho, ha⟩ := hk before f after heq u on i ht
    have hs := h.structs f (by rw [heq]; simp)
    rw [ht] at hs
    exact ⟨g, hg, ho g hg, hgt, hs.1, ha⟩
  · trivial

/-- C61: whatever is loaded, no input makes the decoder of a compiled message panic, under the stated
conditions on the message and the messages it refers to. -/
theorem C61_no_panic {l : Loader} {solver : SimpleImportSolver} {w w' : World} {protos : List Protocol}
    (hr : ∀ v ∈ l.importedModels.map Prod.snd ++ l.models, ∀ s ∈ v.structs, ∀ f ∈ s.fields, Ranged f)
    (hs : solver.importMap = []) (h : Loader.compile .checked l solver w = .ok (protos, w'))
    {proto : Protocol} (hp : proto ∈ protos) {m : Message} (hm : m ∈ proto.messages)
    (hv : m.allFields MField.notVarchar = true) (ha : m.allFields MField.countFits = true)
    (hk : m.AllMessages GoodKeys) (c : Ctx) (b : Bytes) : m.parse c b ≠ .panic := by
  obtain ⟨T, hT⟩ := compiled_types hr hs h
  exact C25_no_panic c hv ha
    ((((hT proto hp).messages m hm).and hk).mono fun _ h => keyed_of_accepted h.1 h.2) b

/-- C61: every structure a compiled message refers to, at any depth, is packed and of supported widths. -/
theorem C61_structs {l : Loader} {solver : SimpleImportSolver} {w w' : World} {protos : List Protocol}
    (hr : ∀ v ∈ l.importedModels.map Prod.snd ++ l.models, ∀ s ∈ v.structs, ∀ f ∈ s.fields, Ranged f)
    (hs : solver.importMap = []) (h : Loader.compile .checked l solver w = .ok (protos, w'))
    {proto : Protocol} (hp : proto ∈ protos) {m : Message} (hm : m ∈ proto.messages) :
    m.AllMessages fun m => ∀ f ∈ m.fields, f.ty.Structs Structure.Usable := by
  obtain ⟨T, hT⟩ := compiled_types hr hs h
  exact ((hT proto hp).messages m hm).mono fun _ h => h.structs

theorem Ex.sizes_ranged : ∀ v ∈ ([] : List (Name × Model.Protocol)).map Prod.snd ++ [Ex.sizes],
    ∀ s ∈ v.structs, ∀ f ∈ s.fields, Ranged f := by
  intro v hv s hs f hf
  simp at hv
  subst hv
  simp [Ex.sizes] at hs
  subst hs
  simp at hf
  rcases hf with rfl | rfl <;> simp [Ranged]

/-- The decoder of a list of messages with strings, on every input. -/
example (c : Ctx) (b : Bytes) : Ex.mG.parse c b ≠ .panic := by
  obtain ⟨proto, w', h, hm⟩ := Ex.sizes_compiles
  have hk : ∀ m : Message, (∀ f ∈ m.fields, ∀ u on i, f.ty ≠ .union u on i) → GoodKeys m := by
    intro m hm before f after heq u on i hu
    exact absurd hu (hm f (by rw [heq]; simp) u on i)
  refine C61_no_panic (l := ⟨[Ex.sizes], []⟩) Ex.sizes_ranged rfl h (List.mem_singleton.2 rfl)
    (m := Ex.mG) (by rw [hm]; simp) (by decide) (by decide) ?_ c b
  have hf : GoodKeys Ex.mF := hk _ (by simp [Ex.mF, Message.fields, MField.ty])
  have hd : GoodKeys Ex.mD := hk _ (by simp [Ex.mD, Message.fields, MField.ty])
  have hg : GoodKeys Ex.mG := hk _ (by simp [Ex.mG, Message.fields, MField.ty])
  have hF : Ex.mF.AllMessages GoodKeys := by
    simp only [Ex.mF, Message.AllMessages, MField.ListAllMessages, MFieldTy.AllMessages,
      Referenced.AllMessages]
    exact ⟨hf, trivial, trivial, trivial⟩
  have hD : Ex.mD.AllMessages GoodKeys := by
    simp only [Ex.mD, Message.AllMessages, MField.ListAllMessages, MFieldTy.AllMessages,
      Referenced.AllMessages]
    exact ⟨hd, hF, trivial, trivial⟩
  simp only [Ex.mG, Message.AllMessages, MField.ListAllMessages, MFieldTy.AllMessages]
  exact ⟨hg, hD, trivial⟩

example : Ex.mG.AllMessages fun m => ∀ f ∈ m.fields, f.ty.Structs Structure.Usable := by
  obtain ⟨proto, w', h, hm⟩ := Ex.sizes_compiles
  exact C61_structs (l := ⟨[Ex.sizes], []⟩) Ex.sizes_ranged rfl h (List.mem_singleton.2 rfl)
    (m := Ex.mG) (by rw [hm]; simp)

end Proto.Props
