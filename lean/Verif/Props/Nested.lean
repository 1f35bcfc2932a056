import Verif.Props.Protocol
import Verif.Props.Understand

/-!
# C122: wider lengths inside of nested messages

A message that another one contains is compiled into it, so that a limit raised in the inner one changes what
the outer one writes.
-/

namespace Proto

mutual
/-- The same type, one with a wider length, or a message in which lengths are wider at some depth; also a list of
such messages, which holds the bytes of its items and not their values. -/
inductive MFieldTy.Deeper : MFieldTy → MFieldTy → Prop
  | same (ty : MFieldTy) : MFieldTy.Deeper ty ty
  | wider {ty ty' : MFieldTy} : ty.Widened ty' → MFieldTy.Deeper ty ty'
  | message {id id' : Nat} {n n' : Name} {fs fs' : List MField} {sz sz' : SizeInfo} :
    MField.ListDeeper fs fs' →
    MFieldTy.Deeper (.ref (.message (.mk id n fs sz))) (.ref (.message (.mk id' n' fs' sz')))
  | list {t t' : FixedTy} {id id' : Nat} {n n' : Name} {fs fs' : List MField} {sz sz' : SizeInfo} :
    t = t' ∨ t.byteSize < t'.byteSize → MField.ListDeeper fs fs' →
    MFieldTy.Deeper (.list t (.mk id n fs sz)) (.list t' (.mk id' n' fs' sz'))

/-- Fields of such types. -/
inductive MField.ListDeeper : List MField → List MField → Prop
  | nil : MField.ListDeeper [] []
  | cons {n : Name} {ty ty' : MFieldTy} {o : Bool} {sz sz' : SizeInfo} {e : Endian} {fs fs' : List MField} :
    MFieldTy.Deeper ty ty' → MField.ListDeeper fs fs' →
    MField.ListDeeper (.mk n ty o sz e :: fs) (.mk n ty' o sz' e :: fs')
end

mutual
/-- The length of the value is wider, or one inside of it. -/
inductive MFieldTy.Touched : MFieldTy → MFieldTy → Value → Prop
  | length {ty ty' : MFieldTy} {v : Value} : ty.Widened ty' → MFieldTy.Touched ty ty' v
  | list {t t' : FixedTy} {m m' : Message} {v : Value} : t.byteSize < t'.byteSize →
    MFieldTy.Touched (.list t m) (.list t' m') v
  | message {id id' : Nat} {n n' : Name} {fs fs' : List MField} {sz sz' : SizeInfo} {vs : Env} :
    MField.ListTouched fs fs' vs →
    MFieldTy.Touched (.ref (.message (.mk id n fs sz))) (.ref (.message (.mk id' n' fs' sz'))) (.msg vs)

/-- A required value is touched, or one that may be missing and is there. -/
inductive MField.ListTouched : List MField → List MField → Env → Prop
  | required {n n' nm : Name} {ty ty' : MFieldTy} {sz sz' : SizeInfo} {e e' : Endian} {fs fs' : List MField}
    {v : Value} {vs : Env} : MFieldTy.Touched ty ty' v →
    MField.ListTouched (.mk n ty false sz e :: fs) (.mk n' ty' false sz' e' :: fs') ((nm, v) :: vs)
  | present {n n' nm : Name} {ty ty' : MFieldTy} {sz sz' : SizeInfo} {e e' : Endian} {fs fs' : List MField}
    {v : Value} {vs : Env} : MFieldTy.Touched ty ty' v →
    MField.ListTouched (.mk n ty true sz e :: fs) (.mk n' ty' true sz' e' :: fs') ((nm, .some v) :: vs)
  | later {f f' : MField} {x : Name × Value} {fs fs' : List MField} {vs : Env} : MField.ListTouched fs fs' vs →
    MField.ListTouched (f :: fs) (f' :: fs') (x :: vs)
end

mutual
theorem MFieldTy.Touched.ne {ty ty' : MFieldTy} {v : Value} : ty.Touched ty' v → ty ≠ ty'
  | .length h => h.ne
  | .list h => fun e => by
    cases e
    omega
  | .message h => fun e => by
    cases e
    exact MField.ListTouched.ne h rfl
theorem MField.ListTouched.ne {fs fs' : List MField} {vs : Env} : MField.ListTouched fs fs' vs → fs ≠ fs'
  | .required h => fun e => by
    cases e
    exact MFieldTy.Touched.ne h rfl
  | .present h => fun e => by
    cases e
    exact MFieldTy.Touched.ne h rfl
  | .later h => fun e => by
    cases e
    exact MField.ListTouched.ne h rfl
end

mutual
theorem MFieldTy.Deeper.wire {ty ty' : MFieldTy} {c : Ctx} {here : Bool} {env : Env} {v : Value} (e : Endian) :
    ty.Deeper ty' → ty.Repr c here env v →
    (ty.Touched ty' v ∧ (ty.wire e v).length < (ty'.wire e v).length) ∨
      (¬ ty.Touched ty' v ∧ ty.wire e v = ty'.wire e v)
  | .same _, _ => .inr ⟨fun h => h.ne rfl, rfl⟩
  | .wider h, hr => .inl ⟨.length h, h.longer hr e⟩
  | .message h, hr => by
    simp only [MFieldTy.Repr, Referenced.Repr, Message.Repr] at hr
    obtain ⟨vs, rfl, hr⟩ := hr
    simp only [MFieldTy.wire, Referenced.wire, Message.wire]
    rcases MField.ListDeeper.wire h hr with ⟨h1, h2⟩ | ⟨h1, h2⟩
    · exact .inl ⟨.message h1, h2⟩
    · refine .inr ⟨fun h3 => ?_, h2⟩
      cases h3 with
      | length h => cases h
      | message h => exact h1 h
  | .list ht _, hr => by
    obtain ⟨l, rfl, -⟩ := hr
    rcases ht with rfl | ht
    · refine .inr ⟨fun h => ?_, by simp [MFieldTy.wire]⟩
      cases h with
      | length h => cases h; omega
      | list h => omega
    · exact .inl ⟨.list ht, by simp only [MFieldTy.wire, List.length_append, wireInt_length]; omega⟩
theorem MField.ListDeeper.wire {fs fs' : List MField} {c : Ctx} {here : Bool} {env vs : Env} :
    MField.ListDeeper fs fs' → MField.ListRepr c here fs env vs →
    (MField.ListTouched fs fs' vs ∧ (MField.listWire fs vs).length < (MField.listWire fs' vs).length) ∨
      (¬ MField.ListTouched fs fs' vs ∧ MField.listWire fs vs = MField.listWire fs' vs)
  | .nil, _ => .inr ⟨fun h => (by cases h), rfl⟩
  | @MField.ListDeeper.cons n ty ty' o sz sz' e fs fs' h hs, hr => by
    simp only [MField.ListRepr] at hr
    obtain ⟨v, rest, rfl, h1, h2⟩ := hr
    simp only [MField.listWire, List.length_append]
    have first : (∃ x, (o = false ∧ v = x ∨ o = true ∧ v = .some x) ∧ ty.Touched ty' x ∧
          ((MField.mk n ty o sz e).wire v).length < ((MField.mk n ty' o sz' e).wire v).length) ∨
        ((∀ x, (o = false ∧ v = x ∨ o = true ∧ v = .some x) → ¬ ty.Touched ty' x) ∧
          (MField.mk n ty o sz e).wire v = (MField.mk n ty' o sz' e).wire v) := by
      simp only [MField.Repr] at h1
      cases o with
      | false =>
        simp only [Bool.false_eq_true, if_false] at h1
        simp only [MField.wire, Bool.false_eq_true, if_false]
        rcases MFieldTy.Deeper.wire e h h1 with ⟨a, b⟩ | ⟨a, b⟩
        · exact .inl ⟨v, .inl ⟨trivial, rfl⟩, a, b⟩
        · refine .inr ⟨?_, b⟩
          rintro x (⟨-, rfl⟩ | ⟨h, -⟩)
          · exact a
          · cases h
      | true =>
        simp only [if_true] at h1
        simp only [MField.wire, if_true]
        rcases h1 with rfl | ⟨x, rfl, h1⟩
        · refine .inr ⟨?_, rfl⟩
          rintro x (⟨h, -⟩ | ⟨-, h⟩) <;> cases h
        · rcases MFieldTy.Deeper.wire e h h1 with ⟨a, b⟩ | ⟨a, b⟩
          · exact .inl ⟨x, .inr ⟨trivial, rfl⟩, a, by simpa using b⟩
          · refine .inr ⟨?_, by simp [b]⟩
            rintro y (⟨h, -⟩ | ⟨-, h⟩)
            · cases h
            · cases h
              exact a
    rcases first with ⟨x, hx, a1, a2⟩ | ⟨a1, a2⟩ <;> rcases MField.ListDeeper.wire hs h2 with ⟨b1, b2⟩ | ⟨b1, b2⟩
    · exact .inl ⟨.later b1, by omega⟩
    · refine .inl ⟨?_, by rw [b2]; omega⟩
      rcases hx with ⟨rfl, rfl⟩ | ⟨rfl, rfl⟩
      · exact .required a1
      · exact .present a1
    · exact .inl ⟨.later b1, by rw [a2]; omega⟩
    · refine .inr ⟨fun h => ?_, by rw [a2, b2]⟩
      cases h with
      | required h => exact a1 _ (.inl ⟨rfl, rfl⟩) h
      | present h => exact a1 _ (.inr ⟨rfl, rfl⟩) h
      | later h => exact b1 h
end

/-! ## Descriptions -/

theorem MField.ListDeeper.refl : ∀ fs : List MField, MField.ListDeeper fs fs
  | [] => .nil
  | .mk .. :: fs => .cons (.same _) (refl fs)

/-- A field of such a type. -/
inductive MField.Deeper : MField → MField → Prop
  | mk {n : Name} {ty ty' : MFieldTy} {o : Bool} {sz sz' : SizeInfo} {e : Endian} :
    ty.Deeper ty' → MField.Deeper (.mk n ty o sz e) (.mk n ty' o sz' e)

/-- A message with such fields, compiled in its place. -/
def Message.Grown (m m' : Message) : Prop :=
  m'.id = m.id ∧ m'.name = m.name ∧ m'.size = m.size ∧ MField.ListDeeper m.fields m'.fields

/-- Messages in scope under the same names. -/
inductive Message.ScopeGrown : List (Name × Message) → List (Name × Message) → Prop
  | nil : ScopeGrown [] []
  | cons {n : Name} {m m' : Message} {l l' : List (Name × Message)} : m.Grown m' → ScopeGrown l l' →
    ScopeGrown ((n, m) :: l) ((n, m') :: l')

/-- The messages of a file. -/
inductive Message.ListGrown : List Message → List Message → Prop
  | nil : ListGrown [] []
  | cons {m m' : Message} {l l' : List Message} : m.Grown m' → ListGrown l l' → ListGrown (m :: l) (m' :: l')

/-- The same but for the messages, in which lengths may be wider. -/
structure Protocol.Near (q q' : Protocol) : Prop where
  rest : q' = { q with messagesByName := q'.messagesByName, messages := q'.messages }
  scope : Message.ScopeGrown q.messagesByName q'.messagesByName
  messages : Message.ListGrown q.messages q'.messages

/-- The same messages, with limits that are at least the first ones'. -/
inductive Model.Message.ListRaised : List Model.Message → List Model.Message → Prop
  | nil : ListRaised [] []
  | cons {m m' : Model.Message} {l l' : List Model.Message} : m'.name = m.name →
    Model.MField.ListRaised m.fields m'.fields → ListRaised l l' → ListRaised (m :: l) (m' :: l')

theorem Protocol.Near.structs {q q' : Protocol} (h : q.Near q') : q'.structsByName = q.structsByName := by
  rw [h.rest]

theorem Protocol.Near.unions {q q' : Protocol} (h : q.Near q') : q'.unionsByName = q.unionsByName := by
  rw [h.rest]

theorem Protocol.Near.endian {q q' : Protocol} (h : q.Near q') : q'.endianness = q.endianness := by
  rw [h.rest]

theorem Message.Grown.refl (m : Message) : m.Grown m := ⟨rfl, rfl, rfl, .refl _⟩

theorem Message.ScopeGrown.refl : ∀ l : List (Name × Message), Message.ScopeGrown l l
  | [] => .nil
  | _ :: l => .cons (.refl _) (refl l)

theorem Message.ListGrown.refl : ∀ l : List Message, Message.ListGrown l l
  | [] => .nil
  | _ :: l => .cons (.refl _) (refl l)

theorem Message.ListGrown.snoc {l l' : List Message} (h : Message.ListGrown l l') {m m' : Message}
    (hm : m.Grown m') : Message.ListGrown (l ++ [m]) (l' ++ [m']) := by
  induction h with
  | nil => exact .cons hm .nil
  | cons h _ ih => exact .cons h ih

theorem Message.ScopeGrown.lookup {l l' : List (Name × Message)} (h : Message.ScopeGrown l l') (n : Name) :
    (l.lookup n = none ∧ l'.lookup n = none) ∨
      ∃ m m', l.lookup n = some m ∧ l'.lookup n = some m' ∧ m.Grown m' := by
  induction h with
  | nil => exact .inl ⟨rfl, rfl⟩
  | @cons k m m' l l' hm _ ih =>
    simp only [List.lookup_cons]
    cases n == k with
    | true => exact .inr ⟨m, m', rfl, rfl, hm⟩
    | false => exact ih

theorem MField.ListDeeper.findIdx? : ∀ {fs fs' : List MField}, MField.ListDeeper fs fs' → ∀ on : Name,
    fs'.findIdx? (fun f => f.name == on) = fs.findIdx? (fun f => f.name == on)
  | _, _, .nil, _ => rfl
  | _, _, .cons _ hs, on => by
    have ih := MField.ListDeeper.findIdx? hs on
    simp only [List.findIdx?_cons, ih]
    rfl

theorem MField.ListDeeper.get : ∀ {fs fs' : List MField}, MField.ListDeeper fs fs' → ∀ i : Nat,
    (fs[i]? = none ∧ fs'[i]? = none) ∨ ∃ f f', fs[i]? = some f ∧ fs'[i]? = some f' ∧ f.Deeper f'
  | _, _, .nil, _ => .inl ⟨rfl, rfl⟩
  | _, _, .cons h _, 0 => .inr ⟨_, _, rfl, rfl, .mk h⟩
  | _, _, .cons _ hs, i + 1 => by simpa using MField.ListDeeper.get hs i

theorem MField.ListDeeper.snoc : ∀ {fs fs' : List MField}, MField.ListDeeper fs fs' → ∀ {f f' : MField},
    f.Deeper f' → MField.ListDeeper (fs ++ [f]) (fs' ++ [f'])
  | _, _, .nil, _, _, .mk h => .cons h .nil
  | _, _, .cons h hs, _, _, hf => .cons h (MField.ListDeeper.snoc hs hf)

theorem near_lookup {q q' : Protocol} (hq : q.Near q') (t : Name) :
    (Referenced.lookup q t = none ∧ Referenced.lookup q' t = none) ∨
    (∃ s, Referenced.lookup q t = some (.struct s) ∧ Referenced.lookup q' t = some (.struct s)) ∨
    ∃ m m', Referenced.lookup q t = some (.message m) ∧ Referenced.lookup q' t = some (.message m') ∧
      m.Grown m' := by
  unfold Referenced.lookup
  rw [hq.structs]
  cases q.structsByName.lookup t with
  | some s => exact .inr (.inl ⟨s, rfl, rfl⟩)
  | none =>
    rcases hq.scope.lookup t with ⟨h1, h2⟩ | ⟨m, m', h1, h2, h3⟩
    · exact .inl ⟨by simp [h1], by simp [h2]⟩
    · exact .inr (.inr ⟨m, m', by simp [h1], by simp [h2], h3⟩)

theorem Message.Grown.item {m m' : Message} (h : m.Grown m') :
    MFieldTy.Deeper (.ref (.message m)) (.ref (.message m')) := by
  obtain ⟨_, _, _, _⟩ := m
  obtain ⟨_, _, _, _⟩ := m'
  exact .message h.2.2.2

theorem Message.Grown.list {m m' : Message} (h : m.Grown m') {t t' : FixedTy}
    (ht : t = t' ∨ t.byteSize < t'.byteSize) : MFieldTy.Deeper (.list t m) (.list t' m') := by
  obtain ⟨_, _, _, _⟩ := m
  obtain ⟨_, _, _, _⟩ := m'
  exact .list ht h.2.2.2

theorem mfield_deeper {q q' : Protocol} (hq : q.Near q') {emb emb1 : List Nat} {fs fs' : List MField}
    (hfs : MField.ListDeeper fs fs') {v v' : Model.MField} (hn : v'.name = v.name)
    (ho : v'.optional = v.optional) (hi : v.info.Raised v'.info) {f : MField}
    (h : MField.fromModel q emb fs v = .ok (f, emb1)) :
    ∃ f', MField.fromModel q' emb fs' v' = .ok (f', emb1) ∧ f.Deeper f' ∧ f'.size = f.size := by
  obtain ⟨n, info, o⟩ := v
  obtain ⟨n', info', o'⟩ := v'
  simp only at hn ho hi
  subst hn ho
  have list : ∀ {a a' : Nat} {t : Name}, a ≤ a' →
      MField.fromModel q emb fs ⟨n', .list a t, o'⟩ = .ok (f, emb1) →
      ∃ f', MField.fromModel q' emb fs' ⟨n', .list a' t, o'⟩ = .ok (f', emb1) ∧ f.Deeper f' ∧ f'.size = f.size := by
    intro a a' t hle h
    obtain ⟨ty, ty', h1, h2, h3⟩ := limit_cases hle
    have h3 : ty = ty' ∨ ty.byteSize < ty'.byteSize := h3.elim (fun h => .inl h.1.symm) fun h => .inr h.1
    simp only [MField.fromModel, h1, h2, Res.bind_ok, hq.endian] at h ⊢
    rcases near_lookup hq t with ⟨l1, l2⟩ | ⟨s, l1, l2⟩ | ⟨m, m', l1, l2, hm⟩
    · rw [l1] at h; cases h
    · rw [l1] at h
      rw [l2]
      cases h
      refine ⟨_, rfl, .mk ?_, rfl⟩
      rcases h3 with rfl | hlt
      · exact .same _
      · exact .wider (.array s hlt)
    · rw [l1] at h
      rw [l2]
      cases h
      exact ⟨_, by simp only [Res.ofOption_some, Res.bind_ok, hm.1]; rfl, .mk (hm.list h3), rfl⟩
  cases hi with
  | same t =>
    cases info with
    | list a t => exact list (Nat.le_refl a) h
    | union on t =>
      unfold MField.fromModel at h ⊢
      simp only [hfs.findIdx? on, hq.unions, hq.endian] at h ⊢
      obtain ⟨i, e1, h⟩ := Res.bind_eq_ok.1 h
      obtain ⟨g, e2, h⟩ := Res.bind_eq_ok.1 h
      obtain ⟨u, e3, h⟩ := Res.bind_eq_ok.1 h
      rw [e1, e3]
      simp only [Res.bind_ok]
      rcases hfs.get i with ⟨h1, h2⟩ | ⟨g0, g', h1, h2, hg⟩
      · rw [h1] at e2; cases e2
      · rw [h1] at e2
        cases e2
        rw [h2]
        simp only [Res.ofOption_some, Res.bind_ok]
        cases hg with
        | mk hg =>
          cases hg with
          | same => exact ⟨f, h, by cases f; exact .mk (.same _), rfl⟩
          | wider hw => cases hw <;> cases h
          | message => cases h
          | list => cases h
    | item t =>
      simp only [MField.fromModel, hq.endian] at h ⊢
      rcases near_lookup hq t with ⟨l1, l2⟩ | ⟨s, l1, l2⟩ | ⟨m, m', l1, l2, hm⟩
      · rw [l1] at h; cases h
      · rw [l1] at h
        rw [l2]
        exact ⟨f, h, by cases f; exact .mk (.same _), rfl⟩
      · rw [l1] at h
        rw [l2]
        cases h
        exact ⟨_, rfl, .mk hm.item, hm.2.2.1⟩
    | string o =>
      cases o with
      | none =>
        simp only [MField.fromModel, hq.endian] at h ⊢
        exact ⟨f, h, by cases f; exact .mk (.same _), rfl⟩
      | some a =>
        simp only [MField.fromModel, hq.endian] at h ⊢
        exact ⟨f, h, by cases f; exact .mk (.same _), rfl⟩
    | payload =>
      simp only [MField.fromModel, hq.endian] at h ⊢
      exact ⟨f, h, by cases f; exact .mk (.same _), rfl⟩
  | list t hle => exact list hle h
  | string hle =>
    obtain ⟨ty, ty', h1, h2, h3⟩ := limit_cases hle
    simp only [MField.fromModel, h1, h2, Res.bind_ok, hq.endian] at h ⊢
    cases h
    refine ⟨_, rfl, .mk ?_, rfl⟩
    rcases h3 with ⟨rfl, -⟩ | ⟨hlt, -⟩
    · exact .same _
    · exact .wider (.string hlt)

theorem fields_deeper {q q' : Protocol} (hq : q.Near q') {vs vs' : List Model.MField}
    (hv : Model.MField.ListRaised vs vs') {emb emb1 : List Nat} {fs fs' : List MField}
    (hfs : MField.ListDeeper fs fs') {n n1 : Nat} {d d1 : Bool} {gs : List MField}
    (h : Message.fieldsFromModel q emb fs n d vs = .ok (gs, n1, d1, emb1)) :
    ∃ gs', Message.fieldsFromModel q' emb fs' n d vs' = .ok (gs', n1, d1, emb1) ∧ MField.ListDeeper gs gs' := by
  induction hv generalizing emb fs fs' n d with
  | nil =>
    cases h
    exact ⟨fs', rfl, hfs⟩
  | cons hn ho hi _ ih =>
    obtain ⟨⟨f, emb2⟩, h1, h⟩ := Res.bind_eq_ok.1 h
    obtain ⟨f', h1', hf, hs⟩ := mfield_deeper hq hfs hn ho hi h1
    simp only [Message.fieldsFromModel, h1', Res.bind_ok, hs]
    dsimp only at h
    split at h
    · cases h
    · next hc =>
      rw [if_neg hc]
      generalize (if f.size.isElementDynSized = true then n + 1 else n) = k at h ⊢
      by_cases hc2 : k > 1
      · rw [if_pos hc2] at h; cases h
      · rw [if_neg hc2] at h ⊢
        exact ih (hfs.snoc hf) h

theorem messages_deeper {vs vs' : List Model.Message} (hv : Model.Message.ListRaised vs vs') {w w1 : World}
    {q q' r : Protocol} (hq : q.Near q') (h : Protocol.addMessages w q vs = .ok (r, w1)) :
    ∃ r', Protocol.addMessages w q' vs' = .ok (r', w1) ∧ r.Near r' := by
  induction hv generalizing w q q' with
  | nil =>
    cases h
    exact ⟨q', rfl, hq⟩
  | cons hn hf _ ih =>
    unfold Protocol.addMessages at h ⊢
    obtain ⟨⟨m, emb⟩, h1, h⟩ := Res.bind_eq_ok.1 h
    obtain ⟨⟨gs, n1, d1, emb2⟩, h2, h1⟩ := Res.bind_eq_ok.1 h1
    cases h1
    obtain ⟨gs', e1, e2⟩ := fields_deeper hq hf .nil h2
    simp only [Message.fromModel, e1, Res.bind_ok, Res.pure_eq]
    have hg : Message.Grown (.mk w.next _ gs ⟨d1, decide (n1 > 0)⟩) (.mk w.next _ gs' ⟨d1, decide (n1 > 0)⟩) :=
      ⟨rfl, hn, rfl, e2⟩
    refine ih (q := { q with messagesByName := _, messages := _ })
      ⟨by rw [hq.rest], ?_, hq.messages.snoc hg⟩ h
    simp only [Message.name, hn]
    rw [hn] at hg
    exact .cons hg hq.scope

/-- The same type but for a limit, the length of which takes as many bytes. -/
inductive Model.MFieldTy.Alike : Model.MFieldTy → Model.MFieldTy → Prop
  | same (t : Model.MFieldTy) : Alike t t
  | list {n n' : Nat} (t : Name) : Model.limitBytes n = Model.limitBytes n' → Alike (.list n t) (.list n' t)
  | string {n n' : Nat} : Model.limitBytes n = Model.limitBytes n' → Alike (.string (some n)) (.string (some n'))

/-- The same fields but for such limits. -/
inductive Model.MField.ListAlike : List Model.MField → List Model.MField → Prop
  | nil : ListAlike [] []
  | cons {v v' : Model.MField} {vs vs' : List Model.MField} : v'.name = v.name → v'.optional = v.optional →
    v.info.Alike v'.info → ListAlike vs vs' → ListAlike (v :: vs) (v' :: vs')

/-- The same messages but for such limits. -/
inductive Model.Message.ListAlike : List Model.Message → List Model.Message → Prop
  | nil : ListAlike [] []
  | cons {m m' : Model.Message} {l l' : List Model.Message} : m'.name = m.name →
    Model.MField.ListAlike m.fields m'.fields → ListAlike l l' → ListAlike (m :: l) (m' :: l')

theorem limit_alike {n n' : Nat} (h : Model.limitBytes n = Model.limitBytes n') :
    FixedTy.fromMaxValue n' = FixedTy.fromMaxValue n := by
  obtain ⟨t, h1, h2, h3⟩ := limit_ty n
  obtain ⟨t', g1, g2, -⟩ := limit_ty n'
  rw [h1, g1, h3 _ _ g1 (by omega)]

theorem mfield_alike {q : Protocol} {emb : List Nat} {fs : List MField} {v v' : Model.MField}
    (hn : v'.name = v.name) (ho : v'.optional = v.optional) (hi : v.info.Alike v'.info) :
    MField.fromModel q emb fs v' = MField.fromModel q emb fs v := by
  obtain ⟨n, info, o⟩ := v
  obtain ⟨n', info', o'⟩ := v'
  simp only at hn ho hi
  subst hn ho
  cases hi with
  | same => rfl
  | list t h => simp only [MField.fromModel, limit_alike h]
  | string h => simp only [MField.fromModel, limit_alike h]

theorem fields_alike {q : Protocol} {vs vs' : List Model.MField} (hv : Model.MField.ListAlike vs vs')
    {emb : List Nat} {fs : List MField} {n : Nat} {d : Bool} :
    Message.fieldsFromModel q emb fs n d vs' = Message.fieldsFromModel q emb fs n d vs := by
  induction hv generalizing emb fs n d with
  | nil => rfl
  | cons hn ho hi _ ih => simp only [Message.fieldsFromModel, mfield_alike hn ho hi, ih]

theorem messages_alike {vs vs' : List Model.Message} (hv : Model.Message.ListAlike vs vs') {w : World}
    {q : Protocol} : Protocol.addMessages w q vs' = Protocol.addMessages w q vs := by
  induction hv generalizing w q with
  | nil => rfl
  | cons hn hf _ ih => simp only [Protocol.addMessages, Message.fromModel, fields_alike hf, hn, ih]

theorem mfield_alike_of {q : Protocol} {emb emb' e e' : List Nat} {fs : List MField} {v v' : Model.MField} {f : MField}
    (ho : v'.optional = v.optional) (hi : v.info.Raised v'.info) (h : MField.fromModel q emb fs v = .ok (f, e))
    (h' : MField.fromModel q emb' fs v' = .ok (f, e')) : v.info.Alike v'.info := by
  obtain ⟨n, info, o⟩ := v
  obtain ⟨n', info', o'⟩ := v'
  simp only at ho hi
  subst ho
  cases hi with
  | same => exact .same _
  | list t hle =>
    refine .list t (Nat.le_antisymm (limitBytes_mono hle) (Nat.le_of_not_lt fun hlt => ?_))
    obtain ⟨ty, ty', h1, h2, ⟨-, h3⟩ | ⟨h3, -⟩⟩ := limit_cases hle
    · exact h3 hlt
    · simp only [MField.fromModel, h1, h2, Res.bind_ok] at h h'
      cases hl : Referenced.lookup q t with
      | none => rw [hl] at h; cases h
      | some r =>
        rw [hl] at h h'
        cases r <;> cases h <;> cases h' <;> omega
  | string hle =>
    refine .string (Nat.le_antisymm (limitBytes_mono hle) (Nat.le_of_not_lt fun hlt => ?_))
    obtain ⟨ty, ty', h1, h2, ⟨-, h3⟩ | ⟨h3, -⟩⟩ := limit_cases hle
    · exact h3 hlt
    · simp only [MField.fromModel, h1, h2, Res.bind_ok] at h h'
      cases h
      cases h'
      omega

theorem fields_step {q : Protocol} {v : Model.MField} {vs : List Model.MField} {emb : List Nat} {fs : List MField}
    {n : Nat} {d : Bool} {x : List MField × Nat × Bool × List Nat}
    (h : Message.fieldsFromModel q emb fs n d (v :: vs) = .ok x) :
    ∃ f e k b, MField.fromModel q emb fs v = .ok (f, e) ∧
      Message.fieldsFromModel q e (fs ++ [f]) k b vs = .ok x := by
  obtain ⟨⟨f, e1⟩, h1, h⟩ := Res.bind_eq_ok.1 h
  dsimp only at h
  split at h
  · cases h
  · generalize (if f.size.isElementDynSized = true then n + 1 else n) = k at h
    by_cases hc : k > 1
    · rw [if_pos hc] at h; cases h
    · rw [if_neg hc] at h
      exact ⟨f, e1, k, _, h1, h⟩

theorem fields_prefix {q : Protocol} {vs : List Model.MField} {emb e : List Nat} {fs gs : List MField} {n k : Nat}
    {d b : Bool} (h : Message.fieldsFromModel q emb fs n d vs = .ok (gs, k, b, e)) : fs <+: gs := by
  induction vs generalizing emb fs n d with
  | nil =>
    cases h
    exact List.prefix_refl _
  | cons v vs ih =>
    obtain ⟨f, e1, _, _, -, h⟩ := fields_step h
    exact (List.prefix_append _ _).trans (ih h)

theorem snoc_prefix {α : Type} {l gs : List α} {a b : α} (ha : l ++ [a] <+: gs) (hb : l ++ [b] <+: gs) : a = b := by
  obtain ⟨t, rfl⟩ := ha
  obtain ⟨u, hu⟩ := hb
  simp only [List.append_assoc, List.append_cancel_left_eq, List.cons_append, List.nil_append, List.cons.injEq] at hu
  exact hu.1.symm

theorem fields_alike_of {q : Protocol} {vs vs' : List Model.MField} (hv : Model.MField.ListRaised vs vs')
    {emb emb' e e' : List Nat} {fs gs : List MField} {n n' k k' : Nat} {d d' b b' : Bool}
    (h : Message.fieldsFromModel q emb fs n d vs = .ok (gs, k, b, e))
    (h' : Message.fieldsFromModel q emb' fs n' d' vs' = .ok (gs, k', b', e')) : Model.MField.ListAlike vs vs' := by
  induction hv generalizing emb emb' fs n n' d d' with
  | nil => exact .nil
  | cons hn ho hi _ ih =>
    obtain ⟨f, e1, _, _, h1, h⟩ := fields_step h
    obtain ⟨f', e1', _, _, h1', h'⟩ := fields_step h'
    cases snoc_prefix (fields_prefix h) (fields_prefix h')
    exact .cons hn ho (mfield_alike_of ho hi h1 h1') (ih h h')

theorem messages_prefix {vs : List Model.Message} {w w1 : World} {q r : Protocol}
    (h : Protocol.addMessages w q vs = .ok (r, w1)) : q.messages <+: r.messages := by
  induction vs generalizing w q with
  | nil =>
    cases h
    exact List.prefix_refl _
  | cons v vs ih =>
    obtain ⟨⟨m, e⟩, -, h⟩ := Res.bind_eq_ok.1 h
    exact (List.prefix_append _ _).trans (ih h)

theorem messages_alike_of {vs vs' : List Model.Message} (hv : Model.Message.ListRaised vs vs') {w w' w1 w1' : World}
    {q r : Protocol} (h : Protocol.addMessages w q vs = .ok (r, w1))
    (h' : Protocol.addMessages w' q vs' = .ok (r, w1')) : Model.Message.ListAlike vs vs' := by
  induction hv generalizing w w' q with
  | nil => exact .nil
  | cons hn hf _ ih =>
    obtain ⟨⟨m, e⟩, h1, h⟩ := Res.bind_eq_ok.1 h
    obtain ⟨⟨m', e'⟩, h1', h'⟩ := Res.bind_eq_ok.1 h'
    cases snoc_prefix (messages_prefix h) (messages_prefix h')
    obtain ⟨⟨gs, n1, d1, e2⟩, g1, g2⟩ := Res.bind_eq_ok.1 h1
    obtain ⟨⟨gs', n1', d1', e2'⟩, g1', g2'⟩ := Res.bind_eq_ok.1 h1'
    cases g2
    simp only [Res.pure_eq, Res.ok.injEq, Prod.mk.injEq, Message.mk.injEq] at g2'
    obtain ⟨⟨-, -, rfl, -⟩, -⟩ := g2'
    exact .cons hn (fields_alike_of hf g1 g1') (ih h h')

namespace Props

/-- C122: when the only change is that some lengths are wider, in the message or in messages inside of it at any
depth, a value is understood in either direction exactly if it has no value with such a length. -/
theorem C122_nested {c c' : Ctx} {m m' : Message} (hf : MField.ListDeeper m.fields m'.fields)
    (hm : m.tailGreedy c.emb = true) (hm' : m'.tailGreedy c'.emb = true) {vs : Env}
    (hv : m.Repr c (.msg vs)) (hv' : m'.Repr c' (.msg vs)) :
    (m'.parse c' (m.write c (.msg vs)).bytes = .ok ⟨(m.write c (.msg vs)).bytes.length, .msg vs⟩ ↔
      ¬ MField.ListTouched m.fields m'.fields vs) ∧
    (m.parse c (m'.write c' (.msg vs)).bytes = .ok ⟨(m'.write c' (.msg vs)).bytes.length, .msg vs⟩ ↔
      ¬ MField.ListTouched m.fields m'.fields vs) := by
  have key : (MField.ListTouched m.fields m'.fields vs ∧
        (m.wire (.msg vs)).length < (m'.wire (.msg vs)).length) ∨
      (¬ MField.ListTouched m.fields m'.fields vs ∧ m.wire (.msg vs) = m'.wire (.msg vs)) := by
    obtain ⟨_, _, fs, _⟩ := m
    obtain ⟨_, _, fs', _⟩ := m'
    simp only [Message.Repr] at hv
    obtain ⟨vs', e, hr⟩ := hv
    cases e
    exact hf.wire hr
  rcases key with ⟨ha, hl⟩ | ⟨ha, he⟩
  · refine ⟨⟨fun h => ?_, fun h => absurd ha h⟩, ⟨fun h => ?_, fun h => absurd ha h⟩⟩
    · have := C122_length hv hv' h; omega
    · have := C122_length hv' hv h; omega
  · refine ⟨⟨fun _ => ha, fun _ => ?_⟩, ⟨fun _ => ha, fun _ => ?_⟩⟩
    · rw [(C58_wire c hv).2, he]; exact C22_decode_wire c' hm' hv'
    · rw [(C58_wire c' hv').2, ← he]; exact C22_decode_wire c hm hv

/-- C122: a file in which limits are raised, in any messages, is compiled if it was before: to the same enums,
structures and unions, and to messages with the same names in the same order of which lengths are wider at most, also in the
messages inside of them. -/
theorem C122_files {p : Profile} {sv : Resolver} {w w1 : World} {d : Model.Protocol} {ms : List Model.Message}
    (hm : Model.Message.ListRaised d.messages ms) {r : Protocol} (h : Protocol.fromModel p sv w d = .ok (r, w1)) :
    ∃ r', Protocol.fromModel p sv w { d with messages := ms } = .ok (r', w1) ∧
      r' = { r with messagesByName := r'.messagesByName, messages := r'.messages } ∧
      Message.ListGrown r.messages r'.messages ∧ Message.ScopeGrown r.messagesByName r'.messagesByName := by
  obtain ⟨p1, p2, p3, p4, next, h1, h2, h3, h4, h5⟩ := (C44_phases _ _ _ _ _ _).1 h
  obtain ⟨r', h6, hr⟩ := messages_deeper hm ⟨rfl, .refl _, .refl _⟩ h5
  exact ⟨r', (C44_phases _ _ _ _ _ _).2 ⟨p1, p2, p3, p4, next, h1, h2, h3, h4, h6⟩, hr.rest, hr.messages,
    hr.scope⟩

/-- C122: limits that stay between 2^8, 2^16 and 2^32 make no difference at all: a file in which they are other ones
is compiled to the same or reported as the same error. -/
theorem C122_files_same (p : Profile) (sv : Resolver) (w : World) {d : Model.Protocol} {ms : List Model.Message}
    (hm : Model.Message.ListAlike d.messages ms) :
    Protocol.fromModel p sv w { d with messages := ms } = Protocol.fromModel p sv w d := by
  simp only [Protocol.fromModel, messages_alike hm, Protocol.empty]

/-- C122: and raised limits make a difference if one of them is not of that kind, in a file that compiles. -/
theorem C122_files_differ {p : Profile} {sv : Resolver} {w w1 : World} {d : Model.Protocol} {ms : List Model.Message}
    (hm : Model.Message.ListRaised d.messages ms) {r : Protocol} (h : Protocol.fromModel p sv w d = .ok (r, w1)) :
    Protocol.fromModel p sv w { d with messages := ms } = .ok (r, w1) ↔ Model.Message.ListAlike d.messages ms := by
  refine ⟨fun h' => ?_, fun hm => (C122_files_same p sv w hm).trans h⟩
  obtain ⟨p1, p2, p3, p4, next, h1, h2, h3, h4, h5⟩ := (C44_phases _ _ _ _ _ _).1 h
  obtain ⟨q1, q2, q3, q4, next', g1, g2, g3, g4, g5⟩ := (C44_phases _ _ _ _ _ _).1 h'
  cases h1.symm.trans g1
  cases h2.symm.trans g2
  cases h3.symm.trans g3
  cases h4.symm.trans g4
  exact messages_alike_of hm h5 g5

namespace Ex.Understand

/-- A message that contains the one whose second text may become longer. -/
def oldOuter : Message := .mk 42 "O".toList
  [.mk "m".toList (.ref (.message old)) false ⟨true, false⟩ .little] ⟨true, false⟩

def newOuter : Message := .mk 42 "O".toList
  [.mk "m".toList (.ref (.message new)) false ⟨true, false⟩ .little] ⟨true, false⟩

theorem deeper : MField.ListDeeper oldOuter.fields newOuter.fields :=
  .cons (.message (.cons (.same _) (.cons (.wider (.string (by decide))) .nil))) .nil

theorem outer_repr {m : Message} {vs : Env} (h : m.Repr Ex.ctx (.msg vs)) (sz : SizeInfo) :
    (Message.mk 42 "O".toList [.mk "m".toList (.ref (.message m)) false sz .little] sz).Repr Ex.ctx
      (.msg [("m".toList, .msg vs)]) := by
  simp only [Message.Repr, MField.ListRepr]
  refine ⟨_, rfl, _, _, rfl, ?_, rfl⟩
  simp only [MField.Repr, MFieldTy.Repr, Referenced.Repr, Bool.false_eq_true, if_false]
  exact h

/-- The new reader of the outer message loses the one in which the inner text is there, -/
example : newOuter.parse Ex.ctx (oldOuter.write Ex.ctx (.msg [("m".toList, .msg full)])).bytes ≠
    .ok ⟨(oldOuter.write Ex.ctx (.msg [("m".toList, .msg full)])).bytes.length, .msg [("m".toList, .msg full)]⟩ :=
  fun h => (C122_nested deeper (by decide) (by decide) (outer_repr full_old _) (outer_repr full_new _)).1.1 h
    (.required (.message (.later (.present (.length (.string (by decide)))))))

/-- and reads the one in which it is missing. -/
example : newOuter.parse Ex.ctx (oldOuter.write Ex.ctx (.msg [("m".toList, .msg without)])).bytes =
    .ok ⟨(oldOuter.write Ex.ctx (.msg [("m".toList, .msg without)])).bytes.length,
      .msg [("m".toList, .msg without)]⟩ := by
  refine (C122_nested deeper (by decide) (by decide) (outer_repr without_old _) (outer_repr without_new _)).1.2 ?_
  intro h
  cases h with
  | later h => cases h
  | required h =>
    cases h with
    | length h => cases h
    | message h =>
      cases h with
      | required h => exact h.ne rfl
      | later h =>
        cases h with
        | later h => cases h

/-- A file with a message, one that contains it and one with a list of it, -/
def oldFile : Model.Protocol where
  name := "p".toList
  messages := [⟨"M".toList, [⟨"s".toList, .string (some 255), false⟩]⟩,
    ⟨"O".toList, [⟨"m".toList, .item "M".toList, false⟩]⟩,
    ⟨"L".toList, [⟨"l".toList, .list 100 "M".toList, false⟩]⟩]

/-- and its revision, in which the text and the list may be longer. -/
def newMessages : List Model.Message :=
  [⟨"M".toList, [⟨"s".toList, .string (some 256), false⟩]⟩,
    ⟨"O".toList, [⟨"m".toList, .item "M".toList, false⟩]⟩,
    ⟨"L".toList, [⟨"l".toList, .list 70000 "M".toList, false⟩]⟩]

theorem file_raised : Model.Message.ListRaised oldFile.messages newMessages := by
  refine .cons rfl (.cons rfl rfl (.string ?_) .nil) (.cons rfl (.cons rfl rfl (.same _) .nil)
    (.cons rfl (.cons rfl rfl (.list _ ?_) .nil) .nil)) <;> decide

/-- Its messages stay alike; that the text is longer shows in the first two, and the list in the third. -/
example (r : Protocol) (w w1 : World) (p : Profile) (h : Protocol.fromModel p .none w oldFile = .ok (r, w1)) :
    ∃ r', Protocol.fromModel p .none w { oldFile with messages := newMessages } = .ok (r', w1) ∧
      Message.ListGrown r.messages r'.messages := by
  obtain ⟨r', h1, -, h2, -⟩ := C122_files file_raised h
  exact ⟨r', h1, h2⟩

/-- Limits of 200 and 4 instead of 255 and 100 are the same to the compiler. -/
example (p : Profile) (sv : Resolver) (w : World) :
    Protocol.fromModel p sv w { oldFile with messages :=
      [⟨"M".toList, [⟨"s".toList, .string (some 200), false⟩]⟩,
        ⟨"O".toList, [⟨"m".toList, .item "M".toList, false⟩]⟩,
        ⟨"L".toList, [⟨"l".toList, .list 4 "M".toList, false⟩]⟩] } = Protocol.fromModel p sv w oldFile := by
  refine C122_files_same p sv w (.cons rfl (.cons rfl rfl (.string ?_) .nil)
    (.cons rfl (.cons rfl rfl (.same _) .nil) (.cons rfl (.cons rfl rfl (.list _ ?_) .nil) .nil))) <;> rfl

/-- 256 instead of 255 is not. -/
example {p : Profile} {sv : Resolver} {w w1 : World} {r : Protocol}
    (h : Protocol.fromModel p sv w oldFile = .ok (r, w1)) :
    Protocol.fromModel p sv w { oldFile with messages := newMessages } ≠ .ok (r, w1) := by
  rw [ne_eq, C122_files_differ file_raised h]
  intro h
  cases h with
  | cons _ h _ =>
    cases h with
    | cons _ _ h _ =>
      cases h with
      | string h => exact absurd h (by decide)

/-- The file does compile. -/
example : ∃ r w1, Protocol.fromModel .checked .none ⟨0, []⟩ oldFile = .ok (r, w1) ∧ r.messages.length = 3 :=
  ⟨_, _, rfl, rfl⟩

end Ex.Understand

end Props

end Proto
