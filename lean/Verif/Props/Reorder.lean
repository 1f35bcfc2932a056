import Verif.Props.Grow
import Verif.Spec.Reorder

/-!
# C106: putting declarations and files in another order leaves the wire unchanged
-/

namespace Proto

theorem lookup_cons_ne {α : Type _} {n x : Name} {a : α} {l : List (Name × α)} (h : x ≠ n) :
    ((n, a) :: l).lookup x = l.lookup x := by
  simp only [List.lookup_cons, beq_eq_false_iff_ne.2 h]

/-! ### Matched lists -/

theorem Matched.nil {α : Type} {R : α → α → Prop} : Matched R [] [] := ⟨[], .nil, .nil⟩

theorem Matched.append {α : Type} {R : α → α → Prop} {l l' : List α} (h : Matched R l l') {a a' : α} (ha : R a a') :
    Matched R (l ++ [a]) (l' ++ [a']) := by
  obtain ⟨k, h1, h2⟩ := h
  exact ⟨k ++ [a'], h1.append_right _, forall₂_append h2 ha⟩

theorem Matched.swap {α : Type} {R : α → α → Prop} {l l' : List α} (h : Matched R l l') {a a' b b' : α} (ha : R a a')
    (hb : R b b') : Matched R (l ++ [a] ++ [b]) (l' ++ [b'] ++ [a']) := by
  obtain ⟨k, h1, h2⟩ := h
  refine ⟨k ++ [a'] ++ [b'], ?_, forall₂_append (forall₂_append h2 ha) hb⟩
  rw [List.append_assoc, List.append_assoc]
  exact h1.append (.swap _ _ _)

theorem Matched.refl {α : Type} {R : α → α → Prop} (hr : ∀ a, R a a) (l : List α) : Matched R l l :=
  ⟨l, .rfl, by induction l with
    | nil => exact .nil
    | cons a l ih => exact .cons (hr a) ih⟩

theorem Matched.imp {α : Type} {R S : α → α → Prop} {l l' : List α} (h : Matched R l l') (hi : ∀ a b, R a b → S a b) :
    Matched S l l' := by
  obtain ⟨k, h1, h2⟩ := h
  exact ⟨k, h1, h2.imp hi⟩

theorem forall₂_perm {α : Type} {R : α → α → Prop} {k l : List α} (hp : k.Perm l) {m : List α}
    (h : List.Forall₂ R l m) : ∃ j, j.Perm m ∧ List.Forall₂ R k j := by
  induction hp generalizing m with
  | nil =>
    cases h
    exact ⟨[], .nil, .nil⟩
  | cons a _ ih =>
    cases h with
    | cons ha h =>
      obtain ⟨j, h1, h2⟩ := ih h
      exact ⟨_ :: j, h1.cons _, .cons ha h2⟩
  | swap a b l =>
    cases h with
    | cons ha h =>
      cases h with
      | cons hb h => exact ⟨_, .swap _ _ _, .cons hb (.cons ha h)⟩
  | trans _ _ ih1 ih2 =>
    obtain ⟨j, h1, h2⟩ := ih2 h
    obtain ⟨i, h3, h4⟩ := ih1 h2
    exact ⟨i, h3.trans h1, h4⟩

theorem forall₂_trans {α : Type} {R S T : α → α → Prop} (ht : ∀ a b c, R a b → S b c → T a c) {l m n : List α}
    (h : List.Forall₂ R l m) (h' : List.Forall₂ S m n) : List.Forall₂ T l n := by
  induction h generalizing n with
  | nil =>
    cases h'
    exact .nil
  | cons ha _ ih =>
    cases h' with
    | cons hb h' => exact .cons (ht _ _ _ ha hb) (ih h')

theorem Matched.trans {α : Type} {R S T : α → α → Prop} (ht : ∀ a b c, R a b → S b c → T a c) {l m n : List α}
    (h : Matched R l m) (h' : Matched S m n) : Matched T l n := by
  obtain ⟨k, h1, h2⟩ := h
  obtain ⟨k', h3, h4⟩ := h'
  obtain ⟨j, h5, h6⟩ := forall₂_perm h1 h4
  exact ⟨j, h5.trans h3, forall₂_trans ht h2 h6⟩

/-! ### Identities -/

/-- Only identities differ. -/
def Revision.moved (f : Nat → Nat) : Revision := ⟨fun x => x, f⟩

theorem Revision.moved_faithful {f : Nat → Nat} (h : ∀ x y, f x = f y → x = y) : (Revision.moved f).Faithful :=
  ⟨fun _ _ h => h, fun _ h => h, h⟩

/-- The identities from `n` on become those in the list. -/
def Targets (f : Nat → Nat) (n : Nat) (fl : List Nat) : Prop := ∀ i x, fl[i]? = some x → f (n + i) = x

theorem Targets.tail {f : Nat → Nat} {n x : Nat} {fl : List Nat} (h : Targets f n (x :: fl)) :
    f n = x ∧ Targets f (n + 1) fl :=
  ⟨h 0 x rfl, fun i y hy => by
    rw [Nat.add_assoc, Nat.add_comm 1]
    exact h (i + 1) y (by simpa using hy)⟩

theorem Targets.split {f : Nat → Nat} {n : Nat} {fl fm : List Nat} (h : Targets f n (fl ++ fm)) :
    Targets f n fl ∧ Targets f (n + fl.length) fm := by
  constructor
  · intro i x hx
    refine h i x ?_
    rw [List.getElem?_append_left (List.getElem?_eq_some_iff.1 hx).1, hx]
  · intro i x hx
    rw [Nat.add_assoc]
    refine h _ x ?_
    rw [List.getElem?_append_right (Nat.le_add_right _ _), Nat.add_sub_cancel_left, hx]

/-- `Near`, with the identities that the items of the first list have in the second, which start at a number. -/
inductive Arranged {α : Type} (ok : α → α → Prop) : Nat → List Nat → List α → List α → Prop
  | nil {n} : Arranged ok n [] [] []
  | keep {n a fl l l'} : Arranged ok (n + 1) fl l l' → Arranged ok n (n :: fl) (a :: l) (a :: l')
  | swap {n a b fl l l'} : ok a b → Arranged ok (n + 1 + 1) fl l l' →
      Arranged ok n ((n + 1) :: n :: fl) (a :: b :: l) (b :: a :: l')

theorem Near.arranged {α : Type} {ok : α → α → Prop} {l l' : List α} (h : Near ok l l') (n : Nat) :
    ∃ fl, Arranged ok n fl l l' ∧ fl.Perm (List.range' n l.length) := by
  induction h generalizing n with
  | nil => exact ⟨[], .nil, .nil⟩
  | keep _ ih =>
    obtain ⟨fl, h1, h2⟩ := ih (n + 1)
    exact ⟨_, .keep h1, h2.cons n⟩
  | swap ho _ ih =>
    obtain ⟨fl, h1, h2⟩ := ih (n + 1 + 1)
    exact ⟨_, .swap ho h1, (List.Perm.swap _ _ _).trans ((h2.cons _).cons _)⟩

theorem Arranged.length {α : Type} {ok : α → α → Prop} {l l' : List α} {n : Nat} {fl : List Nat}
    (h : Arranged ok n fl l l') : fl.length = l.length ∧ l'.length = l.length := by
  induction h with
  | nil => exact ⟨rfl, rfl⟩
  | keep _ ih => exact ⟨congrArg (· + 1) ih.1, congrArg (· + 1) ih.2⟩
  | swap _ _ ih => exact ⟨congrArg (· + 1 + 1) ih.1, congrArg (· + 1 + 1) ih.2⟩

theorem Arranged.refl {α : Type} {ok : α → α → Prop} (l : List α) (n : Nat) :
    Arranged ok n (List.range' n l.length) l l := by
  induction l generalizing n with
  | nil => exact .nil
  | cons a l ih => exact .keep (ih (n + 1))

theorem Near.refl {α : Type} {ok : α → α → Prop} (l : List α) : Near ok l l := by
  induction l with
  | nil => exact .nil
  | cons a l ih => exact .keep ih

theorem Near.symm {α : Type} {ok : α → α → Prop} (ho : ∀ a b, ok a b → ok b a) {l l' : List α} (h : Near ok l l') :
    Near ok l' l := by
  induction h with
  | nil => exact .nil
  | keep _ ih => exact .keep ih
  | swap h _ ih => exact .swap (ho _ _ h) ih

/-! ### One file -/

/-- The same types and declarations, in any order. -/
structure Protocol.Same (f : Nat → Nat) (q q' : Protocol) : Prop extends q.Known (.moved f) q' where
  structs : Matched (Structure.Alike (.moved f)) q.structs q'.structs
  messages : Matched (Message.Alike (.moved f)) q.messages q'.messages
  enums : Matched Eq q.enums q'.enums

theorem MapAlike.swap {f : Nat → Nat} {R : α → α → Prop} {l l' : List (Name × α)} (h : MapAlike (.moved f) R l l')
    {n m : Name} {a a' b b' : α} (hn : n ≠ m) (ha : R a a') (hb : R b b') :
    MapAlike (.moved f) R ((m, b) :: (n, a) :: l) ((n, a') :: (m, b') :: l') := by
  intro x
  show (_ ∨ ∃ c c', _ = Option.some c ∧ ((n, a') :: (m, b') :: l').lookup x = Option.some c' ∧ _)
  by_cases e1 : x = n
  · subst e1
    exact .inr ⟨a, a', by rw [lookup_cons_ne hn, List.lookup_cons_self], by rw [List.lookup_cons_self], ha⟩
  · by_cases e2 : x = m
    · subst e2
      exact .inr ⟨b, b', by rw [List.lookup_cons_self], by rw [lookup_cons_ne e1, List.lookup_cons_self], hb⟩
    · have := h x
      rw [lookup_cons_ne e2, lookup_cons_ne e1]
      rcases this with ⟨h1, h2⟩ | ⟨c, c', h1, h2, h3⟩
      · refine .inl ⟨h1, ?_⟩
        show ((n, a') :: (m, b') :: l').lookup x = Option.none
        rw [lookup_cons_ne e1, lookup_cons_ne e2]
        exact h2
      · refine .inr ⟨c, c', h1, ?_, h3⟩
        rw [lookup_cons_ne e1, lookup_cons_ne e2]
        exact h2

/-- What an import finds. -/
inductive Entry
  | struct (s : Structure) (path : Name)
  | enum (e : Enum) (path : Name)
  | union (u : Union) (path : Name)
  | message (m : Message) (path : Name)

/-- And what becomes of the file. -/
def Entry.add (n : Name) (q : Protocol) : Entry → Protocol
  | .struct s path => { q with structsByName := (n, s) :: q.structsByName
                               typePathByName := (s.name, path) :: q.typePathByName }
  | .enum e path => { q with enumsByName := (n, e) :: q.enumsByName
                             typePathByName := (e.name, path) :: q.typePathByName }
  | .union u path => { q with unionsByName := (n, u) :: q.unionsByName
                              typePathByName := (u.name, path) :: q.typePathByName }
  | .message m path => { q with messagesByName := (n, m) :: q.messagesByName
                                typePathByName := (m.name, path) :: q.typePathByName }

inductive Entry.Alike (ρ : Revision) : Entry → Entry → Prop
  | struct {s s' x x'} : s.Alike ρ s' → Entry.Alike ρ (.struct s x) (.struct s' x')
  | enum {s s' x x'} : s.Alike ρ s' → Entry.Alike ρ (.enum s x) (.enum s' x')
  | union {s s' x x'} : s.Alike ρ s' → Entry.Alike ρ (.union s x) (.union s' x')
  | message {s s' x x'} : s.Alike ρ s' → Entry.Alike ρ (.message s x) (.message s' x')

theorem addImport_entry {f : Nat → Nat} {r r' : Resolver} (hr : r.Alike (.moved f) r') {v : Model.Import} {q q1 : Protocol}
    (h : Protocol.addImport r q v = .ok q1) :
    ∃ e e' : Entry, q1 = e.add v.typeName q ∧ e.Alike (.moved f) e' ∧
      ∀ q', Protocol.addImport r' q' v = .ok (e'.add v.typeName q') := by
  unfold Protocol.addImport at h ⊢
  obtain ⟨x, h1, h⟩ := Res.bind_eq_ok.1 h
  obtain ⟨x', h2, hx⟩ := hr.protocol _ _ (ofOption_ok h1)
  simp only [h2, Res.ofOption_some, Res.bind_ok]
  cases hs : x.structsByName.lookup v.typeName with
  | some s =>
    simp only [hs] at h
    obtain ⟨pa, h3, h⟩ := Res.bind_eq_ok.1 h
    obtain rfl := Res.ok.inj h
    obtain ⟨pa', h4⟩ := hr.path _ _ _ (ofOption_ok h3)
    obtain ⟨s', h5, h6⟩ := hx.structsByName.some hs
    simp only [Revision.moved] at h4 h5
    simp only [h5, h4, Res.ofOption_some, Res.bind_ok]
    exact ⟨.struct s pa, .struct s' pa', rfl, .struct h6, fun _ => rfl⟩
  | none =>
    simp only [hs] at h
    have h5 := hx.structsByName.none hs
    simp only [Revision.moved] at h5
    simp only [h5]
    cases he : x.enumsByName.lookup v.typeName with
    | some s =>
      simp only [he] at h
      obtain ⟨pa, h3, h⟩ := Res.bind_eq_ok.1 h
      obtain rfl := Res.ok.inj h
      obtain ⟨pa', h4⟩ := hr.path _ _ _ (ofOption_ok h3)
      obtain ⟨s', h5, h6⟩ := hx.enumsByName.some he
      simp only [Revision.moved] at h4 h5
      simp only [h5, h4, Res.ofOption_some, Res.bind_ok]
      exact ⟨.enum s pa, .enum s' pa', rfl, .enum h6, fun _ => rfl⟩
    | none =>
      simp only [he] at h
      have h5 := hx.enumsByName.none he
      simp only [Revision.moved] at h5
      simp only [h5]
      cases hu : x.unionsByName.lookup v.typeName with
      | some s =>
        simp only [hu] at h
        obtain ⟨pa, h3, h⟩ := Res.bind_eq_ok.1 h
        obtain rfl := Res.ok.inj h
        obtain ⟨pa', h4⟩ := hr.path _ _ _ (ofOption_ok h3)
        obtain ⟨s', h5, h6⟩ := hx.unionsByName.some hu
        simp only [Revision.moved] at h4 h5
        simp only [h5, h4, Res.ofOption_some, Res.bind_ok]
        exact ⟨.union s pa, .union s' pa', rfl, .union h6, fun _ => rfl⟩
      | none =>
        simp only [hu] at h
        have h5 := hx.unionsByName.none hu
        simp only [Revision.moved] at h5
        simp only [h5]
        obtain ⟨s, hm, h⟩ := Res.bind_eq_ok.1 h
        obtain ⟨pa, h3, h⟩ := Res.bind_eq_ok.1 h
        obtain rfl := Res.ok.inj h
        obtain ⟨pa', h4⟩ := hr.path _ _ _ (ofOption_ok h3)
        obtain ⟨s', h5, h6⟩ := hx.messagesByName.some (ofOption_ok hm)
        simp only [Revision.moved] at h4 h5
        simp only [h5, h4, Res.ofOption_some, Res.bind_ok]
        exact ⟨.message s pa, .message s' pa', rfl, .message h6, fun _ => rfl⟩

theorem Entry.add_declares (e : Entry) (n : Name) (q : Protocol) : (e.add n q).structs = q.structs ∧
    (e.add n q).messages = q.messages ∧ (e.add n q).enums = q.enums := by
  cases e <;> exact ⟨rfl, rfl, rfl⟩

variable {f : Nat → Nat} (hf : (Revision.moved f).Faithful)

include hf in
theorem Entry.Alike.one {e e' : Entry} (he : e.Alike (.moved f) e') (n : Name) {q q' : Protocol} (hq : q.Same f q') :
    (e.add n q).Same f (e'.add n q') := by
  cases he with
  | struct h => exact { hq with structsByName := hq.structsByName.cons hf rfl h }
  | enum h => exact { hq with enumsByName := hq.enumsByName.cons hf rfl h }
  | union h => exact { hq with unionsByName := hq.unionsByName.cons hf rfl h }
  | message h => exact { hq with messagesByName := hq.messagesByName.cons hf rfl h }

include hf in
theorem Entry.Alike.two {d d' e e' : Entry} (hd : d.Alike (.moved f) d') (he : e.Alike (.moved f) e') {n m : Name}
    (hn : n ≠ m) {q q' : Protocol} (hq : q.Same f q') :
    (e.add m (d.add n q)).Same f (d'.add n (e'.add m q')) := by
  cases hd with
  | struct h =>
    cases he with
    | struct h' => exact { hq with structsByName := hq.structsByName.swap hn h h' }
    | enum h' => exact { hq with structsByName := hq.structsByName.cons hf rfl h, enumsByName := hq.enumsByName.cons hf rfl h' }
    | union h' => exact { hq with structsByName := hq.structsByName.cons hf rfl h, unionsByName := hq.unionsByName.cons hf rfl h' }
    | message h' =>
      exact { hq with structsByName := hq.structsByName.cons hf rfl h, messagesByName := hq.messagesByName.cons hf rfl h' }
  | enum h =>
    cases he with
    | struct h' => exact { hq with enumsByName := hq.enumsByName.cons hf rfl h, structsByName := hq.structsByName.cons hf rfl h' }
    | enum h' => exact { hq with enumsByName := hq.enumsByName.swap hn h h' }
    | union h' => exact { hq with enumsByName := hq.enumsByName.cons hf rfl h, unionsByName := hq.unionsByName.cons hf rfl h' }
    | message h' =>
      exact { hq with enumsByName := hq.enumsByName.cons hf rfl h, messagesByName := hq.messagesByName.cons hf rfl h' }
  | union h =>
    cases he with
    | struct h' => exact { hq with unionsByName := hq.unionsByName.cons hf rfl h, structsByName := hq.structsByName.cons hf rfl h' }
    | enum h' => exact { hq with unionsByName := hq.unionsByName.cons hf rfl h, enumsByName := hq.enumsByName.cons hf rfl h' }
    | union h' => exact { hq with unionsByName := hq.unionsByName.swap hn h h' }
    | message h' =>
      exact { hq with unionsByName := hq.unionsByName.cons hf rfl h, messagesByName := hq.messagesByName.cons hf rfl h' }
  | message h =>
    cases he with
    | struct h' =>
      exact { hq with messagesByName := hq.messagesByName.cons hf rfl h, structsByName := hq.structsByName.cons hf rfl h' }
    | enum h' => exact { hq with messagesByName := hq.messagesByName.cons hf rfl h, enumsByName := hq.enumsByName.cons hf rfl h' }
    | union h' =>
      exact { hq with messagesByName := hq.messagesByName.cons hf rfl h, unionsByName := hq.unionsByName.cons hf rfl h' }
    | message h' => exact { hq with messagesByName := hq.messagesByName.swap hn h h' }

include hf in
theorem imports_near {r r' : Resolver} (hr : r.Alike (.moved f) r') {vs vs' : List Model.Import}
    (hv : Near (fun a b => a.typeName ≠ b.typeName) vs vs') {q q' q1 : Protocol}
    (hq : q.Same f q') (h : Protocol.addImports r q vs = .ok q1) :
    ∃ q1', Protocol.addImports r' q' vs' = .ok q1' ∧ q1.Same f q1' := by
  induction hv generalizing q q' with
  | nil =>
    obtain rfl := Res.ok.inj h
    exact ⟨q', rfl, hq⟩
  | keep _ ih =>
    obtain ⟨q2, h1, h⟩ := Res.bind_eq_ok.1 h
    obtain ⟨e, e', rfl, h2, h3⟩ := addImport_entry hr h1
    simp only [Protocol.addImports, h3, Res.bind_ok]
    exact ih (h2.one hf _ hq) h
  | swap hn _ ih =>
    obtain ⟨q2, h1, h⟩ := Res.bind_eq_ok.1 h
    obtain ⟨q3, h4, h⟩ := Res.bind_eq_ok.1 h
    obtain ⟨e, e', rfl, h2, h3⟩ := addImport_entry hr h1
    obtain ⟨d, d', rfl, h5, h6⟩ := addImport_entry hr h4
    simp only [Protocol.addImports, h3, h6, Res.bind_ok]
    exact ih (h2.two hf h5 hn hq) h

theorem Enum.Alike.refl (e : Enum) : e.Alike (.moved f) e := ⟨rfl, fun _ _ h => h⟩

theorem enum_fromModel_name {v : Model.Enum} {e : Enum} (h : Enum.fromModel v = .ok e) : e.name = v.name := by
  obtain ⟨_, _, h⟩ := Res.bind_eq_ok.1 h
  obtain rfl := Res.ok.inj h
  rfl

include hf in
theorem enums_near {vs vs' : List Model.Enum} (hv : Near (fun a b => a.name ≠ b.name) vs vs') {q q' q1 : Protocol}
    (hq : q.Same f q') (h : Protocol.addEnums q vs = .ok q1) :
    ∃ q1', Protocol.addEnums q' vs' = .ok q1' ∧ q1.Same f q1' := by
  induction hv generalizing q q' with
  | nil =>
    obtain rfl := Res.ok.inj h
    exact ⟨q', rfl, hq⟩
  | keep _ ih =>
    obtain ⟨e, h1, h⟩ := Res.bind_eq_ok.1 h
    simp only [Protocol.addEnums, h1, Res.bind_ok]
    refine ih ?_ h
    exact { hq with
      enumsByName := hq.enumsByName.cons hf rfl (.refl e)
      enums := hq.enums.append rfl }
  | swap hn _ ih =>
    obtain ⟨e, h1, h⟩ := Res.bind_eq_ok.1 h
    obtain ⟨d, h2, h⟩ := Res.bind_eq_ok.1 h
    simp only [Protocol.addEnums, h1, h2, Res.bind_ok]
    rw [← enum_fromModel_name h1, ← enum_fromModel_name h2] at hn
    refine ih ?_ h
    exact { hq with
      enumsByName := hq.enumsByName.swap hn (.refl e) (.refl d)
      enums := hq.enums.swap rfl rfl }

/-! Structures -/

theorem sfield_other {p : Profile} {structs : List (Name × Structure)} {enums : List (Name × Enum)} {e : Endian}
    {last : Nat} {v : Model.SField} {n : Name} {s : Structure} (hn : n ∉ v.typeNames) :
    SField.fromModel p ((n, s) :: structs) enums e last v = SField.fromModel p structs enums e last v := by
  obtain ⟨vn, info, view, len⟩ := v
  cases info with
  | struct t =>
    have : t ≠ n := by
      rintro rfl
      exact hn (by simp [Model.SField.typeNames])
    simp only [SField.fromModel, lookup_cons_ne this]
  | _ => rfl

theorem sfields_other {p : Profile} {structs : List (Name × Structure)} {enums : List (Name × Enum)} {e : Endian}
    {vs : List Model.SField} {n : Name} {s : Structure} (hn : ∀ v ∈ vs, n ∉ v.typeNames) {last : Nat} :
    SField.fromModels p ((n, s) :: structs) enums e last vs = SField.fromModels p structs enums e last vs := by
  induction vs generalizing last with
  | nil => rfl
  | cons v vs ih =>
    simp only [SField.fromModels, sfield_other (hn v List.mem_cons_self), ih (fun v hv => hn v (List.mem_cons_of_mem _ hv))]

theorem structure_other {p : Profile} {structs : List (Name × Structure)} {enums : List (Name × Enum)} {e : Endian}
    {i : Nat} {v : Model.Structure} {n : Name} {s : Structure} (hn : n ∉ v.typeNames) :
    Structure.fromModel p ((n, s) :: structs) enums e i v = Structure.fromModel p structs enums e i v := by
  simp only [Model.Structure.typeNames, List.mem_cons, List.mem_flatMap, not_or, not_exists, not_and] at hn
  simp only [Structure.fromModel, sfields_other hn.2]

theorem structure_fromModel_name {p : Profile} {structs : List (Name × Structure)} {enums : List (Name × Enum)}
    {e : Endian} {i : Nat} {v : Model.Structure} {s : Structure}
    (h : Structure.fromModel p structs enums e i v = .ok s) : s.name = v.name := by
  obtain ⟨_, _, h⟩ := Res.bind_eq_ok.1 h
  obtain rfl := Res.ok.inj h
  rfl

theorem Model.Structure.revised_id (v : Model.Structure) : v.revised (fun x => x) = v := Model.Structure.revised_fixed fun _ _ => rfl

theorem Model.Union.revised_id (v : Model.Union) : v.revised (fun x => x) = v := Model.Union.revised_fixed fun _ _ => rfl

theorem Model.Message.revised_id (v : Model.Message) : v.revised (fun x => x) = v := Model.Message.revised_fixed fun _ _ => rfl

include hf in
theorem structure_moved {p : Profile} {q q' : Protocol} (hq : q.Same f q') {i : Nat} {v : Model.Structure} {s : Structure}
    (h : Structure.fromModel p q.structsByName q.enumsByName q.endianness i v = .ok s) :
    ∃ s', Structure.fromModel p q'.structsByName q'.enumsByName q'.endianness (f i) v = .ok s' ∧
      s.Alike (.moved f) s' := by
  obtain ⟨s', h1, h2⟩ := structure_revised hf hq.structsByName hq.enumsByName h
  rw [hq.endianness]
  exact ⟨s', (congrArg _ (Model.Structure.revised_id v)).symm.trans h1, h2⟩

include hf in
theorem structs_arranged {p : Profile} {vs vs' : List Model.Structure} {n' : Nat} {fl : List Nat}
    (hv : Arranged (fun a b : Model.Structure => a.name ∉ b.typeNames ∧ b.name ∉ a.typeNames) n' fl vs vs')
    {q q' q1 : Protocol} {n n1 : Nat} (hq : q.Same f q') (ht : Targets f n fl)
    (h : Protocol.addStructs p n q vs = .ok (q1, n1)) :
    n1 = n + fl.length ∧ ∃ q1', Protocol.addStructs p n' q' vs' = .ok (q1', n' + fl.length) ∧ q1.Same f q1' := by
  induction hv generalizing q q' n with
  | nil =>
    obtain ⟨rfl, rfl⟩ := Prod.mk.inj (Res.ok.inj h)
    exact ⟨rfl, q', rfl, hq⟩
  | keep _ ih =>
    obtain ⟨s, h1, h⟩ := Res.bind_eq_ok.1 h
    obtain ⟨s', h2, h3⟩ := structure_moved hf hq h1
    obtain ⟨t1, t2⟩ := ht.tail
    rw [t1] at h2
    have hs : Protocol.Same f
        { q with structsByName := (s.name, s) :: q.structsByName, structs := q.structs ++ [s] }
        { q' with structsByName := (s'.name, s') :: q'.structsByName, structs := q'.structs ++ [s'] } := { hq with
      structsByName := hq.structsByName.cons hf h3.name h3
      structs := hq.structs.append h3 }
    obtain ⟨h4, q1', h5, h6⟩ := ih hs t2 h
    refine ⟨by rw [h4, List.length_cons]; omega, q1', ?_, h6⟩
    simp only [Protocol.addStructs, h2, Res.bind_ok, h5, List.length_cons]
    congr 2
    omega
  | @swap n' a b _ _ _ hn _ ih =>
    obtain ⟨s, h1, h⟩ := Res.bind_eq_ok.1 h
    obtain ⟨u, h2, h⟩ := Res.bind_eq_ok.1 h
    have e1 := structure_fromModel_name h1
    have e2 := structure_fromModel_name h2
    rw [structure_other (e1 ▸ hn.1)] at h2
    obtain ⟨t1, t2⟩ := ht.tail
    obtain ⟨t2, t3⟩ := t2.tail
    obtain ⟨s', h3, h4⟩ := structure_moved hf hq h1
    obtain ⟨u', h5, h6⟩ := structure_moved hf hq h2
    rw [t1] at h3
    rw [t2] at h5
    have e3 : u'.name = b.name := structure_fromModel_name h5
    have e4 : s'.name = a.name := structure_fromModel_name h3
    rw [← structure_other (s := u') (e3 ▸ hn.2)] at h3
    have hne : s.name ≠ u.name := by
      rw [e1, e2]
      intro e
      exact hn.1 (by rw [e]; simp [Model.Structure.typeNames])
    have hs : Protocol.Same f
        { q with structsByName := (u.name, u) :: (s.name, s) :: q.structsByName, structs := q.structs ++ [s] ++ [u] }
        { q' with structsByName := (s'.name, s') :: (u'.name, u') :: q'.structsByName
                  structs := q'.structs ++ [u'] ++ [s'] } := { hq with
      structsByName := by
        rw [e4, e3, ← e1, ← e2]
        exact hq.structsByName.swap hne h4 h6
      structs := hq.structs.swap h4 h6 }
    obtain ⟨h7, q1', h8, h9⟩ := ih hs t3 h
    refine ⟨by rw [h7, List.length_cons, List.length_cons]; omega, q1', ?_, h9⟩
    simp only [Protocol.addStructs, h5, h3, Res.bind_ok, h8, List.length_cons]
    congr 2
    omega

include hf in
theorem union_moved {q q' : Protocol} (hq : q.Same f q') {v : Model.Union} {u : Union}
    (h : Union.fromModel q v = .ok u) : ∃ u', Union.fromModel q' v = .ok u' ∧ u.Alike (.moved f) u' := by
  obtain ⟨s', h1, h2⟩ := union_revised hf hq.toKnown h
  exact ⟨s', (congrArg _ (Model.Union.revised_id v)).symm.trans h1, h2⟩

theorem union_fromModel_name {q : Protocol} {v : Model.Union} {u : Union} (h : Union.fromModel q v = .ok u) :
    u.name = v.name := by
  obtain ⟨_, _, h⟩ := Res.bind_eq_ok.1 h
  obtain ⟨_, _, h⟩ := Res.bind_eq_ok.1 h
  obtain rfl := Res.ok.inj h
  rfl

theorem referenced_unions {q q2 : Protocol} (h1 : q2.structsByName = q.structsByName)
    (h2 : q2.messagesByName = q.messagesByName) (n : Name) : Referenced.lookup q2 n = Referenced.lookup q n := by
  simp only [Referenced.lookup, h1, h2]

theorem union_other {q q2 : Protocol} (h1 : q2.structsByName = q.structsByName)
    (h2 : q2.messagesByName = q.messagesByName) (v : Model.Union) : Union.fromModel q2 v = Union.fromModel q v := by
  have hc : ∀ d ks, Union.casesFromModel q2 d ks = Union.casesFromModel q d ks := by
    intro d ks
    induction ks with
    | nil => rfl
    | cons k ks ih =>
      obtain ⟨kn, kc, kt⟩ := k
      cases kt with
      | none => simp only [Union.casesFromModel, UCase.fromModel, UCase.content, ih]
      | some t => simp only [Union.casesFromModel, UCase.fromModel, UCase.content, ih, referenced_unions h1 h2]
  simp only [Union.fromModel, Discriminant.fromModel, h1, hc]

include hf in
theorem unions_near {vs vs' : List Model.Union} (hv : Near (fun a b => a.name ≠ b.name) vs vs') {q q' q1 : Protocol}
    (hq : q.Same f q') (h : Protocol.addUnions q vs = .ok q1) :
    ∃ q1', Protocol.addUnions q' vs' = .ok q1' ∧ q1.Same f q1' := by
  induction hv generalizing q q' with
  | nil =>
    obtain rfl := Res.ok.inj h
    exact ⟨q', rfl, hq⟩
  | keep _ ih =>
    obtain ⟨u, h1, h⟩ := Res.bind_eq_ok.1 h
    obtain ⟨u', h2, h3⟩ := union_moved hf hq h1
    simp only [Protocol.addUnions, h2, Res.bind_ok]
    refine ih ?_ h
    exact { hq with unionsByName := hq.unionsByName.cons hf h3.name h3 }
  | @swap a b _ _ hn _ ih =>
    obtain ⟨u, h1, h⟩ := Res.bind_eq_ok.1 h
    obtain ⟨w, h2, h⟩ := Res.bind_eq_ok.1 h
    have e1 := union_fromModel_name h1
    have e2 := union_fromModel_name h2
    have h2 := (union_other (q := q)
      (q2 := { q with unionsByName := (u.name, u) :: q.unionsByName, unions := q.unions ++ [u] }) rfl rfl b).symm.trans h2
    obtain ⟨u', h3, h4⟩ := union_moved hf hq h1
    obtain ⟨w', h5, h6⟩ := union_moved hf hq h2
    have e3 : u'.name = u.name := h4.name
    have e4 : w'.name = w.name := h6.name
    have h3 := (union_other (q := q')
      (q2 := { q' with unionsByName := (w'.name, w') :: q'.unionsByName, unions := q'.unions ++ [w'] }) rfl rfl a).trans h3
    simp only [Protocol.addUnions, h5, h3, Res.bind_ok]
    refine ih ?_ h
    exact { hq with
      unionsByName := by
        rw [e3, e4]
        exact hq.unionsByName.swap (by rw [e1, e2]; exact hn) h4 h6 }

/-! Messages -/

theorem mfield_other {q q2 : Protocol} (h1 : q2.structsByName = q.structsByName) (h2 : q2.unionsByName = q.unionsByName)
    (h3 : q2.endianness = q.endianness) {emb : List Nat} {fs : List MField} {v : Model.MField}
    (h4 : ∀ t ∈ v.typeNames, q2.messagesByName.lookup t = q.messagesByName.lookup t) :
    MField.fromModel q2 emb fs v = MField.fromModel q emb fs v := by
  obtain ⟨n, info, o⟩ := v
  cases info with
  | item t =>
    have : Referenced.lookup q2 t = Referenced.lookup q t := by
      simp only [Referenced.lookup, h1, h4 t (by simp [Model.MField.typeNames])]
    simp only [MField.fromModel, this, h3]
  | list k t =>
    have : Referenced.lookup q2 t = Referenced.lookup q t := by
      simp only [Referenced.lookup, h1, h4 t (by simp [Model.MField.typeNames])]
    simp only [MField.fromModel, this, h3]
  | string k => cases k <;> simp only [MField.fromModel, h3]
  | union on t => simp only [MField.fromModel, h2, h3]
  | payload => simp only [MField.fromModel, h3]

theorem mfields_other {q q2 : Protocol} (h1 : q2.structsByName = q.structsByName) (h2 : q2.unionsByName = q.unionsByName)
    (h3 : q2.endianness = q.endianness) {vs : List Model.MField}
    (h4 : ∀ v ∈ vs, ∀ t ∈ v.typeNames, q2.messagesByName.lookup t = q.messagesByName.lookup t) {emb : List Nat}
    {fs : List MField} {n : Nat} {d : Bool} :
    Message.fieldsFromModel q2 emb fs n d vs = Message.fieldsFromModel q emb fs n d vs := by
  induction vs generalizing emb fs n d with
  | nil => rfl
  | cons v vs ih =>
    simp only [Message.fieldsFromModel, mfield_other h1 h2 h3 (h4 v List.mem_cons_self),
      ih (fun v hv => h4 v (List.mem_cons_of_mem _ hv))]

theorem message_other {q q2 : Protocol} (h1 : q2.structsByName = q.structsByName) (h2 : q2.unionsByName = q.unionsByName)
    (h3 : q2.endianness = q.endianness) {v : Model.Message} {n : Name} {m : Message} (hn : n ∉ v.typeNames)
    (h4 : q2.messagesByName = (n, m) :: q.messagesByName) {emb : List Nat} {i : Nat} :
    Message.fromModel q2 emb i v = Message.fromModel q emb i v := by
  simp only [Model.Message.typeNames, List.mem_cons, List.mem_flatMap, not_or, not_exists, not_and] at hn
  have : ∀ g ∈ v.fields, ∀ t ∈ g.typeNames, q2.messagesByName.lookup t = q.messagesByName.lookup t := by
    intro g hg t ht
    rw [h4, lookup_cons_ne]
    rintro rfl
    exact hn.2 g hg ht
  simp only [Message.fromModel, mfields_other h1 h2 h3 this]

include hf in
theorem message_moved {q q' : Protocol} (hq : q.Same f q') {emb emb1 : List Nat} {i : Nat} {v : Model.Message}
    {m : Message} (h : Message.fromModel q emb i v = .ok (m, emb1)) :
    ∃ m' added, emb1 = added ++ emb ∧ m.Alike (.moved f) m' ∧
      ∀ emb', Message.fromModel q' emb' (f i) v = .ok (m', added.map f ++ emb') := by
  obtain ⟨m', added, h1, h2, h3⟩ := message_revised hf hq.toKnown h
  exact ⟨m', added, h1, h2, fun emb' => (congrArg _ (Model.Message.revised_id v)).symm.trans (h3 emb')⟩

include hf in
theorem SameItems.map (l : List Nat) : SameItems (.moved f) l (l.map f) := by
  have := SameItems.keep hf (emb := []) (emb' := []) (fun _ => by simp) l
  rwa [List.append_nil, List.append_nil] at this

theorem SameItems.append {l m l' m' : List Nat} (h : SameItems (.moved f) l l') (h' : SameItems (.moved f) m m') :
    SameItems (.moved f) (l ++ m) (l' ++ m') := fun i => by
  simp only [List.mem_append, h i, h' i]

include hf in
theorem messages_arranged {vs vs' : List Model.Message} {n' : Nat} {fl : List Nat}
    (hv : Arranged (fun a b : Model.Message => a.name ∉ b.typeNames ∧ b.name ∉ a.typeNames) n' fl vs vs')
    {q q' q1 : Protocol} {w w1 : World} (hq : q.Same f q') (ht : Targets f w.next fl)
    (h : Protocol.addMessages w q vs = .ok (q1, w1)) :
    w1.next = w.next + fl.length ∧ ∃ added added' q1', w1.embedded = added ++ w.embedded ∧
      SameItems (.moved f) added added' ∧ q1.Same f q1' ∧
        ∀ emb', Protocol.addMessages ⟨n', emb'⟩ q' vs' = .ok (q1', ⟨n' + fl.length, added' ++ emb'⟩) := by
  induction hv generalizing q q' w with
  | nil =>
    obtain ⟨rfl, rfl⟩ := Prod.mk.inj (Res.ok.inj h)
    exact ⟨rfl, [], [], q', rfl, fun _ => by simp, hq, fun _ => rfl⟩
  | keep _ ih =>
    obtain ⟨⟨m, emb⟩, h1, h⟩ := Res.bind_eq_ok.1 h
    obtain ⟨m', a, rfl, h3, h2⟩ := message_moved hf hq h1
    obtain ⟨t1, t2⟩ := ht.tail
    rw [t1] at h2
    have hs : Protocol.Same f
        { q with messagesByName := (m.name, m) :: q.messagesByName, messages := q.messages ++ [m] }
        { q' with messagesByName := (m'.name, m') :: q'.messagesByName, messages := q'.messages ++ [m'] } := { hq with
      messagesByName := hq.messagesByName.cons hf h3.name h3
      messages := hq.messages.append h3 }
    obtain ⟨h4, b, b', q1', h5, h6, h7, h8⟩ := ih (w := ⟨w.next + 1, a ++ w.embedded⟩) hs t2 h
    refine ⟨by rw [h4, List.length_cons]; simp only; omega, b ++ a, b' ++ a.map f, q1', by rw [h5]; simp,
      h6.append (.map hf a), h7, fun emb' => ?_⟩
    simp only [Protocol.addMessages, h2, Res.bind_ok, h8, List.length_cons, List.append_assoc]
    congr 3
    omega
  | @swap n' a b _ _ _ hn _ ih =>
    obtain ⟨⟨m, emb⟩, h1, h⟩ := Res.bind_eq_ok.1 h
    obtain ⟨⟨k, emb2⟩, h2, h⟩ := Res.bind_eq_ok.1 h
    have e1 := (message_name h1).1
    have e2 := (message_name h2).1
    have h2 := (message_other (q := q)
      (q2 := { q with messagesByName := (m.name, m) :: q.messagesByName, messages := q.messages ++ [m] })
      rfl rfl rfl (e1 ▸ hn.1) rfl).symm.trans h2
    obtain ⟨t1, t2⟩ := ht.tail
    obtain ⟨t2, t3⟩ := t2.tail
    obtain ⟨m', x, rfl, h3, h4⟩ := message_moved hf hq h1
    obtain ⟨k', y, rfl, h5, h6⟩ := message_moved hf hq h2
    rw [t1] at h4
    rw [t2] at h6
    have e3 : k'.name = b.name := (message_name (h6 [])).1
    have e4 : m'.name = a.name := (message_name (h4 [])).1
    have hne : m.name ≠ k.name := by
      rw [e1, e2]
      intro e
      exact hn.1 (by rw [e]; simp [Model.Message.typeNames])
    have hs : Protocol.Same f
        { q with messagesByName := (k.name, k) :: (m.name, m) :: q.messagesByName
                 messages := q.messages ++ [m] ++ [k] }
        { q' with messagesByName := (m'.name, m') :: (k'.name, k') :: q'.messagesByName
                  messages := q'.messages ++ [k'] ++ [m'] } := { hq with
      messagesByName := by
        rw [e4, e3, ← e1, ← e2]
        exact hq.messagesByName.swap hne h3 h5
      messages := hq.messages.swap h3 h5 }
    obtain ⟨h7, z, z', q1', h8, h9, h10, h11⟩ := ih (w := ⟨w.next + 1 + 1, y ++ (x ++ w.embedded)⟩) hs t3 h
    refine ⟨by rw [h7, List.length_cons, List.length_cons]; simp only; omega, z ++ (y ++ x), z' ++ (x.map f ++ y.map f), q1',
      by rw [h8]; simp, h9.append fun i => ?_, h10, fun emb' => ?_⟩
    · rw [List.mem_append, List.mem_append, SameItems.map hf x i, SameItems.map hf y i, or_comm]
    · have h4 := fun emb' => (message_other (q := q')
        (q2 := { q' with messagesByName := (k'.name, k') :: q'.messagesByName, messages := q'.messages ++ [k'] })
        rfl rfl rfl (e3 ▸ hn.2) rfl).trans (h4 emb')
      simp only [Protocol.addMessages, h6, h4, Res.bind_ok, h11]
      simp only [List.length_cons, List.append_assoc]
      congr 3
      omega

/-! ### Files -/

/-- `Model.Protocol.Near`, with the identities of structures and messages. -/
structure Model.Protocol.Arranged (n : Nat) (fl : List Nat) (v v' : Protocol) : Prop extends v.Near v' where
  ids : ∃ fs fm, fl = fs ++ fm ∧
    Proto.Arranged (fun a b : Structure => a.name ∉ b.typeNames ∧ b.name ∉ a.typeNames) n fs v.structs v'.structs ∧
    Proto.Arranged (fun a b : Message => a.name ∉ b.typeNames ∧ b.name ∉ a.typeNames) (n + fs.length) fm
      v.messages v'.messages

theorem Model.Protocol.Near.arranged {v v' : Model.Protocol} (h : v.Near v') (n : Nat) :
    ∃ fl, v.Arranged n fl v' ∧ fl.Perm (List.range' n v.count) := by
  obtain ⟨fs, h1, h2⟩ := h.structs.arranged n
  obtain ⟨fm, h3, h4⟩ := h.messages.arranged (n + fs.length)
  refine ⟨fs ++ fm, ⟨h, fs, fm, rfl, h1, h3⟩, ?_⟩
  rw [Model.Protocol.count, ← List.range'_append_1, ← h1.length.1]
  rw [h1.length.1] at h4 ⊢
  exact h2.append h4

theorem Model.Protocol.Near.refl (v : Model.Protocol) : v.Near v :=
  ⟨rfl, .refl _, .refl _, .refl _, .refl _, .refl _⟩

theorem Model.Protocol.Near.symm {v v' : Model.Protocol} (h : v.Near v') : v'.Near v :=
  ⟨h.name.symm, h.imports.symm fun _ _ h => h.symm, h.enums.symm fun _ _ h => h.symm, h.structs.symm fun _ _ h => h.symm,
    h.unions.symm fun _ _ h => h.symm, h.messages.symm fun _ _ h => h.symm⟩

include hf in
theorem protocol_arranged {p : Profile} {r r' : Resolver} (hr : r.Alike (.moved f) r') {v v' : Model.Protocol}
    {n' : Nat} {fl : List Nat} (hv : v.Arranged n' fl v') {w w1 : World} (ht : Targets f w.next fl) {q : Protocol}
    (h : Protocol.fromModel p r w v = .ok (q, w1)) :
    w1.next = w.next + fl.length ∧ ∃ added added' q', w1.embedded = added ++ w.embedded ∧
      SameItems (.moved f) added added' ∧ q.Same f q' ∧
        ∀ emb', Protocol.fromModel p r' ⟨n', emb'⟩ v' = .ok (q', ⟨n' + fl.length, added' ++ emb'⟩) := by
  obtain ⟨fs, fm, rfl, hs, hm⟩ := hv.ids
  obtain ⟨t1, t2⟩ := ht.split
  obtain ⟨q1, h1, h⟩ := Res.bind_eq_ok.1 h
  obtain ⟨q2, h2, h⟩ := Res.bind_eq_ok.1 h
  obtain ⟨⟨q3, n3⟩, h3, h⟩ := Res.bind_eq_ok.1 h
  obtain ⟨q4, h4, h⟩ := Res.bind_eq_ok.1 h
  have a0 : (Protocol.empty v).Same f (Protocol.empty v') :=
    ⟨⟨hv.name, rfl, .nil, .nil, .nil, .nil⟩, .nil, .nil, .nil⟩
  obtain ⟨q1', b1, a1⟩ := imports_near hf hr hv.imports a0 h1
  obtain ⟨q2', b2, a2⟩ := enums_near hf hv.enums a1 h2
  obtain ⟨rfl, q3', b3, a3⟩ := structs_arranged hf hs a2 t1 h3
  obtain ⟨q4', b4, a4⟩ := unions_near hf hv.unions a3 h4
  obtain ⟨c, added, added', q', c1, c2, c3, c4⟩ := messages_arranged hf hm (w := ⟨w.next + fs.length, w.embedded⟩) a4 t2 h
  refine ⟨by rw [c, List.length_append, Nat.add_assoc], added, added', q', c1, c2, c3, fun emb' => ?_⟩
  simp only [Protocol.fromModel, b1, b2, b3, b4, Res.bind_ok, c4, List.length_append, Nat.add_assoc]

/-- What a file imports is all that matters of the solver. -/
theorem protocol_other {p : Profile} {r r' : Resolver} {v : Model.Protocol}
    (h1 : ∀ i ∈ v.imports, r'.protocolByName i.protocol = r.protocolByName i.protocol)
    (h2 : ∀ i ∈ v.imports, r'.fullTypePath i.protocol i.typeName = r.fullTypePath i.protocol i.typeName) (w : World) :
    Protocol.fromModel p r' w v = Protocol.fromModel p r w v := by
  have : ∀ q, Protocol.addImports r' q v.imports = Protocol.addImports r q v.imports := by
    generalize v.imports = vs at h1 h2
    induction vs with
    | nil => exact fun _ => rfl
    | cons i vs ih =>
      intro q
      simp only [Protocol.addImports, Protocol.addImport, h1 i List.mem_cons_self, h2 i List.mem_cons_self,
        ih (fun i hi => h1 i (List.mem_cons_of_mem _ hi)) (fun i hi => h2 i (List.mem_cons_of_mem _ hi))]
  simp only [Protocol.fromModel, this]

theorem register_other {p : Profile} {s : SimpleImportSolver} {path : Name} {q : Protocol} {v : Model.Protocol}
    (h : ∀ i ∈ v.imports, i.protocol ≠ q.name) (w : World) :
    Protocol.fromModel p (s.register path q).resolver w v = Protocol.fromModel p s.resolver w v :=
  protocol_other (fun i hi => by simp only [SimpleImportSolver.register, SimpleImportSolver.resolver, lookup_cons_ne (h i hi)])
    (fun i hi => by simp only [SimpleImportSolver.register, SimpleImportSolver.resolver, lookup_cons_ne (h i hi)]) w

/-! ### Builds -/

/-- `FilesNear` with the identities of structures and messages. -/
inductive FilesArranged {α : Type} (near : Nat → List Nat → α → α → Prop) (ok : α → α → Prop) :
    Nat → List Nat → List α → List α → Prop
  | nil {n} : FilesArranged near ok n [] [] []
  | keep {n fl fl' a a' l l'} : near n fl a a' → FilesArranged near ok (n + fl.length) fl' l l' →
      FilesArranged near ok n (fl ++ fl') (a :: l) (a' :: l')
  | swap {n fa fb fl a b l l'} : ok a b → near (n + fb.length) fa a a → near n fb b b →
      FilesArranged near ok (n + fb.length + fa.length) fl l l' →
      FilesArranged near ok n (fa ++ (fb ++ fl)) (a :: b :: l) (b :: a :: l')

theorem FilesNear.arranged {α : Type} {near ok : α → α → Prop} {l l' : List α} (h : FilesNear near ok l l')
    {near' : Nat → List Nat → α → α → Prop} {count : α → Nat} (hr : ∀ a, near a a)
    (hn : ∀ n a a', near a a' → ∃ fl, near' n fl a a' ∧ fl.Perm (List.range' n (count a))) (n : Nat) :
    ∃ fl, FilesArranged near' ok n fl l l' ∧ fl.Perm (List.range' n (l.map count).sum) := by
  induction h generalizing n with
  | nil => exact ⟨[], .nil, .nil⟩
  | keep h _ ih =>
    obtain ⟨fl, h1, h2⟩ := hn n _ _ h
    obtain ⟨fl', h3, h4⟩ := ih (n + fl.length)
    refine ⟨_, .keep h1 h3, ?_⟩
    have e := h2.length_eq
    rw [List.length_range'] at e
    rw [List.map_cons, List.sum_cons, ← List.range'_append_1]
    rw [e] at h4
    exact h2.append h4
  | @swap a b l l' ho _ ih =>
    obtain ⟨fb, h1, h2⟩ := hn n _ _ (hr b)
    obtain ⟨fa, h3, h4⟩ := hn (n + fb.length) _ _ (hr a)
    obtain ⟨fl, h5, h6⟩ := ih (n + fb.length + fa.length)
    refine ⟨_, .swap ho h3 h1 h5, ?_⟩
    have e := h2.length_eq
    have e' := h4.length_eq
    rw [List.length_range'] at e e'
    rw [e'] at h6
    rw [e] at h4 h6
    rw [← List.append_assoc]
    refine (List.perm_append_comm.append_right fl).trans ?_
    have : (List.map count (a :: b :: l)).sum = count b + (count a + (List.map count l).sum) := by
      simp only [List.map_cons, List.sum_cons]
      omega
    rw [this, ← List.range'_append_1, ← List.range'_append_1, List.append_assoc]
    exact h2.append (h4.append h6)

/-- The solvers know the same files. -/
def SimpleImportSolver.Same (f : Nat → Nat) (s s' : SimpleImportSolver) : Prop :=
  ∀ n, (s.importMap.lookup n = none ∧ s'.importMap.lookup n = none) ∨
    ∃ x x', s.importMap.lookup n = some x ∧ s'.importMap.lookup n = some x' ∧ x.2.Known (.moved f) x'.2

theorem SimpleImportSolver.Same.alike {s s' : SimpleImportSolver} (h : s.Same f s') :
    s.resolver.Alike (.moved f) s'.resolver := by
  constructor
  · intro n x hx
    obtain ⟨y, hy, rfl⟩ := Option.map_eq_some_iff.1 hx
    rcases h n with ⟨h1, _⟩ | ⟨z, y', h1, h2, h3⟩
    · rw [hy] at h1
      cases h1
    · rw [hy] at h1
      obtain rfl := Option.some.inj h1
      exact ⟨y'.2, by simp only [SimpleImportSolver.resolver, h2, Option.map_some], h3⟩
  · intro n t x hx
    obtain ⟨y, hy, rfl⟩ := Option.map_eq_some_iff.1 hx
    rcases h n with ⟨h1, _⟩ | ⟨z, y', h1, h2, h3⟩
    · rw [hy] at h1
      cases h1
    · exact ⟨_, by simp only [SimpleImportSolver.resolver, h2, Option.map_some]; rfl⟩

theorem SimpleImportSolver.Same.one {s s' : SimpleImportSolver} (h : s.Same f s') {q q' : Protocol} (hq : q.Same f q')
    (path : Name) : (s.register path q).Same f (s'.register path q') := by
  intro n
  simp only [SimpleImportSolver.register, hq.name]
  by_cases e : n = q.name
  · subst e
    exact .inr ⟨_, _, List.lookup_cons_self, List.lookup_cons_self, hq.toKnown⟩
  · rw [lookup_cons_ne e, lookup_cons_ne e]
    exact h n

theorem SimpleImportSolver.Same.two {s s' : SimpleImportSolver} (h : s.Same f s') {q q' k k' : Protocol} (hq : q.Same f q')
    (hk : k.Same f k') (hn : q.name ≠ k.name) (path path' : Name) :
    ((s.register path q).register path' k).Same f ((s'.register path' k').register path q') := by
  intro n
  simp only [SimpleImportSolver.register, hq.name, hk.name]
  by_cases e : n = q.name
  · subst e
    exact .inr ⟨_, _, by rw [lookup_cons_ne hn, List.lookup_cons_self], List.lookup_cons_self, hq.toKnown⟩
  · by_cases e' : n = k.name
    · subst e'
      exact .inr ⟨_, _, List.lookup_cons_self, by rw [lookup_cons_ne e, List.lookup_cons_self], hk.toKnown⟩
    · rw [lookup_cons_ne e', lookup_cons_ne e, lookup_cons_ne e, lookup_cons_ne e']
      exact h n

include hf in
theorem compileImports_arranged {p : Profile} {vs vs' : List (Name × Model.Protocol)} {n' : Nat} {fl : List Nat}
    (hv : FilesArranged (fun n fl a b => b.1 = a.1 ∧ a.2.Arranged n fl b.2)
      (fun a b => a.2.name ≠ b.2.name ∧ (∀ i ∈ a.2.imports, i.protocol ≠ b.2.name) ∧
        ∀ i ∈ b.2.imports, i.protocol ≠ a.2.name) n' fl vs vs')
    {s s' s1 : SimpleImportSolver} (hs : s.Same f s') {w w1 : World} (ht : Targets f w.next fl)
    (h : Loader.compileImports p s w vs = .ok (s1, w1)) :
    w1.next = w.next + fl.length ∧ ∃ added added' s1', w1.embedded = added ++ w.embedded ∧
      SameItems (.moved f) added added' ∧ s1.Same f s1' ∧
        ∀ emb', Loader.compileImports p s' ⟨n', emb'⟩ vs' = .ok (s1', ⟨n' + fl.length, added' ++ emb'⟩) := by
  induction hv generalizing s s' w with
  | nil =>
    obtain ⟨rfl, rfl⟩ := Prod.mk.inj (Res.ok.inj h)
    exact ⟨rfl, [], [], s', rfl, fun _ => by simp, hs, fun _ => rfl⟩
  | @keep n' fl fl' a b _ _ hv _ ih =>
    obtain ⟨pa, va⟩ := a
    obtain ⟨pb, vb⟩ := b
    obtain ⟨e, hv⟩ := hv
    simp only at e hv
    subst e
    obtain ⟨⟨q, w2⟩, h1, h⟩ := Res.bind_eq_ok.1 h
    obtain ⟨t1, t2⟩ := ht.split
    obtain ⟨c, x, x', q', h2, h3, h4, h5⟩ := protocol_arranged hf hs.alike hv t1 h1
    rw [← c] at t2
    obtain ⟨d, y, y', s1', h6, h7, h8, h9⟩ := ih (hs.one h4 _) t2 h
    refine ⟨by rw [d, c, List.length_append]; omega, y ++ x, y' ++ x', s1', by rw [h6]; simp only [h2, List.append_assoc],
      h7.append h3, h8, fun emb' => ?_⟩
    simp only [Loader.compileImports, h5, Res.bind_ok, h9]
    simp only [List.length_append, List.append_assoc, Nat.add_assoc]
  | @swap n' fa fb fl a b _ _ ho ha hb _ ih =>
    obtain ⟨pa, va⟩ := a
    obtain ⟨pb, vb⟩ := b
    have ha := ha.2
    have hb := hb.2
    simp only at ho ha hb
    obtain ⟨⟨q, w2⟩, h1, h⟩ := Res.bind_eq_ok.1 h
    obtain ⟨⟨k, w3⟩, h2, h⟩ := Res.bind_eq_ok.1 h
    have eq := Props.fromModel_name h1
    have ek := Props.fromModel_name h2
    obtain ⟨t1, t2⟩ := ht.split
    obtain ⟨c, x, x', q', h3, h4, h5, h6⟩ := protocol_arranged hf hs.alike ha t1 h1
    rw [← c] at t2
    obtain ⟨t2, t3⟩ := t2.split
    rw [register_other (eq ▸ ho.2.2)] at h2
    obtain ⟨d, y, y', k', h7, h8, h9, h10⟩ := protocol_arranged hf hs.alike hb t2 h2
    rw [← d] at t3
    obtain ⟨e, z, z', s1', h11, h12, h13, h14⟩ := ih (hs.two h5 h9 (by rw [eq, ek]; exact ho.1) _ _) t3 h
    refine ⟨by rw [e, d, c, List.length_append, List.length_append]; omega, z ++ (y ++ x), z' ++ (x' ++ y'), s1',
      by rw [h11]; simp only [h7, h3, List.append_assoc], h12.append fun i => ?_, h13, fun emb' => ?_⟩
    · rw [List.mem_append, List.mem_append, h4 i, h8 i, or_comm]
    · have ek' : k'.name = vb.name := Props.fromModel_name (h10 [])
      have e' : fb.length + (fa.length + fl.length) = fa.length + (fb.length + fl.length) := by omega
      simp only [Loader.compileImports, h10, Res.bind_ok, register_other (ek'.symm ▸ ho.2.1), h6, h14]
      simp only [List.length_append, List.append_assoc, Nat.add_assoc, e']

include hf in
theorem compileModels_arranged {p : Profile} {vs vs' : List Model.Protocol} {n' : Nat} {fl : List Nat}
    (hv : FilesArranged Model.Protocol.Arranged (fun _ _ => True) n' fl vs vs') {r r' : Resolver}
    (hr : r.Alike (.moved f) r') {w w1 : World} (ht : Targets f w.next fl) {qs : List Protocol}
    (h : Loader.compileModels p r w vs = .ok (qs, w1)) :
    ∃ added added' qs', w1.embedded = added ++ w.embedded ∧
      SameItems (.moved f) added added' ∧ Matched (Protocol.Same f) qs qs' ∧
        ∀ emb', Loader.compileModels p r' ⟨n', emb'⟩ vs' = .ok (qs', ⟨n' + fl.length, added' ++ emb'⟩) := by
  induction hv generalizing w qs with
  | nil =>
    obtain ⟨rfl, rfl⟩ := Prod.mk.inj (Res.ok.inj h)
    exact ⟨[], [], [], rfl, fun _ => by simp, .nil, fun _ => rfl⟩
  | keep hv _ ih =>
    obtain ⟨⟨q, w2⟩, h1, h⟩ := Res.bind_eq_ok.1 h
    obtain ⟨⟨qs2, w3⟩, h2, h⟩ := Res.bind_eq_ok.1 h
    obtain ⟨rfl, rfl⟩ := Prod.mk.inj (Res.ok.inj h)
    obtain ⟨t1, t2⟩ := ht.split
    obtain ⟨c, x, x', q', h3, h4, h5, h6⟩ := protocol_arranged hf hr hv t1 h1
    rw [← c] at t2
    obtain ⟨y, y', qs', h7, h8, ⟨ks, h9, h10⟩, h11⟩ := ih t2 h2
    refine ⟨y ++ x, y' ++ x', q' :: qs', by rw [h7]; simp only [h3, List.append_assoc], h8.append h4,
      ⟨q' :: ks, h9.cons _, .cons h5 h10⟩, fun emb' => ?_⟩
    simp only [Loader.compileModels, h6, Res.bind_ok, h11]
    simp only [List.length_append, List.append_assoc, Nat.add_assoc]
    rfl
  | @swap n' fa fb fl a b _ _ _ ha hb _ ih =>
    obtain ⟨⟨q, w2⟩, h1, h⟩ := Res.bind_eq_ok.1 h
    obtain ⟨⟨qs2, w3⟩, g, h⟩ := Res.bind_eq_ok.1 h
    obtain ⟨rfl, rfl⟩ := Prod.mk.inj (Res.ok.inj h)
    obtain ⟨⟨k, w4⟩, h0, g⟩ := Res.bind_eq_ok.1 g
    obtain ⟨⟨qs3, w5⟩, h2, g⟩ := Res.bind_eq_ok.1 g
    obtain ⟨rfl, rfl⟩ := Prod.mk.inj (Res.ok.inj g)
    obtain ⟨t1, t2⟩ := ht.split
    obtain ⟨c, x, x', q', h3, h4, h5, h6⟩ := protocol_arranged hf hr ha t1 h1
    rw [← c] at t2
    obtain ⟨t2, t3⟩ := t2.split
    obtain ⟨d, y, y', k', h7, h8, h9, h10⟩ := protocol_arranged hf hr hb t2 h0
    rw [← d] at t3
    obtain ⟨z, z', qs', h11, h12, ⟨ks, h13, h14⟩, h15⟩ := ih t3 h2
    refine ⟨z ++ (y ++ x), z' ++ (x' ++ y'), k' :: q' :: qs', by rw [h11]; simp only [h7, h3, List.append_assoc],
      h12.append fun i => ?_, ⟨q' :: k' :: ks, (List.Perm.swap _ _ _).trans ((h13.cons _).cons _), .cons h5 (.cons h9 h14)⟩,
      fun emb' => ?_⟩
    · rw [List.mem_append, List.mem_append, h4 i, h8 i, or_comm]
    · have e' : fb.length + (fa.length + fl.length) = fa.length + (fb.length + fl.length) := by omega
      simp only [Loader.compileModels, h10, h6, Res.bind_ok, h15]
      simp only [List.length_append, List.append_assoc, Nat.add_assoc, e']
      rfl

/-- The identities of a list that starts at 0, and those after it. -/
def identity (fl : List Nat) (i : Nat) : Nat := (fl[i]?).getD i

theorem identity_targets (fl : List Nat) : Targets (identity fl) 0 fl := fun i x hx => by
  rw [Nat.zero_add, identity, hx, Option.getD_some]

theorem identity_injective {fl : List Nat} {n : Nat} (h : fl.Perm (List.range' 0 n)) (x y : Nat)
    (e : identity fl x = identity fl y) : x = y := by
  have hl : fl.length = n := by rw [h.length_eq, List.length_range']
  have hd : fl.Nodup := h.nodup_iff.2 List.nodup_range'
  have hm : ∀ i (hi : i < fl.length), fl[i] < n := fun i hi => by
    have := h.subset (List.getElem_mem hi)
    simpa using this
  unfold identity at e
  by_cases hx : x < fl.length
  · by_cases hy : y < fl.length
    · rw [List.getElem?_eq_getElem hx, List.getElem?_eq_getElem hy, Option.getD_some, Option.getD_some] at e
      exact (List.getElem_inj hd).1 e
    · rw [List.getElem?_eq_getElem hx, List.getElem?_eq_none (by omega), Option.getD_some, Option.getD_none] at e
      have := hm x hx
      omega
  · by_cases hy : y < fl.length
    · rw [List.getElem?_eq_none (by omega), List.getElem?_eq_getElem hy, Option.getD_some, Option.getD_none] at e
      have := hm y hy
      omega
    · rw [List.getElem?_eq_none (by omega), List.getElem?_eq_none (by omega)] at e
      exact e

/-- One step. -/
theorem compile_near {l l' : Loader} (hl : l.Near l') {p : Profile} {sep : Name} {w1 : World} {qs : List Protocol}
    (h : Loader.compile p l (SimpleImportSolver.new sep) ⟨0, []⟩ = .ok (qs, w1)) :
    ∃ (f : Nat → Nat) (qs' : List Protocol) (w1' : World), (Revision.moved f).Faithful ∧
      Loader.compile p l' (SimpleImportSolver.new sep) ⟨0, []⟩ = .ok (qs', w1') ∧
        Matched (Protocol.Same f) qs qs' ∧ SameItems (.moved f) w1.embedded w1'.embedded := by
  obtain ⟨fi, hi, pi⟩ := hl.imported.arranged (near' := fun n fl a b => b.1 = a.1 ∧ a.2.Arranged n fl b.2)
    (count := fun a => a.2.count) (fun a => ⟨rfl, .refl _⟩)
    (fun n a b hab => by
      obtain ⟨fl, h1, h2⟩ := hab.2.arranged n
      exact ⟨fl, ⟨hab.1, h1⟩, h2⟩) 0
  obtain ⟨fm, hm, pm⟩ := hl.models.arranged (near' := Model.Protocol.Arranged) (count := Model.Protocol.count)
    .refl (fun n a b hab => hab.arranged n) (0 + fi.length)
  have hp : (fi ++ fm).Perm (List.range' 0 ((l.importedModels.map fun a => a.2.count).sum +
      (l.models.map Model.Protocol.count).sum)) := by
    have e := pi.length_eq
    rw [List.length_range'] at e
    rw [← List.range'_append_1]
    rw [e] at pm
    exact pi.append pm
  have hf := Revision.moved_faithful (identity_injective hp)
  obtain ⟨t1, t2⟩ := (identity_targets (fi ++ fm)).split
  obtain ⟨⟨s1, w2⟩, h1, h⟩ := Res.bind_eq_ok.1 h
  obtain ⟨c, x, x', s1', h2, h3, h4, h5⟩ := compileImports_arranged hf hi (s := SimpleImportSolver.new sep)
    (s' := SimpleImportSolver.new sep) (fun n => .inl ⟨rfl, rfl⟩) (w := ⟨0, []⟩) t1 h1
  simp only at c
  rw [← c] at t2
  obtain ⟨y, y', qs', h6, h7, h8, h9⟩ := compileModels_arranged hf hm h4.alike t2 h
  refine ⟨_, qs', ⟨0 + fi.length + fm.length, y' ++ (x' ++ [])⟩, hf, ?_, h8, ?_⟩
  · simp only [Loader.compile, h5, Res.bind_ok, h9]
  · rw [h6, h2]
    exact h7.append (h3.append fun _ => by simp)

theorem FilesNear.symm {α : Type} {near ok : α → α → Prop} (hn : ∀ a b, near a b → near b a) (ho : ∀ a b, ok a b → ok b a)
    {l l' : List α} (h : FilesNear near ok l l') : FilesNear near ok l' l := by
  induction h with
  | nil => exact .nil
  | keep h _ ih => exact .keep (hn _ _ h) ih
  | swap h _ ih => exact .swap (ho _ _ h) ih

theorem Loader.Near.symm {l l' : Loader} (h : l.Near l') : l'.Near l :=
  ⟨h.imported.symm (fun _ _ h => ⟨h.1.symm, h.2.symm⟩) (fun _ _ h => ⟨h.1.symm, h.2.2, h.2.1⟩),
    h.models.symm (fun _ _ h => h.symm) fun _ _ h => h⟩

theorem Loader.Reordered.symm {l l' : Loader} (h : l.Reordered l') : l'.Reordered l := by
  induction h with
  | refl => exact .refl
  | tail _ h ih => exact .head h.symm ih

namespace Props

/-- C106: declarations and files are put in another order, exchanging neighbours that do not mention each other.
If the schema compiled, it still does, and there are the same files with the same messages, structures and enums:
messages decode every input to the same value and write the same bytes for every value, structures have the same
size and every path of field numbers leads to an accessor that reads and writes the same bits. -/
theorem C106_wire {l l' : Loader} (hl : l.Reordered l') {p : Profile} {sep : Name} {w1 : World} {qs : List Protocol}
    (h : Loader.compile p l (SimpleImportSolver.new sep) ⟨0, []⟩ = .ok (qs, w1)) :
    ∃ qs' w1', Loader.compile p l' (SimpleImportSolver.new sep) ⟨0, []⟩ = .ok (qs', w1') ∧
      Matched (fun q q' : Protocol => q'.name = q.name ∧
        Matched (fun m m' : Message => m'.name = m.name ∧ m'.size = m.size ∧
          (∀ p' b, m'.parse (genCtx p' w1') b = m.parse (genCtx p' w1) b) ∧
            ∀ p' v, m'.write (genCtx p' w1') v = m.write (genCtx p' w1) v) q.messages q'.messages ∧
        Matched (fun s s' : Structure => s'.name = s.name ∧ s'.byteSize = s.byteSize ∧
          ∀ is, (s.walk is = none ∧ s'.walk is = none) ∨ ∃ a a', s.walk is = some a ∧ s'.walk is = some a' ∧
            (∀ p b, a'.get p b = a.get p b) ∧ ∀ p b v, a'.set p b v = a.set p b v) q.structs q'.structs ∧
        Matched Eq q.enums q'.enums) qs qs' := by
  induction hl with
  | refl =>
    refine ⟨qs, w1, h, .refl (fun q => ⟨rfl, .refl (fun m => ⟨rfl, rfl, fun _ _ => rfl, fun _ _ => rfl⟩) _,
      .refl (fun s => ⟨rfl, rfl, fun is => ?_⟩) _, .refl (fun _ => rfl) _⟩) _⟩
    cases hw : s.walk is with
    | none => exact .inl ⟨rfl, rfl⟩
    | some a => exact .inr ⟨a, a, rfl, rfl, fun _ _ => rfl, fun _ _ _ => rfl⟩
  | tail _ hn ih =>
    obtain ⟨qs', w1', h1, h2⟩ := ih
    obtain ⟨f, qs2, w2, hf, h3, h4, h5⟩ := compile_near hn h1
    have hc : ∀ p', (Revision.moved f).Context (genCtx p' w1') (genCtx p' w2) := fun p' =>
      ⟨rfl, fun id => by simp only [genCtx, h5 id]⟩
    refine ⟨qs2, w2, h3, h2.trans ?_ h4⟩
    rintro q k q2 ⟨e, hm, hs, he⟩ hk
    refine ⟨hk.name.trans e, hm.trans ?_ hk.messages, hs.trans ?_ hk.structs,
      he.trans (fun _ _ _ h h' => h.trans h') hk.enums⟩
    · rintro m m1 m2 ⟨g1, g2, g3, g4⟩ g
      exact ⟨g.name.trans g1, g.size.trans g2, fun p' b => by rw [g.parse (hc p'), g3],
        fun p' v => by rw [g.write (hc p').p, g4]⟩
    · rintro s s1 s2 ⟨g1, g2, g3⟩ g
      refine ⟨g.name.trans g1, g.byteSize.trans g2, fun is => ?_⟩
      rcases g3 is with ⟨x1, x2⟩ | ⟨a, a1, x1, x2, x3, x4⟩
      · rcases g.walk is with ⟨_, y2⟩ | ⟨b, b', y1, _⟩
        · exact .inl ⟨x1, y2⟩
        · rw [x2] at y1
          cases y1
      · rcases g.walk is with ⟨y1, _⟩ | ⟨b, b', y1, y2, y3, y4⟩
        · rw [x2] at y1
          cases y1
        · rw [x2] at y1
          obtain rfl := Option.some.inj y1
          exact .inr ⟨a, b', x1, y2, fun p b => (y3 p b).trans (x3 p b), fun p b v => (y4 p b v).trans (x4 p b v)⟩

/-- C106: whether a schema compiles does not depend on the order, either. -/
theorem C106_compiles {l l' : Loader} (hl : l.Reordered l') (p : Profile) (sep : Name) :
    (∃ r, Loader.compile p l (SimpleImportSolver.new sep) ⟨0, []⟩ = .ok r) ↔
      ∃ r, Loader.compile p l' (SimpleImportSolver.new sep) ⟨0, []⟩ = .ok r := by
  constructor
  · rintro ⟨r, h⟩
    obtain ⟨qs', w', h', _⟩ := C106_wire hl h
    exact ⟨_, h'⟩
  · rintro ⟨r, h⟩
    obtain ⟨qs', w', h', _⟩ := C106_wire hl.symm h
    exact ⟨_, h'⟩

namespace Ex

/-- `larger` in another order. -/
def shuffled : Model.Protocol :=
  { larger with
    structs := larger.structs.reverse
    messages := [⟨['I'], [⟨['a'], .item ['A'], none⟩]⟩, ⟨['M'], [⟨['i'], .list 255 ['I'], none⟩]⟩,
      ⟨['J'], [⟨['b'], .item ['B'], none⟩, ⟨['k'], .item ['K'], none⟩]⟩,
      ⟨['L'], [⟨['a'], .item ['A'], none⟩, ⟨['j'], .list 255 ['J'], none⟩]⟩] }

/-- Between the two: `J` after `I`, `M` before `L`. -/
def halfway : Model.Protocol :=
  { larger with
    structs := larger.structs.reverse
    messages := [⟨['I'], [⟨['a'], .item ['A'], none⟩]⟩, ⟨['J'], [⟨['b'], .item ['B'], none⟩, ⟨['k'], .item ['K'], none⟩]⟩,
      ⟨['M'], [⟨['i'], .list 255 ['I'], none⟩]⟩,
      ⟨['L'], [⟨['a'], .item ['A'], none⟩, ⟨['j'], .list 255 ['J'], none⟩]⟩] }

/-- A file of its own. -/
def apartFile : Model.Protocol := { name := ['H'], structs := [⟨['A'], [⟨['x'], .unsigned 16, none, none⟩]⟩] }

theorem larger_reordered : (Loader.mk [larger, small] [([], other), (['h'], apartFile)]).Reordered
    ⟨[small, shuffled], [(['h'], apartFile), ([], other)]⟩ := by
  refine .head (b := ⟨[halfway, small], [(['h'], apartFile), ([], other)]⟩) ⟨?_, ?_⟩
    (.head (b := ⟨[shuffled, small], [(['h'], apartFile), ([], other)]⟩) ⟨?_, ?_⟩ (.single ⟨?_, ?_⟩))
  · exact .swap (by decide +kernel) .nil
  · refine .keep ⟨rfl, .refl _, .refl _, ?_, .refl _, ?_⟩ (.keep (.refl _) .nil)
    · exact .swap (by decide +kernel) .nil
    · exact .swap (by decide +kernel) (.swap (by decide +kernel) .nil)
  · exact .keep ⟨rfl, .refl _⟩ (.keep ⟨rfl, .refl _⟩ .nil)
  · refine .keep ⟨rfl, .refl _, .refl _, .refl _, .refl _, ?_⟩ (.keep (.refl _) .nil)
    exact .keep (.swap (by decide +kernel) (.keep .nil))
  · exact .keep ⟨rfl, .refl _⟩ (.keep ⟨rfl, .refl _⟩ .nil)
  · exact .swap trivial .nil

/-- A structure with a structure of another file that has the same name as one declared after it. -/
def shadowed : Model.Protocol :=
  { name := ['F'], imports := [⟨['H'], ['A']⟩]
    structs := [⟨['B'], [⟨['a'], .struct ['A'], none, none⟩]⟩, ⟨['A'], [⟨['x'], .unsigned 8, none, none⟩]⟩] }

/-- `larger` and `small`, compiled. -/
def compiledAll : List Protocol × World :=
  match Loader.compile .checked ⟨[larger, small], [([], other), (['h'], apartFile)]⟩ SimpleImportSolver.default ⟨0, []⟩ with
  | .ok r => r
  | _ => ([], ⟨0, []⟩)

/-- The sizes of the structures of a build, with their names. -/
def bytesOf (v : Model.Protocol) : List (Name × Nat) :=
  ((compiled v [([], apartFile)]).1.flatMap Protocol.structs).map fun s => (s.name, s.byteSize)

end Ex

/-- The reordered schema compiles as `larger` does. -/
example : ∃ r, Loader.compile .checked ⟨[Ex.small, Ex.shuffled], [(['h'], Ex.apartFile), ([], Ex.other)]⟩
    (SimpleImportSolver.new "::".toList) ⟨0, []⟩ = .ok r := by
  refine (C106_compiles Ex.larger_reordered .checked _).1 ⟨Ex.compiledAll, ?_⟩
  krfl

/-- And its message `M` decodes and writes what it did. -/
example : ∃ qs' w', Loader.compile .checked ⟨[Ex.small, Ex.shuffled], [(['h'], Ex.apartFile), ([], Ex.other)]⟩
    (SimpleImportSolver.new "::".toList) ⟨0, []⟩ = .ok (qs', w') ∧ ∃ k ∈ qs', k.name = ['F'] ∧ ∃ m' ∈ k.messages,
      m'.name = ['M'] ∧ (∀ p b, m'.parse (genCtx p w') b =
        (Ex.theM Ex.larger [([], Ex.other), (['h'], Ex.apartFile)]).parse (genCtx p Ex.compiledAll.2) b) := by
  obtain ⟨qs', w', h, k, h1, h2⟩ := C106_wire Ex.larger_reordered
    (show Loader.compile .checked _ (SimpleImportSolver.new "::".toList) _ = .ok Ex.compiledAll by krfl)
  rcases forall₂_get h2 0 with ⟨e, _⟩ | ⟨q, q', e, hk, h3, ⟨ms, h4, h5⟩, _⟩
  · cases e
  have e : Ex.compiledAll.1[0]? = some q := e
  obtain rfl := Option.some.inj ((show Ex.compiledAll.1[0]? = some (Ex.compiledAll.1.head (by decide +kernel)) by
    krfl).symm.trans e)
  rcases forall₂_get h5 3 with ⟨e, _⟩ | ⟨m, m', e, hm, h6, _, h7, _⟩
  · cases e
  have e : (Ex.compiledAll.1.head (by decide +kernel)).messages[3]? = some m := e
  obtain rfl := Option.some.inj ((show (Ex.compiledAll.1.head (by decide +kernel)).messages[3]? =
    some (Ex.theM Ex.larger [([], Ex.other), (['h'], Ex.apartFile)]) by krfl).symm.trans e)
  exact ⟨qs', w', h, q', h1.subset (List.mem_of_getElem? hk), h3.trans (by krfl), m',
    h4.subset (List.mem_of_getElem? hm), h6.trans (by krfl), h7⟩

/-- Exchanging declarations that mention each other may change what is meant: `B` has an `A` of two bytes first, then
one of one byte. -/
example : Ex.bytesOf Ex.shadowed = [(['B'], 2), (['A'], 1)] ∧
    Ex.bytesOf { Ex.shadowed with structs := Ex.shadowed.structs.reverse } = [(['A'], 1), (['B'], 1)] :=
  ⟨by krfl, by krfl⟩

end Props

end Proto
