import Verif.Props.Loader
import Verif.Props.Revise
import Verif.Spec.Grow

/-!
# C103: adding declarations to a schema
-/

namespace Proto

open Spec

variable {ρ : Revision}

/-! ## Names that stay -/

theorem flatMap_fixed {α : Type} {f : Name → Name} {names : α → List Name} {g : α → α} {l : List α}
    (h : ∀ x ∈ l.flatMap names, f x = x) (hg : ∀ a ∈ l, (∀ x ∈ names a, f x = x) → g a = a) : l.map g = l := by
  rw [List.map_congr_left (g := id)]
  · simp
  · intro a ha
    exact hg a ha (fun x hx => h x (List.mem_flatMap.2 ⟨a, ha, hx⟩))

namespace Model

theorem SField.revised_fixed {f : Name → Name} {v : SField} (h : ∀ x ∈ v.typeNames, f x = x) : v.revised f = v := by
  obtain ⟨n, info, view, len⟩ := v
  have h1 : ∀ t, info = .struct t → f t = t := by
    rintro t rfl
    exact h t (by simp [SField.typeNames])
  have h2 : ∀ t, view = some (.enum t) → f t = t := by
    rintro t rfl
    exact h t (by simp [SField.typeNames])
  simp only [SField.revised, SField.mk.injEq, true_and, and_true]
  constructor
  · cases info with
    | struct t => simp only [h1 t rfl]
    | _ => rfl
  · rcases view with _ | ⟨t⟩ | ⟨a, b⟩ | a
    · rfl
    · simp only [h2 t rfl]
    · rfl
    · rfl

theorem Structure.revised_fixed {f : Name → Name} {v : Structure} (h : ∀ x ∈ v.typeNames, f x = x) :
    v.revised f = v := by
  obtain ⟨n, fs⟩ := v
  simp only [Structure.typeNames, List.forall_mem_cons] at h
  simp only [Structure.revised, h.1, flatMap_fixed h.2 (fun _ _ => SField.revised_fixed)]

theorem MField.revised_fixed {f : Name → Name} {v : MField} (h : ∀ x ∈ v.typeNames, f x = x) : v.revised f = v := by
  obtain ⟨n, info, o⟩ := v
  cases info with
  | item t => simp only [MField.revised, h t (by simp [MField.typeNames])]
  | list k t => simp only [MField.revised, h t (by simp [MField.typeNames])]
  | union k t => simp only [MField.revised, h t (by simp [MField.typeNames])]
  | _ => rfl

theorem Message.revised_fixed {f : Name → Name} {v : Message} (h : ∀ x ∈ v.typeNames, f x = x) : v.revised f = v := by
  obtain ⟨n, fs⟩ := v
  simp only [Message.typeNames, List.forall_mem_cons] at h
  simp only [Message.revised, h.1, flatMap_fixed h.2 (fun _ _ => MField.revised_fixed)]

theorem Union.revised_fixed {f : Name → Name} {v : Union} (h : ∀ x ∈ v.typeNames, f x = x) : v.revised f = v := by
  obtain ⟨n, d, ks⟩ := v
  simp only [Union.typeNames, List.forall_mem_cons] at h
  have hk : ∀ k ∈ ks, (∀ x ∈ k.itemType.toList, f x = x) → UCase.revised f k = k := by
    rintro ⟨kn, kc, kt⟩ _ hk
    cases kt with
    | none => rfl
    | some t => simp only [UCase.revised, Option.map_some, hk t (by simp)]
  simp only [Union.revised, h.1, discriminantRevised, h.2.1, List.takeWhile_append_dropWhile, flatMap_fixed h.2.2 hk]

end Model

/-! ## Identities -/

/-- The place of the `i`-th kept declaration among all of them; `true` marks those that are kept. -/
def nthKept : List Bool → Nat → Nat
  | [], i => i
  | true :: _, 0 => 0
  | true :: fl, i + 1 => nthKept fl i + 1
  | false :: fl, i => nthKept fl i + 1

theorem nthKept_lt (fl : List Bool) : ∀ i j, i < j → nthKept fl i < nthKept fl j := by
  induction fl with
  | nil => intro i j h; exact h
  | cons b fl ih =>
    intro i j h
    cases b with
    | false => exact Nat.succ_lt_succ (ih i j h)
    | true =>
      cases j with
      | zero => omega
      | succ j =>
        cases i with
        | zero => exact Nat.succ_pos _
        | succ i => exact Nat.succ_lt_succ (ih i j (by omega))

theorem nthKept_injective (fl : List Bool) (i j : Nat) (h : nthKept fl i = nthKept fl j) : i = j := by
  rcases Nat.lt_trichotomy i j with h1 | h1 | h1
  · have := nthKept_lt fl _ _ h1
    omega
  · exact h1
  · have := nthKept_lt fl _ _ h1
    omega

/-- The next identities are `n` and `n'`; `fl` tells which of the declarations to come are kept. -/
structure Revision.Ahead (ρ : Revision) (n n' : Nat) (fl : List Bool) : Prop where
  next : ∀ i, ρ.id (n + i) = n' + nthKept fl i
  past : ∀ j, j < n → ρ.id j < n'

namespace Revision.Ahead

theorem here {n n' : Nat} {fl : List Bool} (h : ρ.Ahead n n' (true :: fl)) : ρ.id n = n' := h.next 0

theorem keep {n n' : Nat} {fl : List Bool} (h : ρ.Ahead n n' (true :: fl)) : ρ.Ahead (n + 1) (n' + 1) fl := by
  constructor
  · intro i
    have := h.next (i + 1)
    simp only [nthKept] at this
    rw [show n + 1 + i = n + (i + 1) by omega, this]
    omega
  · intro j hj
    have h0 := h.here
    by_cases e : j = n
    · subst e
      omega
    · have := h.past j (by omega)
      omega

theorem add {n n' : Nat} {fl : List Bool} (h : ρ.Ahead n n' (false :: fl)) : ρ.Ahead n (n' + 1) fl := by
  constructor
  · intro i
    have := h.next i
    simp only [nthKept] at this
    omega
  · intro j hj
    have := h.past j hj
    omega

theorem unused {n n' : Nat} {fl : List Bool} (h : ρ.Ahead n n' (false :: fl)) (i : Nat) : n' ≠ ρ.id i := by
  by_cases e : i < n
  · have := h.past i e
    omega
  · have := h.next (i - n)
    rw [show n + (i - n) = i by omega] at this
    simp only [nthKept] at this
    omega

theorem adds {n n' : Nat} {fl : List Bool} (k : Nat) (h : ρ.Ahead n n' (List.replicate k false ++ fl)) :
    ρ.Ahead n (n' + k) fl := by
  induction k generalizing n' with
  | zero => exact h
  | succ k ih =>
    rw [List.replicate_succ, List.cons_append] at h
    have := ih h.add
    rwa [show n' + 1 + k = n' + (k + 1) by omega] at this

end Revision.Ahead

/-! ## What the compiler makes of the two schemas -/

/-- A name no type of the first schema gets. -/
def Outside (f : Name → Name) (n : Name) : Prop := ∀ x, f x ≠ n

/-- The messages found under such names are none of the first schema. -/
def Protocol.Fresh (ρ : Revision) (q : Protocol) : Prop :=
  ∀ n, Outside ρ.type n → ∀ m, q.messagesByName.lookup n = some m → ∀ i, m.id ≠ ρ.id i

/-- The items of the first list have counterparts in the second, in the same order. -/
def Woven {α : Type} (R : α → α → Prop) (l l' : List α) : Prop := ∃ k, List.Sublist k l' ∧ List.Forall₂ R l k

theorem Woven.nil {α : Type} {R : α → α → Prop} : Woven R [] [] := ⟨[], .slnil, .nil⟩

theorem Woven.append {α : Type} {R : α → α → Prop} {l l' : List α} (h : Woven R l l') {a a' : α} (ha : R a a') :
    Woven R (l ++ [a]) (l' ++ [a']) := by
  obtain ⟨k, h1, h2⟩ := h
  exact ⟨k ++ [a'], h1.append (List.Sublist.refl _), forall₂_append h2 ha⟩

theorem Woven.extra {α : Type} {R : α → α → Prop} {l l' : List α} (h : Woven R l l') (a' : α) :
    Woven R l (l' ++ [a']) := by
  obtain ⟨k, h1, h2⟩ := h
  exact ⟨k, h1.trans (List.sublist_append_left _ _), h2⟩

/-- The second protocol has counterparts for all that the first has. -/
structure Protocol.Wider (ρ : Revision) (q q' : Protocol) : Prop extends q.Known ρ q' where
  fresh : q'.Fresh ρ
  structs : Woven (fun s s' => s.Alike ρ s' ∧ s'.name = s.name) q.structs q'.structs
  messages : Woven (fun m m' => m.Alike ρ m' ∧ m'.name = m.name) q.messages q'.messages

/-- All that the solver knows is fresh under new names. -/
def Resolver.Fresh (ρ : Revision) (r : Resolver) : Prop := ∀ n q, r.protocolByName n = some q → q.Fresh ρ

theorem Protocol.Fresh.cons {q : Protocol} (h : q.Fresh ρ) {n : Name} {m : Message}
    (hm : Outside ρ.type n → ∀ i, m.id ≠ ρ.id i) (ms : List Message) :
    ({ q with messagesByName := (n, m) :: q.messagesByName, messages := ms } : Protocol).Fresh ρ := by
  intro x hx y hy
  simp only [List.lookup_cons] at hy
  by_cases e : x = n
  · subst e
    simp only [beq_self_eq_true, Option.some.injEq] at hy
    subst hy
    exact hm hx
  · simp only [beq_eq_false_iff_ne.2 e] at hy
    exact h x hx y hy

theorem import_fresh {r : Resolver} (hr : r.Fresh ρ) {q q1 : Protocol} (hq : q.Fresh ρ) {v : Model.Import}
    (h : Protocol.addImport r q v = .ok q1) : q1.Fresh ρ := by
  unfold Protocol.addImport at h
  obtain ⟨x, h1, h⟩ := Res.bind_eq_ok.1 h
  have hx := hr _ _ (ofOption_ok h1)
  split at h
  · obtain ⟨_, _, h⟩ := Res.bind_eq_ok.1 h
    obtain rfl := Res.ok.inj h
    exact hq
  split at h
  · obtain ⟨_, _, h⟩ := Res.bind_eq_ok.1 h
    obtain rfl := Res.ok.inj h
    exact hq
  split at h
  · obtain ⟨_, _, h⟩ := Res.bind_eq_ok.1 h
    obtain rfl := Res.ok.inj h
    exact hq
  · obtain ⟨m, hm, h⟩ := Res.bind_eq_ok.1 h
    obtain ⟨_, _, h⟩ := Res.bind_eq_ok.1 h
    obtain rfl := Res.ok.inj h
    exact hq.cons (fun ho => hx _ ho m (ofOption_ok hm)) q.messages

/-- An import under a new name changes nothing for the first schema. -/
theorem import_extra {r : Resolver} {q q' q1 : Protocol} (hq : q.Known ρ q') {v : Model.Import}
    (hv : Outside ρ.type v.typeName) (h : Protocol.addImport r q' v = .ok q1) : q.Known ρ q1 := by
  unfold Protocol.addImport at h
  obtain ⟨x, h1, h⟩ := Res.bind_eq_ok.1 h
  split at h
  · obtain ⟨_, _, h⟩ := Res.bind_eq_ok.1 h
    obtain rfl := Res.ok.inj h
    exact { hq with structsByName := hq.structsByName.extra hv _ }
  split at h
  · obtain ⟨_, _, h⟩ := Res.bind_eq_ok.1 h
    obtain rfl := Res.ok.inj h
    exact { hq with enumsByName := hq.enumsByName.extra hv _ }
  split at h
  · obtain ⟨_, _, h⟩ := Res.bind_eq_ok.1 h
    obtain rfl := Res.ok.inj h
    exact { hq with unionsByName := hq.unionsByName.extra hv _ }
  · obtain ⟨m, hm, h⟩ := Res.bind_eq_ok.1 h
    obtain ⟨_, _, h⟩ := Res.bind_eq_ok.1 h
    obtain rfl := Res.ok.inj h
    exact { hq with messagesByName := hq.messagesByName.extra hv _ }

section

variable (hf : ρ.Faithful)

include hf in
theorem imports_grown {r r' : Resolver} (hr : r.Alike ρ r') (hr' : r'.Fresh ρ) {vs vs' : List Model.Import}
    (hv : Adds (fun i => Outside ρ.type i.typeName) vs vs') (hx : ∀ v ∈ vs, ρ.type v.typeName = v.typeName)
    {q q' q1 q1' : Protocol} (hq : q.Wider ρ q') (h : Protocol.addImports r q vs = .ok q1)
    (h' : Protocol.addImports r' q' vs' = .ok q1') : q1.Wider ρ q1' := by
  induction hv generalizing q q' with
  | nil =>
    obtain rfl := Res.ok.inj h
    obtain rfl := Res.ok.inj h'
    exact hq
  | @keep v vs vs' _ ih =>
    obtain ⟨q2, h1, h⟩ := Res.bind_eq_ok.1 h
    obtain ⟨q2', h1', h'⟩ := Res.bind_eq_ok.1 h'
    obtain ⟨q3', h2, h3⟩ := import_revised hf hq.toKnown hr h1
    have hfix : v.revised ρ.type = v := by
      rw [Model.Import.revised, hx v (by simp)]
    rw [hfix, h1'] at h2
    obtain rfl := Res.ok.inj h2
    obtain ⟨d1, d2, _, _⟩ := addImport_declares h1
    obtain ⟨e1, e2, _, _⟩ := addImport_declares h1'
    exact ih (fun v hv => hx v (by simp [hv]))
      ⟨h3, import_fresh hr' hq.fresh h1', d1 ▸ e1 ▸ hq.structs, d2 ▸ e2 ▸ hq.messages⟩ h h'
  | @add v vs vs' hn _ ih =>
    obtain ⟨q2', h1', h'⟩ := Res.bind_eq_ok.1 h'
    obtain ⟨e1, e2, _, _⟩ := addImport_declares h1'
    exact ih hx ⟨import_extra hq.toKnown hn h1', import_fresh hr' hq.fresh h1', e1 ▸ hq.structs,
      e2 ▸ hq.messages⟩ h h'

include hf in
theorem enums_grown {vs vs' : List Model.Enum} (hv : Adds (fun e => Outside ρ.type e.name) vs vs')
    (hx : ∀ v ∈ vs, ρ.type v.name = v.name) {q q' q1 q1' : Protocol} (hq : q.Wider ρ q')
    (h : Protocol.addEnums q vs = .ok q1) (h' : Protocol.addEnums q' vs' = .ok q1') : q1.Wider ρ q1' := by
  induction hv generalizing q q' with
  | nil =>
    obtain rfl := Res.ok.inj h
    obtain rfl := Res.ok.inj h'
    exact hq
  | @keep v vs vs' _ ih =>
    obtain ⟨e, h1, h⟩ := Res.bind_eq_ok.1 h
    obtain ⟨e', h1', h'⟩ := Res.bind_eq_ok.1 h'
    rw [h1] at h1'
    obtain rfl := Res.ok.inj h1'
    have hn : e.name = ρ.type e.name := by
      rw [(Props.C46_enum h1).1, hx v (by simp)]
    refine ih (fun v hv => hx v (by simp [hv])) ?_ h h'
    exact { hq with enumsByName := hq.enumsByName.cons hf hn ⟨hn, fun _ _ h => h⟩ }
  | @add v vs vs' hn _ ih =>
    obtain ⟨e', h1', h'⟩ := Res.bind_eq_ok.1 h'
    refine ih hx ?_ h h'
    rw [← (Props.C46_enum h1').1] at hn
    exact { hq with enumsByName := hq.enumsByName.extra hn _ }

theorem structure_name {p : Profile} {structs : List (Name × Structure)} {enums : List (Name × Enum)} {e : Endian}
    {id : Nat} {v : Model.Structure} {s : Structure} (h : Structure.fromModel p structs enums e id v = .ok s) :
    s.name = v.name := by
  obtain ⟨_, _, h⟩ := Res.bind_eq_ok.1 h
  obtain rfl := Res.ok.inj h
  rfl

theorem union_name {q : Protocol} {v : Model.Union} {u : Union} (h : Union.fromModel q v = .ok u) : u.name = v.name := by
  obtain ⟨_, _, h⟩ := Res.bind_eq_ok.1 h
  obtain ⟨_, _, h⟩ := Res.bind_eq_ok.1 h
  obtain rfl := Res.ok.inj h
  rfl

theorem message_name {q : Protocol} {emb emb1 : List Nat} {id : Nat} {v : Model.Message} {m : Message}
    (h : Message.fromModel q emb id v = .ok (m, emb1)) : m.name = v.name ∧ m.id = id := by
  obtain ⟨_, _, h⟩ := Res.bind_eq_ok.1 h
  obtain ⟨rfl, rfl⟩ := Prod.mk.inj (Res.ok.inj h)
  exact ⟨rfl, rfl⟩

/-- `Adds` with a flag for every item of the second list: whether it is kept. -/
inductive Kept {α : Type} (new : α → Prop) : List Bool → List α → List α → Prop
  | nil : Kept new [] [] []
  | keep {a fl l l'} : Kept new fl l l' → Kept new (true :: fl) (a :: l) (a :: l')
  | add {a fl l l'} : new a → Kept new fl l l' → Kept new (false :: fl) l (a :: l')

theorem Adds.kept {α : Type} {new : α → Prop} {l l' : List α} (h : Adds new l l') : ∃ fl, Kept new fl l l' := by
  induction h with
  | nil => exact ⟨[], .nil⟩
  | keep _ ih => exact ⟨_, .keep ih.choose_spec⟩
  | add hn _ ih => exact ⟨_, .add hn ih.choose_spec⟩

theorem Adds.mono {α : Type} {new new' : α → Prop} {l l' : List α} (h : Adds new l l')
    (hn : ∀ a ∈ l', new a → new' a) : Adds new' l l' := by
  induction h with
  | nil => exact .nil
  | keep _ ih => exact .keep (ih fun a ha => hn a (List.mem_cons_of_mem _ ha))
  | add h _ ih => exact .add (hn _ List.mem_cons_self h) (ih fun a ha => hn a (List.mem_cons_of_mem _ ha))

include hf in
theorem structs_grown {p : Profile} {fl rest : List Bool} {vs vs' : List Model.Structure}
    (hv : Kept (fun s => Outside ρ.type s.name) fl vs vs') (hx : ∀ v ∈ vs, ∀ x ∈ v.typeNames, ρ.type x = x)
    {q q' q1 q1' : Protocol} {n n1 n' n1' : Nat} (hq : q.Wider ρ q') (ha : ρ.Ahead n n' (fl ++ rest))
    (h : Protocol.addStructs p n q vs = .ok (q1, n1)) (h' : Protocol.addStructs p n' q' vs' = .ok (q1', n1')) :
    q1.Wider ρ q1' ∧ ρ.Ahead n1 n1' rest := by
  induction hv generalizing q q' n n' with
  | nil =>
    obtain ⟨rfl, rfl⟩ := Prod.mk.inj (Res.ok.inj h)
    obtain ⟨rfl, rfl⟩ := Prod.mk.inj (Res.ok.inj h')
    exact ⟨hq, ha⟩
  | @keep v fl vs vs' _ ih =>
    obtain ⟨s, h1, h⟩ := Res.bind_eq_ok.1 h
    obtain ⟨s', h1', h'⟩ := Res.bind_eq_ok.1 h'
    obtain ⟨s2, h2, h3⟩ := structure_revised hf hq.structsByName hq.enumsByName h1
    rw [← hq.endianness, ha.here, Model.Structure.revised_fixed (hx v (by simp)), h1'] at h2
    obtain rfl := Res.ok.inj h2
    refine ih (fun v hv => hx v (by simp [hv])) ?_ ha.keep h h'
    exact { hq with
      structsByName := hq.structsByName.cons hf h3.name h3
      structs := hq.structs.append ⟨h3, (structure_name h1').trans (structure_name h1).symm⟩ }
  | @add v fl vs vs' hn _ ih =>
    obtain ⟨s', h1', h'⟩ := Res.bind_eq_ok.1 h'
    refine ih hx ?_ ha.add h h'
    rw [← structure_name h1'] at hn
    exact { hq with
      structsByName := hq.structsByName.extra hn _
      structs := hq.structs.extra _ }

include hf in
theorem unions_grown {vs vs' : List Model.Union} (hv : Adds (fun u => Outside ρ.type u.name) vs vs')
    (hx : ∀ v ∈ vs, ∀ x ∈ v.typeNames, ρ.type x = x) {q q' q1 q1' : Protocol} (hq : q.Wider ρ q')
    (h : Protocol.addUnions q vs = .ok q1) (h' : Protocol.addUnions q' vs' = .ok q1') : q1.Wider ρ q1' := by
  induction hv generalizing q q' with
  | nil =>
    obtain rfl := Res.ok.inj h
    obtain rfl := Res.ok.inj h'
    exact hq
  | @keep v vs vs' _ ih =>
    obtain ⟨u, h1, h⟩ := Res.bind_eq_ok.1 h
    obtain ⟨u', h1', h'⟩ := Res.bind_eq_ok.1 h'
    obtain ⟨u2, h2, h3⟩ := union_revised hf hq.toKnown h1
    rw [Model.Union.revised_fixed (hx v (by simp)), h1'] at h2
    obtain rfl := Res.ok.inj h2
    refine ih (fun v hv => hx v (by simp [hv])) ?_ h h'
    exact { hq with unionsByName := hq.unionsByName.cons hf h3.name h3 }
  | @add v vs vs' hn _ ih =>
    obtain ⟨u', h1', h'⟩ := Res.bind_eq_ok.1 h'
    refine ih hx ?_ h h'
    rw [← union_name h1'] at hn
    exact { hq with unionsByName := hq.unionsByName.extra hn _ }

/-! ### Messages and list items -/

/-- The same messages are list items, as far as the first schema has them. -/
def SameItems (ρ : Revision) (emb emb' : List Nat) : Prop := ∀ i, ρ.id i ∈ emb' ↔ i ∈ emb

include hf in
theorem SameItems.keep {emb emb' : List Nat} (h : SameItems ρ emb emb') (added : List Nat) :
    SameItems ρ (added ++ emb) (added.map ρ.id ++ emb') := by
  intro i
  simp only [List.mem_append, List.mem_map, h i]
  constructor
  · rintro (⟨a, ha, e⟩ | h)
    · exact .inl (hf.id _ _ e ▸ ha)
    · exact .inr h
  · rintro (h | h)
    · exact .inl ⟨i, h, rfl⟩
    · exact .inr h

/-- The list items of the first schema are list items; with `S` there are no others among its messages. -/
structure KeptItems (S : Prop) (ρ : Revision) (emb emb' : List Nat) : Prop where
  kept : ∀ i ∈ emb, ρ.id i ∈ emb'
  only : S → ∀ i, ρ.id i ∈ emb' → i ∈ emb

include hf in
theorem KeptItems.keep {S : Prop} {emb emb' : List Nat} (h : KeptItems S ρ emb emb') (added : List Nat) :
    KeptItems S ρ (added ++ emb) (added.map ρ.id ++ emb') := by
  constructor
  · intro i hi
    rcases List.mem_append.1 hi with hi | hi
    · exact List.mem_append_left _ (List.mem_map_of_mem hi)
    · exact List.mem_append_right _ (h.kept i hi)
  · intro hs i hi
    rcases List.mem_append.1 hi with hi | hi
    · obtain ⟨a, ha, e⟩ := List.mem_map.1 hi
      exact List.mem_append_left _ (hf.id _ _ e ▸ ha)
    · exact List.mem_append_right _ (h.only hs i hi)

/-- A field marks only messages it lists. -/
theorem mfield_marks {q : Protocol} {emb emb1 : List Nat} {fs : List MField} {v : Model.MField} {f : MField}
    (h : MField.fromModel q emb fs v = .ok (f, emb1)) :
    emb1 = emb ∨ ∃ n t m, v.info = .list n t ∧ q.messagesByName.lookup t = some m ∧ emb1 = m.id :: emb := by
  obtain ⟨n, info, o⟩ := v
  cases info with
  | item t =>
    simp only [MField.fromModel] at h
    obtain ⟨r, _, h⟩ := Res.bind_eq_ok.1 h
    split at h
    · split at h
      · obtain ⟨rfl, rfl⟩ := Prod.mk.inj (Res.ok.inj h)
        exact .inl rfl
      · obtain ⟨rfl, rfl⟩ := Prod.mk.inj (Res.ok.inj h)
        exact .inl rfl
    · obtain ⟨rfl, rfl⟩ := Prod.mk.inj (Res.ok.inj h)
      exact .inl rfl
  | list mx t =>
    simp only [MField.fromModel] at h
    obtain ⟨r, h1, h⟩ := Res.bind_eq_ok.1 h
    obtain ⟨ty, _, h⟩ := Res.bind_eq_ok.1 h
    have h1 := ofOption_ok h1
    split at h
    · obtain ⟨rfl, rfl⟩ := Prod.mk.inj (Res.ok.inj h)
      exact .inl rfl
    · obtain ⟨rfl, rfl⟩ := Prod.mk.inj (Res.ok.inj h)
      refine .inr ⟨mx, t, _, rfl, ?_, rfl⟩
      unfold Referenced.lookup at h1
      split at h1
      · cases h1
      · obtain ⟨m', h2, h3⟩ := Option.map_eq_some_iff.1 h1
        cases h3
        exact h2
  | string mx =>
    cases mx with
    | none =>
      simp only [MField.fromModel] at h
      obtain ⟨rfl, rfl⟩ := Prod.mk.inj (Res.ok.inj h)
      exact .inl rfl
    | some mx =>
      simp only [MField.fromModel] at h
      obtain ⟨ty, _, h⟩ := Res.bind_eq_ok.1 h
      obtain ⟨rfl, rfl⟩ := Prod.mk.inj (Res.ok.inj h)
      exact .inl rfl
  | payload =>
    simp only [MField.fromModel] at h
    obtain ⟨rfl, rfl⟩ := Prod.mk.inj (Res.ok.inj h)
    exact .inl rfl
  | union on t =>
    simp only [MField.fromModel] at h
    obtain ⟨i, _, h⟩ := Res.bind_eq_ok.1 h
    obtain ⟨g, _, h⟩ := Res.bind_eq_ok.1 h
    obtain ⟨u, _, h⟩ := Res.bind_eq_ok.1 h
    split at h
    · split at h
      · obtain ⟨rfl, rfl⟩ := Prod.mk.inj (Res.ok.inj h)
        exact .inl rfl
      · cases h
    · cases h

/-- Lists of new messages leave the marks of the old ones alone. -/
theorem mfields_extra {S : Prop} {q : Protocol} (hq : q.Fresh ρ) {vs : List Model.MField}
    (hv : S → ∀ v ∈ vs, ∀ n t, v.info = .list n t → Outside ρ.type t) {emb0 emb emb1 : List Nat} {fs gs : List MField}
    {n n1 : Nat} {d d1 : Bool} (he : KeptItems S ρ emb0 emb)
    (h : Message.fieldsFromModel q emb fs n d vs = .ok (gs, n1, d1, emb1)) : KeptItems S ρ emb0 emb1 := by
  induction vs generalizing emb fs n d with
  | nil =>
    simp only [Message.fieldsFromModel, Res.pure_eq, Res.ok.injEq, Prod.mk.injEq] at h
    obtain ⟨rfl, rfl, rfl, rfl⟩ := h
    exact he
  | cons v vs ih =>
    simp only [Message.fieldsFromModel] at h
    obtain ⟨⟨f, emb2⟩, h1, h⟩ := Res.bind_eq_ok.1 h
    simp only at h
    generalize (if f.size.isElementDynSized = true then n + 1 else n) = k at h
    split at h
    · cases h
    split at h
    · cases h
    refine ih (fun hs v hm => hv hs v (List.mem_cons_of_mem _ hm)) ?_ h
    rcases mfield_marks h1 with rfl | ⟨mx, t, m, h2, h3, rfl⟩
    · exact he
    · refine ⟨fun i hi => List.mem_cons_of_mem _ (he.kept i hi), fun hs i hi => ?_⟩
      have := hq t (hv hs v List.mem_cons_self mx t h2) m h3 i
      rcases List.mem_cons.1 hi with hi | hi
      · exact absurd hi.symm this
      · exact he.only hs i hi

theorem message_extra {S : Prop} {q : Protocol} (hq : q.Fresh ρ) {v : Model.Message} (hv : S → ∀ t ∈ v.listed, Outside ρ.type t)
    {emb0 emb emb1 : List Nat} {id : Nat} {m : Message} (he : KeptItems S ρ emb0 emb)
    (h : Message.fromModel q emb id v = .ok (m, emb1)) : KeptItems S ρ emb0 emb1 := by
  obtain ⟨⟨fs, n, d, emb2⟩, h1, h⟩ := Res.bind_eq_ok.1 h
  obtain ⟨rfl, rfl⟩ := Prod.mk.inj (Res.ok.inj h)
  refine mfields_extra hq (fun hs f hf k t ht => hv hs t ?_) he h1
  exact List.mem_flatMap.2 ⟨f, hf, by rw [ht]; simp⟩

include hf in
theorem messages_grown {S : Prop} {fl rest : List Bool} {vs vs' : List Model.Message}
    (hv : Kept (fun m => Outside ρ.type m.name ∧ (S → ∀ t ∈ m.listed, Outside ρ.type t)) fl vs vs')
    (hx : ∀ v ∈ vs, ∀ x ∈ v.typeNames, ρ.type x = x) {q q' q1 q1' : Protocol} {w w1 w' w1' : World}
    (hq : q.Wider ρ q') (ha : ρ.Ahead w.next w'.next (fl ++ rest)) (he : KeptItems S ρ w.embedded w'.embedded)
    (h : Protocol.addMessages w q vs = .ok (q1, w1)) (h' : Protocol.addMessages w' q' vs' = .ok (q1', w1')) :
    q1.Wider ρ q1' ∧ ρ.Ahead w1.next w1'.next rest ∧ KeptItems S ρ w1.embedded w1'.embedded := by
  induction hv generalizing q q' w w' with
  | nil =>
    obtain ⟨rfl, rfl⟩ := Prod.mk.inj (Res.ok.inj h)
    obtain ⟨rfl, rfl⟩ := Prod.mk.inj (Res.ok.inj h')
    exact ⟨hq, ha, he⟩
  | @keep v fl vs vs' _ ih =>
    obtain ⟨⟨m, emb⟩, h1, h⟩ := Res.bind_eq_ok.1 h
    obtain ⟨⟨m', emb'⟩, h1', h'⟩ := Res.bind_eq_ok.1 h'
    obtain ⟨m2, added, rfl, h3, h2⟩ := message_revised hf hq.toKnown h1
    have h2 := h2 w'.embedded
    rw [ha.here, Model.Message.revised_fixed (hx v (by simp)), h1'] at h2
    obtain ⟨rfl, rfl⟩ := Prod.mk.inj (Res.ok.inj h2)
    refine ih (w := ⟨w.next + 1, added ++ w.embedded⟩) (w' := ⟨w'.next + 1, added.map ρ.id ++ w'.embedded⟩)
      (fun v hv => hx v (by simp [hv])) ?_ ha.keep (he.keep hf added) h h'
    have hn : ¬ Outside ρ.type m'.name := fun ho => ho m.name h3.name.symm
    exact {
      toKnown := { hq.toKnown with messagesByName := hq.messagesByName.cons hf h3.name h3 }
      fresh := hq.fresh.cons (fun ho => absurd ho hn) _
      structs := hq.structs
      messages := hq.messages.append ⟨h3, (message_name h1').1.trans (message_name h1).1.symm⟩ }
  | @add v fl vs vs' hn _ ih =>
    obtain ⟨⟨m', emb'⟩, h1', h'⟩ := Res.bind_eq_ok.1 h'
    obtain ⟨e1, e2⟩ := message_name h1'
    refine ih (w' := ⟨w'.next + 1, emb'⟩) hx ?_ ha.add (message_extra hq.fresh hn.2 he h1') h h'
    exact {
      toKnown := { hq.toKnown with messagesByName := hq.messagesByName.extra (e1 ▸ hn.1) _ }
      fresh := hq.fresh.cons (fun _ i => e2 ▸ ha.unused i) _
      structs := hq.structs
      messages := hq.messages.extra _ }

/-! ### Files -/

/-- `Model.Protocol.Grown` in terms of the new names; `fl` tells which structures and messages are kept. -/
structure Model.Protocol.GrownBy (S : Prop) (f : Name → Name) (fl : List Bool) (v v' : Model.Protocol) : Prop where
  name : v'.name = v.name
  fixed : ∀ x ∈ v.typeNames, f x = x
  imports : Adds (fun i => Outside f i.typeName) v.imports v'.imports
  enums : Adds (fun e => Outside f e.name) v.enums v'.enums
  unions : Adds (fun u => Outside f u.name) v.unions v'.unions
  declared : ∃ fs fm, fl = fs ++ fm ∧ Kept (fun s => Outside f s.name) fs v.structs v'.structs ∧
    Kept (fun m => Outside f m.name ∧ (S → ∀ t ∈ m.listed, Outside f t)) fm v.messages v'.messages

/-- What two compilations have done so far. -/
structure World.Wider (S : Prop) (ρ : Revision) (rest : List Bool) (w w' : World) : Prop where
  ahead : ρ.Ahead w.next w'.next rest
  items : KeptItems S ρ w.embedded w'.embedded

include hf in
theorem protocol_grown {S : Prop} {p : Profile} {r r' : Resolver} (hr : r.Alike ρ r') (hr' : r'.Fresh ρ) {fl rest : List Bool}
    {v v' : Model.Protocol} (hv : v.GrownBy S ρ.type fl v') {w w1 w' w1' : World} {q q' : Protocol}
    (hw : w.Wider S ρ (fl ++ rest) w') (h : Protocol.fromModel p r w v = .ok (q, w1))
    (h' : Protocol.fromModel p r' w' v' = .ok (q', w1')) : q.Wider ρ q' ∧ w1.Wider S ρ rest w1' := by
  obtain ⟨q1, h1, h⟩ := Res.bind_eq_ok.1 h
  obtain ⟨q2, h2, h⟩ := Res.bind_eq_ok.1 h
  obtain ⟨⟨q3, n3⟩, h3, h⟩ := Res.bind_eq_ok.1 h
  obtain ⟨q4, h4, h⟩ := Res.bind_eq_ok.1 h
  obtain ⟨q1', h1', h'⟩ := Res.bind_eq_ok.1 h'
  obtain ⟨q2', h2', h'⟩ := Res.bind_eq_ok.1 h'
  obtain ⟨⟨q3', n3'⟩, h3', h'⟩ := Res.bind_eq_ok.1 h'
  obtain ⟨q4', h4', h'⟩ := Res.bind_eq_ok.1 h'
  obtain ⟨fs, fm, rfl, hvs, hvm⟩ := hv.declared
  have h0 : (Protocol.empty v).Wider ρ (Protocol.empty v') :=
    ⟨⟨hv.name, rfl, .nil, .nil, .nil, .nil⟩, fun _ _ _ hm => (by cases hm), .nil, .nil⟩
  have hx := hv.fixed
  simp only [Model.Protocol.typeNames, List.mem_append, List.mem_flatMap, List.mem_map] at hx
  have a1 := imports_grown hf hr hr' hv.imports
    (fun i hi => hx _ (.inl (.inl (.inl (.inl ⟨i, hi, rfl⟩))))) h0 h1 h1'
  have a2 := enums_grown hf hv.enums (fun e he => hx _ (.inl (.inl (.inl (.inr ⟨e, he, rfl⟩))))) a1 h2 h2'
  have ha := hw.ahead
  rw [List.append_assoc] at ha
  obtain ⟨a3, b3⟩ := structs_grown hf hvs (fun s hs x hxs => hx x (.inl (.inl (.inr ⟨s, hs, hxs⟩)))) a2 ha h3 h3'
  have a4 := unions_grown hf hv.unions (fun s hs x hxs => hx x (.inl (.inr ⟨s, hs, hxs⟩))) a3 h4 h4'
  obtain ⟨a5, b5, c5⟩ := messages_grown hf hvm (fun s hs x hxs => hx x (.inr ⟨s, hs, hxs⟩))
    (w := ⟨n3, w.embedded⟩) (w' := ⟨n3', w'.embedded⟩) a4 b3 hw.items h h'
  exact ⟨a5, b5, c5⟩

end

/-! ### New files -/

theorem imports_fresh {r : Resolver} (hr : r.Fresh ρ) {vs : List Model.Import} {q q1 : Protocol} (hq : q.Fresh ρ)
    (h : Protocol.addImports r q vs = .ok q1) : q1.Fresh ρ := by
  induction vs generalizing q with
  | nil =>
    obtain rfl := Res.ok.inj h
    exact hq
  | cons v vs ih =>
    obtain ⟨q2, h1, h⟩ := Res.bind_eq_ok.1 h
    exact ih (import_fresh hr hq h1) h

theorem enums_fresh {vs : List Model.Enum} {q q1 : Protocol} (hq : q.Fresh ρ) (h : Protocol.addEnums q vs = .ok q1) :
    q1.Fresh ρ := by
  induction vs generalizing q with
  | nil =>
    obtain rfl := Res.ok.inj h
    exact hq
  | cons v vs ih =>
    obtain ⟨e, _, h⟩ := Res.bind_eq_ok.1 h
    exact ih (q := { q with enumsByName := (e.name, e) :: q.enumsByName, enums := q.enums ++ [e] }) hq h

theorem unions_fresh {vs : List Model.Union} {q q1 : Protocol} (hq : q.Fresh ρ) (h : Protocol.addUnions q vs = .ok q1) :
    q1.Fresh ρ := by
  induction vs generalizing q with
  | nil =>
    obtain rfl := Res.ok.inj h
    exact hq
  | cons v vs ih =>
    obtain ⟨e, _, h⟩ := Res.bind_eq_ok.1 h
    exact ih (q := { q with unionsByName := (e.name, e) :: q.unionsByName, unions := q.unions ++ [e] }) hq h

theorem structs_fresh {p : Profile} {vs : List Model.Structure} {q q1 : Protocol} {n n1 : Nat} (hq : q.Fresh ρ)
    (h : Protocol.addStructs p n q vs = .ok (q1, n1)) : q1.Fresh ρ ∧ n1 = n + vs.length := by
  induction vs generalizing q n with
  | nil =>
    obtain ⟨rfl, rfl⟩ := Prod.mk.inj (Res.ok.inj h)
    exact ⟨hq, rfl⟩
  | cons v vs ih =>
    obtain ⟨e, _, h⟩ := Res.bind_eq_ok.1 h
    obtain ⟨h1, h2⟩ := ih (q := { q with structsByName := (e.name, e) :: q.structsByName, structs := q.structs ++ [e] }) hq h
    exact ⟨h1, by simp only [List.length_cons]; omega⟩

theorem messages_fresh {S : Prop} {vs : List Model.Message} (hv : ∀ m ∈ vs, S → ∀ t ∈ m.listed, Outside ρ.type t) {rest : List Bool}
    {q q1 : Protocol} {w w1 w0 : World} (hq : q.Fresh ρ)
    (hw : w0.Wider S ρ (List.replicate vs.length false ++ rest) w)
    (h : Protocol.addMessages w q vs = .ok (q1, w1)) : q1.Fresh ρ ∧ w0.Wider S ρ rest w1 := by
  induction vs generalizing q w with
  | nil =>
    obtain ⟨rfl, rfl⟩ := Prod.mk.inj (Res.ok.inj h)
    exact ⟨hq, hw⟩
  | cons v vs ih =>
    obtain ⟨⟨m, emb⟩, h1, h⟩ := Res.bind_eq_ok.1 h
    obtain ⟨e1, e2⟩ := message_name h1
    have ha := hw.ahead
    rw [List.length_cons, List.replicate_succ, List.cons_append] at ha
    exact ih (fun m hm => hv m (List.mem_cons_of_mem _ hm)) (w := ⟨w.next + 1, emb⟩)
      (hq.cons (fun _ i => e2 ▸ ha.unused i) _)
      ⟨ha.add, message_extra hq (hv v List.mem_cons_self) hw.items h1⟩ h

/-- The declarations of a new file. -/
def Model.Protocol.count (v : Model.Protocol) : Nat := v.structs.length + v.messages.length

theorem protocol_new {S : Prop} {p : Profile} {r : Resolver} (hr : r.Fresh ρ) {v : Model.Protocol}
    (hv : ∀ m ∈ v.messages, S → ∀ t ∈ m.listed, Outside ρ.type t) {rest : List Bool} {w w1 w0 : World} {q : Protocol}
    (hw : w0.Wider S ρ (List.replicate v.count false ++ rest) w) (h : Protocol.fromModel p r w v = .ok (q, w1)) :
    q.Fresh ρ ∧ w0.Wider S ρ rest w1 := by
  obtain ⟨q1, h1, h⟩ := Res.bind_eq_ok.1 h
  obtain ⟨q2, h2, h⟩ := Res.bind_eq_ok.1 h
  obtain ⟨⟨q3, n3⟩, h3, h⟩ := Res.bind_eq_ok.1 h
  obtain ⟨q4, h4, h⟩ := Res.bind_eq_ok.1 h
  have a0 : (Protocol.empty v).Fresh ρ := fun _ _ _ hm => (by cases hm)
  have a2 := enums_fresh (imports_fresh hr a0 h1) h2
  obtain ⟨a3, rfl⟩ := structs_fresh a2 h3
  have ha := hw.ahead
  rw [Model.Protocol.count, ← List.replicate_append_replicate, List.append_assoc] at ha
  exact messages_fresh hv (w := ⟨w.next + v.structs.length, w.embedded⟩) (unions_fresh a3 h4) ⟨ha.adds _, hw.items⟩ h

/-! ### Builds -/

/-- `Files` with flags for the structures and messages of the second list. -/
inductive FilesKept {α : Type} (grown : List Bool → α → α → Prop) (new : α → Prop) (count : α → Nat) :
    List Bool → List α → List α → Prop
  | nil : FilesKept grown new count [] [] []
  | keep {a a' fl fl' l l'} : grown fl a a' → FilesKept grown new count fl' l l' →
      FilesKept grown new count (fl ++ fl') (a :: l) (a' :: l')
  | add {a fl' l l'} : new a → FilesKept grown new count fl' l l' →
      FilesKept grown new count (List.replicate (count a) false ++ fl') l (a :: l')

theorem Files.kept {α : Type} {grown : α → α → Prop} {new : α → Prop} {l l' : List α} (h : Files grown new l l')
    {grown' : List Bool → α → α → Prop} {new' : α → Prop}
    (hg : ∀ a ∈ l, ∀ a' ∈ l', grown a a' → ∃ fl, grown' fl a a') (hn : ∀ a ∈ l', new a → new' a) (count : α → Nat) :
    ∃ fl, FilesKept grown' new' count fl l l' := by
  induction h with
  | nil => exact ⟨[], .nil⟩
  | keep h _ ih =>
    obtain ⟨fl, h1⟩ := hg _ List.mem_cons_self _ List.mem_cons_self h
    obtain ⟨fl', h2⟩ := ih (fun a ha a' ha' => hg a (List.mem_cons_of_mem _ ha) a' (List.mem_cons_of_mem _ ha'))
      (fun a ha => hn a (List.mem_cons_of_mem _ ha))
    exact ⟨_, .keep h1 h2⟩
  | add h _ ih =>
    obtain ⟨fl', h2⟩ := ih (fun a ha a' ha' => hg a ha a' (List.mem_cons_of_mem _ ha'))
      (fun a ha => hn a (List.mem_cons_of_mem _ ha))
    exact ⟨_, .add (hn _ List.mem_cons_self h) h2⟩

/-- The solvers know the files of the first build under the same names. -/
structure SimpleImportSolver.Wider (ρ : Revision) (names : List Name) (s s' : SimpleImportSolver) : Prop where
  known : ∀ n x, s.importMap.lookup n = some x → n ∈ names ∧ ∃ x', s'.importMap.lookup n = some x' ∧ x.2.Known ρ x'.2
  fresh : ∀ n x, s'.importMap.lookup n = some x → x.2.Fresh ρ

theorem SimpleImportSolver.Wider.alike {names : List Name} {s s' : SimpleImportSolver} (h : s.Wider ρ names s') :
    s.resolver.Alike ρ s'.resolver := by
  constructor
  · intro n x hx
    obtain ⟨y, hy, rfl⟩ := Option.map_eq_some_iff.1 hx
    obtain ⟨_, y', h1, h2⟩ := h.known _ _ hy
    exact ⟨y'.2, by simp only [SimpleImportSolver.resolver, h1, Option.map_some], h2⟩
  · intro n t x hx
    obtain ⟨y, hy, rfl⟩ := Option.map_eq_some_iff.1 hx
    obtain ⟨_, y', h1, _⟩ := h.known _ _ hy
    exact ⟨_, by simp only [SimpleImportSolver.resolver, h1, Option.map_some]; rfl⟩

theorem SimpleImportSolver.Wider.resolver {names : List Name} {s s' : SimpleImportSolver} (h : s.Wider ρ names s') :
    s'.resolver.Fresh ρ := by
  intro n x hx
  obtain ⟨y, hy, rfl⟩ := Option.map_eq_some_iff.1 hx
  exact h.fresh n y hy

theorem SimpleImportSolver.Wider.new {names : List Name} {s s' : SimpleImportSolver} (h : s.Wider ρ names s')
    {q' : Protocol} (hq : q'.Fresh ρ) (hn : q'.name ∉ names) (path : Name) : s.Wider ρ names (s'.register path q') := by
  constructor
  · intro n x hx
    obtain ⟨h1, x', h2, h3⟩ := h.known n x hx
    have e : n ≠ q'.name := fun e => hn (e ▸ h1)
    refine ⟨h1, x', ?_, h3⟩
    simp only [SimpleImportSolver.register, List.lookup_cons, beq_eq_false_iff_ne.2 e, h2]
  · intro n x hx
    simp only [SimpleImportSolver.register, List.lookup_cons] at hx
    split at hx
    · obtain rfl := Option.some.inj hx
      exact hq
    · exact h.fresh n x hx

theorem SimpleImportSolver.Wider.both {names : List Name} {s s' : SimpleImportSolver} (h : s.Wider ρ names s')
    {q q' : Protocol} (hq : q.Wider ρ q') (hn : q.name ∈ names) (path : Name) :
    (s.register path q).Wider ρ names (s'.register path q') := by
  have e := hq.name
  constructor
  · intro n x hx
    simp only [SimpleImportSolver.register, List.lookup_cons, e] at hx ⊢
    by_cases e' : n = q.name
    · simp only [e', beq_self_eq_true, Option.some.injEq] at hx ⊢
      subst hx
      exact ⟨hn, _, rfl, hq.toKnown⟩
    · simp only [beq_eq_false_iff_ne.2 e'] at hx ⊢
      exact h.known n x hx
  · intro n x hx
    simp only [SimpleImportSolver.register, List.lookup_cons] at hx
    split at hx
    · obtain rfl := Option.some.inj hx
      exact hq.fresh
    · exact h.fresh n x hx

theorem compileImports_grown {S : Prop} (hf : ρ.Faithful) {p : Profile} {names : List Name} {fl rest : List Bool}
    {vs vs' : List (Name × Model.Protocol)}
    (hv : FilesKept (fun fl a b => b.1 = a.1 ∧ a.2.GrownBy S ρ.type fl b.2)
      (fun b => b.2.name ∉ names ∧ ∀ m ∈ b.2.messages, S → ∀ t ∈ m.listed, Outside ρ.type t) (fun b => b.2.count) fl vs vs')
    (hn : ∀ a ∈ vs, a.2.name ∈ names) {s s' s1 s1' : SimpleImportSolver} (hs : s.Wider ρ names s') {w w1 w' w1' : World}
    (hw : w.Wider S ρ (fl ++ rest) w') (h : Loader.compileImports p s w vs = .ok (s1, w1))
    (h' : Loader.compileImports p s' w' vs' = .ok (s1', w1')) : s1.Wider ρ names s1' ∧ w1.Wider S ρ rest w1' := by
  induction hv generalizing s s' w w' with
  | nil =>
    obtain ⟨rfl, rfl⟩ := Prod.mk.inj (Res.ok.inj h)
    obtain ⟨rfl, rfl⟩ := Prod.mk.inj (Res.ok.inj h')
    exact ⟨hs, hw⟩
  | @keep a b fl fl' _ _ hv _ ih =>
    obtain ⟨pa, va⟩ := a
    obtain ⟨pb, vb⟩ := b
    obtain ⟨e, hv⟩ := hv
    simp only at e hv
    subst e
    obtain ⟨⟨q, w2⟩, h1, h⟩ := Res.bind_eq_ok.1 h
    obtain ⟨⟨q', w2'⟩, h1', h'⟩ := Res.bind_eq_ok.1 h'
    rw [List.append_assoc] at hw
    obtain ⟨h2, h3⟩ := protocol_grown hf hs.alike hs.resolver hv hw h1 h1'
    refine ih (fun a ha => hn a (List.mem_cons_of_mem _ ha)) (hs.both h2 ?_ _) h3 h h'
    rw [Props.fromModel_name h1]
    exact hn _ List.mem_cons_self
  | @add b fl' _ _ hv _ ih =>
    obtain ⟨pb, vb⟩ := b
    simp only at hv
    obtain ⟨⟨q', w2'⟩, h1', h'⟩ := Res.bind_eq_ok.1 h'
    rw [List.append_assoc] at hw
    obtain ⟨h2, h3⟩ := protocol_new hs.resolver hv.2 hw h1'
    exact ih hn (hs.new h2 (Props.fromModel_name h1' ▸ hv.1) _) h3 h h'

theorem compileModels_grown {S : Prop} (hf : ρ.Faithful) {p : Profile} {fl rest : List Bool} {vs vs' : List Model.Protocol}
    (hv : FilesKept (Model.Protocol.GrownBy S ρ.type) (fun b => ∀ m ∈ b.messages, S → ∀ t ∈ m.listed, Outside ρ.type t)
      Model.Protocol.count fl vs vs') {r r' : Resolver} (hr : r.Alike ρ r') (hr' : r'.Fresh ρ) {w w1 w' w1' : World}
    (hw : w.Wider S ρ (fl ++ rest) w') {qs qs' : List Protocol} (h : Loader.compileModels p r w vs = .ok (qs, w1))
    (h' : Loader.compileModels p r' w' vs' = .ok (qs', w1')) :
    Woven (Protocol.Wider ρ) qs qs' ∧ w1.Wider S ρ rest w1' := by
  induction hv generalizing w w' qs qs' with
  | nil =>
    obtain ⟨rfl, rfl⟩ := Prod.mk.inj (Res.ok.inj h)
    obtain ⟨rfl, rfl⟩ := Prod.mk.inj (Res.ok.inj h')
    exact ⟨.nil, hw⟩
  | keep hv _ ih =>
    obtain ⟨⟨q, w2⟩, h1, h⟩ := Res.bind_eq_ok.1 h
    obtain ⟨⟨qs2, w3⟩, h2, h⟩ := Res.bind_eq_ok.1 h
    obtain ⟨rfl, rfl⟩ := Prod.mk.inj (Res.ok.inj h)
    obtain ⟨⟨q', w2'⟩, h1', h'⟩ := Res.bind_eq_ok.1 h'
    obtain ⟨⟨qs2', w3'⟩, h2', h'⟩ := Res.bind_eq_ok.1 h'
    obtain ⟨rfl, rfl⟩ := Prod.mk.inj (Res.ok.inj h')
    rw [List.append_assoc] at hw
    obtain ⟨h3, h4⟩ := protocol_grown hf hr hr' hv hw h1 h1'
    obtain ⟨⟨k, h5, h6⟩, h7⟩ := ih h4 h2 h2'
    exact ⟨⟨q' :: k, h5.cons_cons _, .cons h3 h6⟩, h7⟩
  | add hv _ ih =>
    obtain ⟨⟨q', w2'⟩, h1', h'⟩ := Res.bind_eq_ok.1 h'
    obtain ⟨⟨qs2', w3'⟩, h2', h'⟩ := Res.bind_eq_ok.1 h'
    obtain ⟨rfl, rfl⟩ := Prod.mk.inj (Res.ok.inj h')
    rw [List.append_assoc] at hw
    obtain ⟨h3, h4⟩ := protocol_new hr' hv hw h1'
    obtain ⟨⟨k, h5, h6⟩, h7⟩ := ih h4 h h2'
    exact ⟨⟨k, h5.cons _, h6⟩, h7⟩

/-- Old names stay, others get a long prefix that makes them longer than all names in use. -/
def apart (old : List Name) (n : Nat) (x : Name) : Name := if x ∈ old then x else List.replicate n 'Z' ++ x

theorem exists_longer (l : List Name) : ∃ n, ∀ x ∈ l, x.length < n := by
  induction l with
  | nil => exact ⟨0, by simp⟩
  | cons a l ih =>
    obtain ⟨n, h⟩ := ih
    refine ⟨max n (a.length + 1), fun x hx => ?_⟩
    rcases List.mem_cons.1 hx with rfl | hx
    · omega
    · have := h x hx
      omega

theorem apart_injective {old : List Name} {n : Nat} (h : ∀ x ∈ old, x.length < n) (x y : Name)
    (e : apart old n x = apart old n y) : x = y := by
  unfold apart at e
  split at e <;> split at e
  · exact e
  · next hx _ =>
    have := h x hx
    rw [e] at this
    simp at this
  · next _ hy =>
    have := h y hy
    rw [← e] at this
    simp at this
  · exact List.append_cancel_left e

theorem listed_typeNames {v : Model.Message} {t : Name} (ht : t ∈ v.listed) : t ∈ v.typeNames := by
  simp only [Model.Message.listed, List.mem_flatMap] at ht
  obtain ⟨g, hg, ht⟩ := ht
  simp only [Model.Message.typeNames, List.mem_cons, List.mem_flatMap]
  refine .inr ⟨g, hg, ?_⟩
  split at ht
  · next e =>
    rw [Model.MField.typeNames, e]
    exact ht
  · cases ht

theorem apart_outside {old all : List Name} {n : Nat} (hall : ∀ x ∈ all, x.length < n) :
    ∀ x ∈ all, x ∉ old → Outside (apart old n) x := by
  intro x hx ho y e
  rw [apart] at e
  split at e
  · next hy => exact ho (e ▸ hy)
  · have := hall x hx
    rw [← e] at this
    simp at this

theorem grownBy {old all : List Name} {n : Nat} (hall : ∀ x ∈ all, x.length < n) {v v' : Model.Protocol}
    {S : Prop} (hv : v.Grown old (fun m => S → ∀ t ∈ m.listed, t ∉ old) v') (h : ∀ x ∈ v.typeNames, x ∈ old)
    (h' : ∀ x ∈ v'.typeNames, x ∈ all) : ∃ fl, v.GrownBy S (apart old n) fl v' := by
  have out : ∀ x ∈ v'.typeNames, x ∉ old → Outside (apart old n) x := fun x hx => apart_outside hall x (h' x hx)
  simp only [Model.Protocol.typeNames, List.mem_append, List.mem_flatMap, List.mem_map] at out
  have os : ∀ s ∈ v'.structs, s.name ∉ old → Outside (apart old n) s.name := fun s hs hn =>
    out _ (.inl (.inl (.inr ⟨s, hs, by simp [Model.Structure.typeNames]⟩))) hn
  have om : ∀ m ∈ v'.messages, (m.name ∉ old ∧ (S → ∀ t ∈ m.listed, t ∉ old)) →
      Outside (apart old n) m.name ∧ (S → ∀ t ∈ m.listed, Outside (apart old n) t) := fun m hm hn =>
    ⟨out _ (.inr ⟨m, hm, by simp [Model.Message.typeNames]⟩) hn.1,
      fun hs t ht => out t (.inr ⟨m, hm, listed_typeNames ht⟩) (hn.2 hs t ht)⟩
  obtain ⟨fs, hs⟩ := (hv.structs.mono os).kept
  obtain ⟨fm, hm⟩ := (hv.messages.mono om).kept
  refine ⟨fs ++ fm, hv.name, fun x hx => ?_, ?_, ?_, ?_, fs, fm, rfl, hs, hm⟩
  · rw [apart, if_pos (h x hx)]
  · exact hv.imports.mono fun s hs hn => out _ (.inl (.inl (.inl (.inl ⟨s, hs, rfl⟩)))) hn
  · exact hv.enums.mono fun s hs hn => out _ (.inl (.inl (.inl (.inr ⟨s, hs, rfl⟩)))) hn
  · exact hv.unions.mono fun s hs hn => out _ (.inl (.inr ⟨s, hs, by simp [Model.Union.typeNames]⟩)) hn

theorem new_outside {old all : List Name} {n : Nat} (hall : ∀ x ∈ all, x.length < n) {v : Model.Protocol}
    {S : Prop} (hv : v.New fun m => S → ∀ t ∈ m.listed, t ∉ old) (h : ∀ x ∈ v.typeNames, x ∈ all) :
    ∀ m ∈ v.messages, S → ∀ t ∈ m.listed, Outside (apart old n) t := by
  intro m hm hs t ht
  refine apart_outside hall t (h t ?_) (hv m hm hs t ht)
  simp only [Model.Protocol.typeNames, List.mem_append, List.mem_flatMap]
  exact .inr ⟨m, hm, listed_typeNames ht⟩

/-- Two builds of which the second has declarations and files added. -/
theorem compile_grown {S : Prop} {l l' : Loader} (hl : l.Grown (fun m => S → l.Unlisted m) l') {p : Profile} {sep : Name} {w1 w1' : World}
    {qs qs' : List Protocol} (h : Loader.compile p l (SimpleImportSolver.new sep) ⟨0, []⟩ = .ok (qs, w1))
    (h' : Loader.compile p l' (SimpleImportSolver.new sep) ⟨0, []⟩ = .ok (qs', w1')) :
    ∃ ρ : Revision, ρ.Faithful ∧ Woven (Protocol.Wider ρ) qs qs' ∧ KeptItems S ρ w1.embedded w1'.embedded := by
  obtain ⟨n, hn⟩ := exists_longer (l.typeNames ++ l'.typeNames)
  have h1 : ∀ x ∈ l.typeNames, x.length < n := fun x hx => hn x (List.mem_append_left _ hx)
  have h2 : ∀ x ∈ l'.typeNames, x.length < n := fun x hx => hn x (List.mem_append_right _ hx)
  obtain ⟨fi, hi⟩ := hl.imported.kept
    (grown' := fun fl a b => b.1 = a.1 ∧ a.2.GrownBy S (apart l.typeNames n) fl b.2)
    (new' := fun b => b.2.name ∉ l.importedModels.map (fun a => a.2.name) ∧
      ∀ m ∈ b.2.messages, S → ∀ t ∈ m.listed, Outside (apart l.typeNames n) t)
    (by
      rintro a ha b hb ⟨e, hg⟩
      obtain ⟨fl, hg⟩ := grownBy h2 hg (fun x hx => List.mem_append_left _ (List.mem_flatMap.2 ⟨a, ha, hx⟩))
        (fun x hx => List.mem_append_left _ (List.mem_flatMap.2 ⟨b, hb, hx⟩))
      exact ⟨fl, e, hg⟩)
    (by
      rintro b hb ⟨e, hg⟩
      exact ⟨e, new_outside h2 hg (fun x hx => List.mem_append_left _ (List.mem_flatMap.2 ⟨b, hb, hx⟩))⟩)
    (fun b => b.2.count)
  obtain ⟨fm, hm⟩ := hl.models.kept
    (grown' := Model.Protocol.GrownBy S (apart l.typeNames n))
    (new' := fun b => ∀ m ∈ b.messages, S → ∀ t ∈ m.listed, Outside (apart l.typeNames n) t)
    (fun a ha b hb hg => grownBy h2 hg (fun x hx => List.mem_append_right _ (List.mem_flatMap.2 ⟨a, ha, hx⟩))
      (fun x hx => List.mem_append_right _ (List.mem_flatMap.2 ⟨b, hb, hx⟩)))
    (fun b hb hg => new_outside h2 hg (fun x hx => List.mem_append_right _ (List.mem_flatMap.2 ⟨b, hb, hx⟩)))
    Model.Protocol.count
  let ρ : Revision := ⟨apart l.typeNames n, nthKept (fi ++ (fm ++ []))⟩
  have hf : ρ.Faithful := by
    refine ⟨apart_injective h1, fun x hx => ?_, nthKept_injective _⟩
    simp only [ρ, apart]
    split
    · exact hx
    · simp [hx, List.mem_replicate]
  have hw : (World.mk 0 []).Wider S ρ (fi ++ (fm ++ [])) ⟨0, []⟩ :=
    ⟨⟨fun i => by simp [ρ], fun j hj => by simp at hj⟩, ⟨fun i hi => by simp at hi, fun _ i hi => by simp at hi⟩⟩
  obtain ⟨⟨s1, w2⟩, h3, h⟩ := Res.bind_eq_ok.1 h
  obtain ⟨⟨s1', w2'⟩, h3', h'⟩ := Res.bind_eq_ok.1 h'
  obtain ⟨hs, hw2⟩ := compileImports_grown (ρ := ρ) hf hi (fun a ha => List.mem_map.2 ⟨a, ha, rfl⟩)
    (s := SimpleImportSolver.new sep) (s' := SimpleImportSolver.new sep)
    ⟨fun _ _ hx => (by cases hx), fun _ _ hx => (by cases hx)⟩ hw h3 h3'
  obtain ⟨hq, hw3⟩ := compileModels_grown hf hm hs.alike hs.resolver hw2 h h'
  exact ⟨ρ, hf, hq, hw3.items⟩

theorem Adds.imp {new new' : α → Prop} {l l' : List α} (h : Adds new l l') (hn : ∀ a, new a → new' a) :
    Adds new' l l' := by
  induction h with
  | nil => exact .nil
  | keep _ ih => exact .keep ih
  | add h _ ih => exact .add (hn _ h) ih

theorem Files.imp {grown grown' : α → α → Prop} {new new' : α → Prop} {l l' : List α} (h : Files grown new l l')
    (hg : ∀ a b, grown a b → grown' a b) (hn : ∀ a, new a → new' a) : Files grown' new' l l' := by
  induction h with
  | nil => exact .nil
  | keep h _ ih => exact .keep (hg _ _ h) ih
  | add h _ ih => exact .add (hn _ h) ih

theorem Loader.Grown.mono {l l' : Loader} {ok ok' : Model.Message → Prop} (h : l.Grown ok l')
    (ho : ∀ m, ok m → ok' m) : l.Grown ok' l' := by
  have hg : ∀ {old} {v v' : Model.Protocol}, v.Grown old ok v' → v.Grown old ok' v' := fun h =>
    ⟨h.name, h.imports, h.enums, h.structs, h.unions, h.messages.imp fun m hm => ⟨hm.1, ho m hm.2⟩⟩
  exact ⟨h.imported.imp (fun a b hab => ⟨hab.1, hg hab.2⟩) (fun b hb => ⟨hb.1, fun m hm => ho m (hb.2 m hm)⟩),
    h.models.imp (fun a b hab => hg hab) (fun b hb m hm => ho m (hb m hm))⟩

namespace Props

/-- The decoders generated once everything is compiled. -/
def genCtx (p : Profile) (w : World) : Ctx := ⟨p, fun id => decide (id ∈ w.embedded)⟩

/-- C103: declarations and files are added to a schema, under names it does not use, and none of what is added
has a list of a type the schema had.  If both compile, every old message has a counterpart of the same name in the
same file, which decodes every input to the same value and writes the same bytes for every value. -/
theorem C103_messages {l l' : Loader} (hl : l.Grown l.Unlisted l') {p : Profile} {sep : Name} {w1 w1' : World}
    {qs qs' : List Protocol} (h : Loader.compile p l (SimpleImportSolver.new sep) ⟨0, []⟩ = .ok (qs, w1))
    (h' : Loader.compile p l' (SimpleImportSolver.new sep) ⟨0, []⟩ = .ok (qs', w1')) (p' : Profile) :
    ∃ ks : List Protocol, ks.Sublist qs' ∧ List.Forall₂ (fun q k : Protocol => k.name = q.name ∧
      ∃ ms : List Message, ms.Sublist k.messages ∧ List.Forall₂ (fun m m' : Message => m'.name = m.name ∧
        m'.size = m.size ∧ (∀ b, m'.parse (genCtx p' w1') b = m.parse (genCtx p' w1) b) ∧
          ∀ v, m'.write (genCtx p' w1') v = m.write (genCtx p' w1) v) q.messages ms) qs ks := by
  obtain ⟨ρ, hf, ⟨ks, h1, h2⟩, h3⟩ := compile_grown (S := True) (hl.mono fun m hm _ => hm) h h'
  have hc : ρ.Context (genCtx p' w1) (genCtx p' w1') :=
    ⟨rfl, fun id => by simp only [genCtx, decide_eq_decide]; exact ⟨h3.only trivial id, h3.kept id⟩⟩
  refine ⟨ks, h1, h2.imp fun q k hq => ⟨hq.name, ?_⟩⟩
  obtain ⟨ms, h4, h5⟩ := hq.messages
  exact ⟨ms, h4, h5.imp fun m m' hm => ⟨hm.2, hm.1.size, fun b => by rw [hm.1.parse hc], hm.1.write hc.p⟩⟩

/-- C103: whatever is added, also lists of old messages, the counterparts write the same bytes for every value, and
those of self-delimiting messages decode every input to the same value. -/
theorem C103_lists {l l' : Loader} {ok : Model.Message → Prop} (hl : l.Grown ok l') {p : Profile} {sep : Name}
    {w1 w1' : World} {qs qs' : List Protocol}
    (h : Loader.compile p l (SimpleImportSolver.new sep) ⟨0, []⟩ = .ok (qs, w1))
    (h' : Loader.compile p l' (SimpleImportSolver.new sep) ⟨0, []⟩ = .ok (qs', w1')) (p' : Profile) :
    ∃ ks : List Protocol, ks.Sublist qs' ∧ List.Forall₂ (fun q k : Protocol => k.name = q.name ∧
      ∃ ms : List Message, ms.Sublist k.messages ∧ List.Forall₂ (fun m m' : Message => m'.name = m.name ∧
        m'.size = m.size ∧ (∀ v, m'.write (genCtx p' w1') v = m.write (genCtx p' w1) v) ∧
          (m.delimited (genCtx p' w1).emb = true → m'.delimited (genCtx p' w1').emb = true ∧
            ∀ b, m'.parse (genCtx p' w1') b = m.parse (genCtx p' w1) b)) q.messages ms) qs ks := by
  obtain ⟨ρ, hf, ⟨ks, h1, h2⟩, h3⟩ := compile_grown (S := False) (hl.mono fun _ _ hs => hs.elim) h h'
  have hk : ρ.Keeps (genCtx p' w1) (genCtx p' w1') :=
    ⟨rfl, fun id hid => decide_eq_true (h3.kept id (of_decide_eq_true hid))⟩
  refine ⟨ks, h1, h2.imp fun q k hq => ⟨hq.name, ?_⟩⟩
  obtain ⟨ms, h4, h5⟩ := hq.messages
  exact ⟨ms, h4, h5.imp fun m m' hm => ⟨hm.2, hm.1.size, hm.1.write hk.p,
    fun hd => ⟨hm.1.keepDelimited hk hd, fun b => by rw [hm.1.keepParse hk hd]⟩⟩⟩

/-- C103: every old structure has a counterpart of the same name and size, in which every path of field numbers
leads to an accessor that reads and writes the same bits. -/
theorem C103_structures {l l' : Loader} {ok : Model.Message → Prop} (hl : l.Grown ok l') {p : Profile} {sep : Name} {w1 w1' : World}
    {qs qs' : List Protocol} (h : Loader.compile p l (SimpleImportSolver.new sep) ⟨0, []⟩ = .ok (qs, w1))
    (h' : Loader.compile p l' (SimpleImportSolver.new sep) ⟨0, []⟩ = .ok (qs', w1')) :
    ∃ ks : List Protocol, ks.Sublist qs' ∧ List.Forall₂ (fun q k : Protocol => k.name = q.name ∧
      ∃ ss : List Structure, ss.Sublist k.structs ∧ List.Forall₂ (fun s s' : Structure => s'.name = s.name ∧
        s'.byteSize = s.byteSize ∧ ∀ is a, s.walk is = some a → ∃ a', s'.walk is = some a' ∧
          (∀ p b, a'.get p b = a.get p b) ∧ ∀ p b v, a'.set p b v = a.set p b v) q.structs ss) qs ks := by
  obtain ⟨ρ, hf, ⟨ks, h1, h2⟩, h3⟩ := compile_grown (S := False) (hl.mono fun _ _ hs => hs.elim) h h'
  refine ⟨ks, h1, h2.imp fun q k hq => ⟨hq.name, ?_⟩⟩
  obtain ⟨ss, h4, h5⟩ := hq.structs
  refine ⟨ss, h4, h5.imp fun s s' hs => ⟨hs.2, hs.1.byteSize, fun is a ha => ?_⟩⟩
  rcases hs.1.walk is with ⟨e, _⟩ | ⟨b, b', e, h6, h7, h8⟩
  · rw [ha] at e
    cases e
  · rw [ha] at e
    obtain rfl := Option.some.inj e
    exact ⟨b', h6, h7, h8⟩

namespace Ex

/-- A structure with a number, a message of it, and a list of those. -/
def small : Model.Protocol :=
  { name := ['F'], structs := [⟨['A'], [⟨['x'], .unsigned 8, none, none⟩]⟩],
    messages := [⟨['I'], [⟨['a'], .item ['A'], none⟩]⟩, ⟨['M'], [⟨['i'], .list 255 ['I'], none⟩]⟩] }

/-- Another structure, and a message and a list of it, between those of `small`. -/
def larger : Model.Protocol :=
  { name := ['F'], imports := [⟨['G'], ['K']⟩],
    structs := [⟨['B'], [⟨['y'], .unsigned 16, none, none⟩, ⟨['z'], .unsigned 8, none, none⟩]⟩,
      ⟨['A'], [⟨['x'], .unsigned 8, none, none⟩]⟩],
    messages := [⟨['J'], [⟨['b'], .item ['B'], none⟩, ⟨['k'], .item ['K'], none⟩]⟩, ⟨['I'], [⟨['a'], .item ['A'], none⟩]⟩,
      ⟨['L'], [⟨['a'], .item ['A'], none⟩, ⟨['j'], .list 255 ['J'], none⟩]⟩,
      ⟨['M'], [⟨['i'], .list 255 ['I'], none⟩]⟩] }

/-- A new file. -/
def other : Model.Protocol :=
  { name := ['G'], structs := [⟨['K'], [⟨['x'], .unsigned 4, none, none⟩, ⟨['y'], .unsigned 4, none, none⟩]⟩] }

/-- `small` and a message with a list of `M`. -/
def listing : Model.Protocol :=
  { small with messages := small.messages ++ [⟨['N'], [⟨['m'], .list 255 ['M'], none⟩]⟩] }

theorem larger_grown : (Loader.mk [small] []).Grown (Loader.mk [small] []).Unlisted ⟨[larger], [([], other)]⟩ := by
  refine ⟨.add ⟨by decide +kernel, by intro m hm; cases hm⟩ .nil, .keep ⟨rfl, ?_, .nil, ?_, .nil, ?_⟩ .nil⟩
  · exact .add (by decide +kernel) .nil
  · exact .add (by decide +kernel) (.keep .nil)
  · exact .add (by unfold Loader.Unlisted; decide +kernel)
      (.keep (.add (by unfold Loader.Unlisted; decide +kernel) (.keep .nil)))

theorem listing_grown : (Loader.mk [small] []).Grown (fun _ => True) ⟨[listing], []⟩ := by
  refine ⟨.nil, .keep ⟨rfl, .nil, .nil, .keep .nil, .nil, ?_⟩ .nil⟩
  exact .keep (.keep (.add (by decide +kernel) .nil))

/-- What the compiler makes of a build with one file. -/
def compiled (v : Model.Protocol) (xs : List (Name × Model.Protocol)) : List Protocol × World :=
  match Loader.compile .checked ⟨[v], xs⟩ SimpleImportSolver.default ⟨0, []⟩ with
  | .ok r => r
  | _ => ([], ⟨0, []⟩)

/-- The message `M` of such a build. -/
def theM (v : Model.Protocol) (xs : List (Name × Model.Protocol)) : Message :=
  (((compiled v xs).1.flatMap Protocol.messages).find? (fun m => m.name == ['M'])).getD (.mk 0 [] [] ⟨false, false⟩)

/-- `small`, compiled. -/
def smallC : Protocol := (compiled small []).1.head (by decide +kernel)

/-- How many bytes decoding took. -/
def _root_.Proto.Res.bytesTaken {ε α : Type} : Res ε (Msg α) → Option Nat
  | .ok r => some r.size
  | _ => none

theorem small_compiles : Loader.compile .checked ⟨[small], []⟩ SimpleImportSolver.default ⟨0, []⟩ =
    .ok (compiled small []) := by krfl

theorem listing_compiles : Loader.compile .checked ⟨[listing], []⟩ SimpleImportSolver.default ⟨0, []⟩ =
    .ok (compiled listing []) := by krfl

theorem larger_compiles : Loader.compile .checked ⟨[larger], [([], other)]⟩ SimpleImportSolver.default ⟨0, []⟩ =
    .ok (compiled larger [([], other)]) := by krfl

end Ex

/-- The message `M` of the larger schema decodes and writes what it did. -/
example : ∃ k ∈ (Ex.compiled Ex.larger [([], Ex.other)]).1, ∃ m' ∈ k.messages, m'.name = ['M'] ∧
    (∀ b, m'.parse (genCtx .checked (Ex.compiled Ex.larger [([], Ex.other)]).2) b =
      (Ex.theM Ex.small []).parse (genCtx .checked (Ex.compiled Ex.small []).2) b) ∧
    ∀ v, m'.write (genCtx .checked (Ex.compiled Ex.larger [([], Ex.other)]).2) v =
      (Ex.theM Ex.small []).write (genCtx .checked (Ex.compiled Ex.small []).2) v := by
  obtain ⟨ks, h1, h2⟩ := C103_messages Ex.larger_grown Ex.small_compiles Ex.larger_compiles .checked
  rcases forall₂_get h2 0 with ⟨e, _⟩ | ⟨q, k, e, hk, _, ms, h3, h4⟩
  · cases e
  have e : (Ex.compiled Ex.small []).1[0]? = some q := e
  obtain rfl := Option.some.inj ((show (Ex.compiled Ex.small []).1[0]? = some Ex.smallC by krfl).symm.trans e)
  rcases forall₂_get h4 1 with ⟨e, _⟩ | ⟨m, m', e, hm, h5, _, h6⟩
  · cases e
  obtain rfl := Option.some.inj ((show Ex.smallC.messages[1]? = some (Ex.theM Ex.small []) by krfl).symm.trans e)
  exact ⟨k, h1.subset (List.mem_of_getElem? hk), m', h3.subset (List.mem_of_getElem? hm),
    h5.trans (by krfl), h6⟩

/-- With a list of `M` added, `M` is written as it was and `I` is also decoded as it was. -/
example : ∃ k ∈ (Ex.compiled Ex.listing []).1, ∃ m' ∈ k.messages, ∃ i' ∈ k.messages,
    m'.name = ['M'] ∧ i'.name = ['I'] ∧
    (∀ v, m'.write (genCtx .checked (Ex.compiled Ex.listing []).2) v =
      (Ex.theM Ex.small []).write (genCtx .checked (Ex.compiled Ex.small []).2) v) ∧
    (∀ b, i'.parse (genCtx .checked (Ex.compiled Ex.listing []).2) b =
      (Ex.smallC.messages.head (by decide +kernel)).parse (genCtx .checked (Ex.compiled Ex.small []).2) b) := by
  obtain ⟨ks, h1, h2⟩ := C103_lists Ex.listing_grown Ex.small_compiles Ex.listing_compiles .checked
  rcases forall₂_get h2 0 with ⟨e, _⟩ | ⟨q, k, e, hk, _, ms, h3, h4⟩
  · cases e
  have e : (Ex.compiled Ex.small []).1[0]? = some q := e
  obtain rfl := Option.some.inj ((show (Ex.compiled Ex.small []).1[0]? = some Ex.smallC by krfl).symm.trans e)
  rcases forall₂_get h4 1 with ⟨e, _⟩ | ⟨m, m', e, hm, h5, _, h6, _⟩
  · cases e
  obtain rfl := Option.some.inj ((show Ex.smallC.messages[1]? = some (Ex.theM Ex.small []) by krfl).symm.trans e)
  rcases forall₂_get h4 0 with ⟨e, _⟩ | ⟨i, i', e, hi, h7, _, _, h8⟩
  · cases e
  obtain rfl := Option.some.inj ((show Ex.smallC.messages[0]? = some (Ex.smallC.messages.head (by decide +kernel)) by
    krfl).symm.trans e)
  exact ⟨k, h1.subset (List.mem_of_getElem? hk), m', h3.subset (List.mem_of_getElem? hm), i',
    h3.subset (List.mem_of_getElem? hi), h5.trans (by krfl), h7.trans (by krfl), h6, (h8 (by krfl)).2⟩

/-- Its structure `A`, too, has a counterpart of its size. -/
example : ∃ k ∈ (Ex.compiled Ex.larger [([], Ex.other)]).1, ∃ s' ∈ k.structs, s'.name = ['A'] ∧ s'.byteSize = 1 := by
  obtain ⟨ks, h1, h2⟩ := C103_structures Ex.larger_grown Ex.small_compiles Ex.larger_compiles
  rcases forall₂_get h2 0 with ⟨e, _⟩ | ⟨q, k, e, hk, _, ss, h3, h4⟩
  · cases e
  have e : (Ex.compiled Ex.small []).1[0]? = some q := e
  obtain rfl := Option.some.inj ((show (Ex.compiled Ex.small []).1[0]? = some Ex.smallC by krfl).symm.trans e)
  rcases forall₂_get h4 0 with ⟨e, _⟩ | ⟨s, s', e, hs, h5, h6, _⟩
  · cases e
  have e : Ex.smallC.structs[0]? = some s := e
  obtain ⟨e1, e2⟩ : s.name = ['A'] ∧ s.byteSize = 1 := by
    obtain rfl := Option.some.inj ((show Ex.smallC.structs[0]? = some (Ex.smallC.structs.head (by decide +kernel)) by
      krfl).symm.trans e)
    exact ⟨by krfl, by krfl⟩
  exact ⟨k, h1.subset (List.mem_of_getElem? hk), s', h3.subset (List.mem_of_getElem? hs), h5.trans e1, h6.trans e2⟩

/-- With a list of `M` added, `M` is decoded differently: bytes after the last item are no longer taken. -/
example : ((Ex.theM Ex.small []).parse (genCtx .checked (Ex.compiled Ex.small []).2) [1, 7, 9]).bytesTaken = some 3 ∧
    ((Ex.theM Ex.listing []).parse (genCtx .checked (Ex.compiled Ex.listing []).2) [1, 7, 9]).bytesTaken = some 2 :=
  ⟨by krfl, by krfl⟩

end Props

end Proto
