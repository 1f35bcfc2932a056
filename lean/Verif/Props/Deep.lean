import Verif.Base.Lit
import Verif.Compiler.FlagLemmas
import Verif.Gen.Reencode
import Verif.Props.Union
import Verif.Props.Work

/-!
# C117: nested data, all the way down
-/

namespace Proto

/-- A value as a client thinks of it: a list holds its items, not their encoding. -/
inductive Deep where
  /-- a number, structure, string, payload, array, or the content of a union case without content -/
  | leaf (v : Value)
  /-- an absent optional field -/
  | none
  /-- a present optional field -/
  | some (d : Deep)
  /-- case number `idx` of a union -/
  | union (idx : Nat) (d : Deep)
  /-- the fields of a message -/
  | msg (fields : List (Name × Deep))
  /-- the items of a list -/
  | list (items : List Deep)

/-! ## A client that reads everything -/

/-- The results of an iterator collected up to its end, or its first failure. -/
def gather : List (Option (R α)) → R (List α)
  | [] => .ok []
  | Option.none :: _ => .ok []
  | Option.some r :: rest => do
    let v ← r
    let vs ← gather rest
    pure (v :: vs)

/-- The results of an iterator before its end and before its first failure. -/
def oks : List (Option (R α)) → List α
  | Option.some (.ok v) :: rest => v :: oks rest
  | _ => []

/-- All of a list, one after the other, up to the first failure. -/
def each (g : α → R β) : List α → R (List β)
  | [] => .ok []
  | x :: xs => do
    let y ← g x
    let ys ← each g xs
    pure (y :: ys)

mutual
/-- Everything behind a reference. -/
def Referenced.read (c : Ctx) : Referenced → Value → R Deep
  | .struct _, v => .ok (.leaf v)
  | .message m, v => m.read c v

/-- Lists are iterated to the end, and everything in their items read. -/
def MFieldTy.read (c : Ctx) : MFieldTy → Value → R Deep
  | .ref r, v => r.read c v
  | .union u _ _, v => u.read c v
  | .list _ m, v =>
    match v with
    | .seq l => do
      let vs ← gather (Lst.steps (m.parse c) (l.len + 1) l)
      let ds ← each (m.read c) vs
      pure (.list ds)
    | _ => .panic
  | _, v => .ok (.leaf v)

/-- The content of case number `i`. -/
def Union.readCases (c : Ctx) : List UCase → Nat → Value → R Deep
  | [], _, _ => .panic
  | .mk _ _ none :: cs, i, x => if i = 0 then .ok (.leaf x) else Union.readCases c cs (i - 1) x
  | .mk _ _ (some r) :: cs, i, x => if i = 0 then r.read c x else Union.readCases c cs (i - 1) x

/-- The case of a union and everything in its content. -/
def Union.read (c : Ctx) : Union → Value → R Deep
  | .mk _ _ cases _, v =>
    match v with
    | .union i x => do
      let d ← Union.readCases c cases i x
      pure (.union i d)
    | _ => .panic

/-- A field and, if it is there, everything in it. -/
def MField.read (c : Ctx) : MField → Value → R Deep
  | .mk _ ty optional _ _, v =>
    if optional then
      match v with
      | .none => .ok .none
      | .some x => do
        let d ← ty.read c x
        pure (.some d)
      | _ => .panic
    else ty.read c v

/-- The fields one after the other. -/
def MField.readList (c : Ctx) : List MField → Env → R (List (Name × Deep))
  | [], _ => .ok []
  | f :: fs, vs =>
    match vs with
    | (n, v) :: rest => do
      let d ← f.read c v
      let ds ← MField.readList c fs rest
      pure ((n, d) :: ds)
    | [] => .panic

/-- Everything in a message. -/
def Message.read (c : Ctx) : Message → Value → R Deep
  | .mk _ _ fields _, v =>
    match v with
    | .msg vs => do
      let ds ← MField.readList c fields vs
      pure (.msg ds)
    | _ => .panic
end

/-! ## A client that builds everything -/

mutual
/-- `v` is what the client that means `d` puts behind the reference. -/
def Referenced.Built (c : Ctx) : Referenced → Deep → Value → Prop
  | .struct s, d, v => d = .leaf v ∧ ∃ b, v = .struct b ∧ b.length = s.byteSize
  | .message m, d, v => m.Built c d v

/-- Lists are built by writing their items, built in the same way, one after the other to an empty list. -/
def MFieldTy.Built (c : Ctx) : MFieldTy → Env → Deep → Value → Prop
  | .ref r, _, d, v => r.Built c d v
  | .union u on _, env, d, v => u.Built c env on d v
  | .list ty m, _, d, v =>
    ∃ (items : List (Deep × Value)) (l : Seq Bytes), (∀ x ∈ items, m.Built c x.1 x.2) ∧
      items.length < 256 ^ ty.byteSize ∧
      (Seq.new []).writeItems Sink.vec (items.map fun x => m.write c x.2) = (.ok (), l) ∧
      d = .list (items.map Prod.fst) ∧ v = .seq l
  | .fixed ty, env, d, v => d = .leaf v ∧ MFieldTy.Repr c false (.fixed ty) env v
  | .nullTerminatedString, env, d, v => d = .leaf v ∧ MFieldTy.Repr c false .nullTerminatedString env v
  | .varcharString ty, env, d, v => d = .leaf v ∧ MFieldTy.Repr c false (.varcharString ty) env v
  | .array ty s, env, d, v => d = .leaf v ∧ MFieldTy.Repr c false (.array ty s) env v
  | .payload, env, d, v => d = .leaf v ∧ MFieldTy.Repr c false .payload env v

/-- The content of case number `i`, the first one whose declared value is `k`. -/
def UCase.BuiltCase (c : Ctx) : List UCase → Nat → Nat → Deep → Value → Prop
  | [], _, _, _, _ => False
  | .mk _ case none :: cs, i, k, d, x =>
    if i = 0 then k = case ∧ d = .leaf .unit ∧ x = .unit else k ≠ case ∧ UCase.BuiltCase c cs (i - 1) k d x
  | .mk _ case (some r) :: cs, i, k, d, x =>
    if i = 0 then k = case ∧ r.Built c d x else k ≠ case ∧ UCase.BuiltCase c cs (i - 1) k d x

/-- The case the key structure in `env` announces. -/
def Union.Built (c : Ctx) : Union → Env → Name → Deep → Value → Prop
  | .mk _ disc cases _, env, on, d, v =>
    ∃ i x k e, d = .union i e ∧ v = .union i x ∧ disc.read c.p env on = .ok k ∧ UCase.BuiltCase c cases i k e x

/-- An optional field is left out or built. -/
def MField.Built (c : Ctx) : MField → Env → Deep → Value → Prop
  | .mk _ ty optional _ _, env, d, v =>
    if optional then (d = .none ∧ v = .none) ∨ ∃ e x, d = .some e ∧ v = .some x ∧ ty.Built c env e x
    else ty.Built c env d v

/-- The fields one after the other. -/
def MField.ListBuilt (c : Ctx) : List MField → Env → List (Name × Deep) → Env → Prop
  | [], _, ds, vs => ds = [] ∧ vs = []
  | f :: fs, env, ds, vs =>
    ∃ d ds' v vs', ds = (f.name, d) :: ds' ∧ vs = (f.name, v) :: vs' ∧ f.Built c env d v ∧
      MField.ListBuilt c fs (env ++ [(f.name, v)]) ds' vs'

/-- `v` is the struct the client that means `d` fills in. -/
def Message.Built (c : Ctx) : Message → Deep → Value → Prop
  | .mk _ _ fields _, d, v => ∃ ds vs, d = .msg ds ∧ v = .msg vs ∧ MField.ListBuilt c fields [] ds vs
end

/-- If the field is a list, its items end on their own. -/
def MField.endingItems (emb : Nat → Bool) (f : MField) : Bool :=
  match f.ty with
  | .list _ m => m.delimited emb
  | _ => true

theorem gather_all {vs : List α} {rest : List (Option (R α))} :
    gather (vs.map (fun v => Option.some (.ok v)) ++ Option.none :: rest) = .ok vs := by
  induction vs with
  | nil => rfl
  | cons v vs ih => simp only [List.map_cons, List.cons_append, gather, ih, Res.bind_ok, Res.pure_eq]

theorem each_ok {g : α → R β} {items : List (β × α)} (h : ∀ x ∈ items, g x.2 = .ok x.1) :
    each g (items.map Prod.snd) = .ok (items.map Prod.fst) := by
  induction items with
  | nil => rfl
  | cons x xs ih =>
    simp only [List.map_cons, each, h x List.mem_cons_self, ih (fun y hy => h y (List.mem_cons_of_mem _ hy)),
      Res.bind_ok, Res.pure_eq]

theorem UCase.built_case {c : Ctx} {cs : List UCase}
    (h : ∀ k ∈ cs, ∀ r, k.itemType = some r → ∀ d v, r.Built c d v → r.Repr c v ∧ r.read c v = .ok d)
    {i k : Nat} {d : Deep} {x : Value} (hb : UCase.BuiltCase c cs i k d x) :
    UCase.ReprCase c cs i k x ∧ Union.readCases c cs i x = .ok d := by
  induction cs generalizing i with
  | nil => simp only [UCase.BuiltCase] at hb
  | cons a cs ih =>
    have ih := ih (fun k hk => h k (List.mem_cons_of_mem _ hk)) (i := i - 1)
    obtain ⟨n, case, _ | r⟩ := a
    · simp only [UCase.BuiltCase] at hb
      simp only [UCase.ReprCase, Union.readCases]
      by_cases hi : i = 0
      · simp only [if_pos hi] at hb ⊢
        obtain ⟨h1, rfl, rfl⟩ := hb
        exact ⟨⟨h1, rfl⟩, rfl⟩
      · simp only [if_neg hi] at hb ⊢
        exact ⟨⟨hb.1, (ih hb.2).1⟩, (ih hb.2).2⟩
    · simp only [UCase.BuiltCase] at hb
      simp only [UCase.ReprCase, Union.readCases]
      by_cases hi : i = 0
      · simp only [if_pos hi] at hb ⊢
        have := h _ List.mem_cons_self r rfl d x hb.2
        exact ⟨⟨hb.1, this.1⟩, this.2⟩
      · simp only [if_neg hi] at hb ⊢
        exact ⟨⟨hb.1, (ih hb.2).1⟩, (ih hb.2).2⟩

theorem MField.built_list {c : Ctx} {fs : List MField}
    (h : ∀ f ∈ fs, ∀ env d v, f.Built c env d v → (∀ emb, f.Repr c emb env v) ∧ f.read c v = .ok d)
    {env : Env} {ds : List (Name × Deep)} {vs : Env} (hb : MField.ListBuilt c fs env ds vs) :
    (∀ emb, MField.ListRepr c emb fs env vs) ∧ MField.readList c fs vs = .ok ds := by
  induction fs generalizing env ds vs with
  | nil =>
    simp only [MField.ListBuilt] at hb
    obtain ⟨rfl, rfl⟩ := hb
    exact ⟨fun _ => by simp only [MField.ListRepr], rfl⟩
  | cons f fs ih =>
    simp only [MField.ListBuilt] at hb
    obtain ⟨d, ds', v, vs', rfl, rfl, h1, h2⟩ := hb
    obtain ⟨a1, a2⟩ := h f List.mem_cons_self env d v h1
    obtain ⟨b1, b2⟩ := ih (fun g hg => h g (List.mem_cons_of_mem _ hg)) h2
    refine ⟨fun emb => ?_, ?_⟩
    · simp only [MField.ListRepr]
      exact ⟨v, vs', rfl, a1 emb, b1 emb⟩
    · simp only [MField.readList, a2, b2, Res.bind_ok, Res.pure_eq]

theorem builtInd (c : Ctx) : SchemaInd
    (fun m => m.allFields (MField.endingItems c.emb) = true →
      ∀ d v, m.Built c d v → m.Repr c v ∧ m.read c v = .ok d)
    (fun ty => ty.allFields (MField.endingItems c.emb) = true →
      MField.endingItems c.emb (.mk [] ty false ⟨false, false⟩ .little) = true →
      ∀ env d v, ty.Built c env d v → (∀ emb, ty.Repr c emb env v) ∧ ty.read c v = .ok d) where
  fixed ty _ _ env d v h := by
    simp only [MFieldTy.Built] at h
    obtain ⟨rfl, h⟩ := h
    exact ⟨fun emb => by simpa only [MFieldTy.Repr] using h, by simp only [MFieldTy.read]⟩
  struct s _ _ env d v h := by
    simp only [MFieldTy.Built, Referenced.Built] at h
    obtain ⟨rfl, h⟩ := h
    exact ⟨fun emb => by simpa only [MFieldTy.Repr, Referenced.Repr] using h,
      by simp only [MFieldTy.read, Referenced.read]⟩
  message m hm ha _ env d v h := by
    simp only [MFieldTy.Built, Referenced.Built] at h
    have := hm (by simpa only [MFieldTy.allFields, Referenced.allFields] using ha) d v h
    exact ⟨fun emb => by simpa only [MFieldTy.Repr, Referenced.Repr] using this.1,
      by simpa only [MFieldTy.read, Referenced.read] using this.2⟩
  nul _ _ env d v h := by
    simp only [MFieldTy.Built] at h
    obtain ⟨rfl, h⟩ := h
    exact ⟨fun emb => by simpa only [MFieldTy.Repr] using h, by simp only [MFieldTy.read]⟩
  varchar ty _ _ env d v h := by
    simp only [MFieldTy.Built] at h
    obtain ⟨rfl, h⟩ := h
    exact ⟨fun emb => by simpa only [MFieldTy.Repr] using h, by simp only [MFieldTy.read]⟩
  array ty s _ _ env d v h := by
    simp only [MFieldTy.Built] at h
    obtain ⟨rfl, h⟩ := h
    exact ⟨fun emb => by simpa only [MFieldTy.Repr] using h, by simp only [MFieldTy.read]⟩
  union n disc cs sz on i hcs ha _ env d v h := by
    simp only [MFieldTy.Built, Union.Built] at h
    obtain ⟨i, x, k, e, rfl, rfl, hd, hb⟩ := h
    simp only [MFieldTy.allFields, Union.allFields] at ha
    have := UCase.built_case (fun k hk r hr d v hv => by
      have h1 := hcs k hk r hr (by simpa only [MFieldTy.allFields] using UCase.listAllFields_mem ha k hk r hr) rfl
        [] d v (by simpa only [MFieldTy.Built] using hv)
      exact ⟨by simpa only [MFieldTy.Repr] using h1.1 false, by simpa only [MFieldTy.read] using h1.2⟩) hb
    refine ⟨fun emb => ?_, ?_⟩
    · simp only [MFieldTy.Repr, Union.Repr]
      exact ⟨i, x, k, rfl, hd, this.1⟩
    · simp only [MFieldTy.read, Union.read, this.2, Res.bind_ok, Res.pure_eq]
  list ty m hm ha he env d v h := by
    simp only [MFieldTy.Built] at h
    obtain ⟨items, l, hi, hn, hw, rfl, rfl⟩ := h
    simp only [MField.endingItems, MField.ty] at he
    have hm' := fun x hx => hm (by simpa only [MFieldTy.allFields] using ha) _ _ (hi x hx)
    have hself : ∀ v ∈ items.map Prod.snd, Props.SelfDelimiting (m.parse c) (m.write c) v := by
      intro v hv
      obtain ⟨x, hx, rfl⟩ := List.mem_map.1 hv
      have := Message.roundTrips c m x.2 (hm' x hx).1
      exact ⟨this.1, fun t => this.2.1 he t⟩
    have hbuild := Props.C31_builder (m.write c) (Seq.new []) (items.map Prod.snd) (fun v hv => (hself v hv).1)
    simp only [Seq.new, List.nil_append, Nat.zero_add, List.map_map, List.length_map] at hbuild hw
    rw [show (m.write c ∘ Prod.snd) = fun x : Deep × Value => m.write c x.2 from rfl, hw] at hbuild
    simp only [Prod.mk.injEq, true_and] at hbuild
    subst hbuild
    refine ⟨fun emb => ?_, ?_⟩
    · simp only [MFieldTy.Repr]
      refine ⟨_, rfl, hn, fun _ => ⟨items.map Prod.snd, by simp, fun v hv => ?_, rfl⟩⟩
      obtain ⟨x, hx, rfl⟩ := List.mem_map.1 hv
      exact (hm' x hx).1
    · have hs := Props.steps_blocks (Props.blocks_flatMap _ hself) [] 1
      simp only [List.append_nil, List.length_map, List.replicate_one] at hs
      simp only [MFieldTy.read, hs, gather_all, Res.bind_ok, each_ok (fun x hx => (hm' x hx).2), Res.pure_eq]
  payload _ _ env d v h := by
    simp only [MFieldTy.Built] at h
    obtain ⟨rfl, h⟩ := h
    exact ⟨fun emb => by simpa only [MFieldTy.Repr] using h, by simp only [MFieldTy.read]⟩
  msg id n fs sz hf ha d v h := by
    simp only [Message.Built] at h
    obtain ⟨ds, vs, rfl, rfl, hb⟩ := h
    have ha' := MField.listAllFields_mem (by simpa only [Message.allFields] using ha)
    have key : ∀ f ∈ fs, ∀ env d v, f.Built c env d v → (∀ emb, f.Repr c emb env v) ∧ f.read c v = .ok d := by
      intro f hfm env d v hv
      have h1 := hf f hfm (ha' f hfm).2 (ha' f hfm).1
      obtain ⟨_, ty, o, _, e⟩ := f
      simp only [MField.Built, MField.Repr, MField.read] at hv ⊢
      cases o with
      | false => exact h1 env d v hv
      | true =>
        simp only [if_true] at hv ⊢
        rcases hv with ⟨rfl, rfl⟩ | ⟨d, x, rfl, rfl, hv⟩
        · exact ⟨fun _ => .inl rfl, rfl⟩
        · obtain ⟨a1, a2⟩ := h1 env d x hv
          simp only [MField.ty] at a2
          exact ⟨fun emb => .inr ⟨x, rfl, a1 emb⟩, by simp only [a2, Res.bind_ok, Res.pure_eq]⟩
    obtain ⟨h1, h2⟩ := MField.built_list key hb
    refine ⟨?_, ?_⟩
    · simp only [Message.Repr]
      exact ⟨vs, rfl, h1 _⟩
    · simp only [Message.read, h2, Res.bind_ok, Res.pure_eq]

/-! ## Reading what was decoded -/

/-- A property of outcomes that success has and that sequencing keeps. -/
structure ReadKept (S : ∀ {α : Type}, R α → Prop) : Prop where
  ok : ∀ {α : Type} (a : α), S (.ok a)
  bind : ∀ {α β : Type} {x : R α} {g : α → R β}, S x → (∀ a, x = .ok a → S (g a)) → S (x >>= g)

theorem ReadKept.each {S : ∀ {α : Type}, R α → Prop} (hS : ReadKept S) {α β : Type} {g : α → R β} {xs : List α}
    (h : ∀ x ∈ xs, S (g x)) : S (each g xs) := by
  induction xs with
  | nil => exact hS.ok _
  | cons x xs ih =>
    refine hS.bind (h x List.mem_cons_self) fun y _ => ?_
    refine hS.bind (ih fun z hz => h z (List.mem_cons_of_mem _ hz)) fun ys _ => hS.ok _

/-- What iterating a list comes to: all announced items, or the failure of the one behind the last good one. -/
theorem Lst.gather_steps {f : Parser α} (hc : f.Cut) (l : Seq Bytes) :
    ∃ vs rest, Props.Chain f l.data vs rest ∧ vs.length ≤ l.len ∧ oks (Lst.steps f (l.len + 1) l) = vs ∧
      (gather (Lst.steps f (l.len + 1) l) = .ok vs ∨
        vs.length < l.len ∧ ((∃ e, f rest = .err e ∧ gather (Lst.steps f (l.len + 1) l) = .err e) ∨
          f rest = .panic ∧ gather (Lst.steps f (l.len + 1) l) = .panic)) := by
  obtain ⟨vs, rest, stop, h1, h2, h3, h4, h5⟩ := Props.C33_any f hc l
  have hst : Lst.steps f (l.len + 1) l = vs.map (fun v => Option.some (.ok v)) ++
      stop :: List.replicate (l.len - vs.length) stop := by
    rw [h5, List.take_of_length_le (by simp; omega), show l.len + 1 - vs.length = (l.len - vs.length) + 1 by omega,
      List.replicate_succ]
  have hfail : ∀ r : R α, (∀ v, r ≠ .ok v) → stop = Option.some r →
      gather (Lst.steps f (l.len + 1) l) = r.bind (fun _ => .ok []) ∧ oks (Lst.steps f (l.len + 1) l) = vs := by
    intro r hr hs
    rw [hst, hs]
    generalize List.replicate (l.len - vs.length) (Option.some r) = tl
    clear h1 h2 h3 h4 h5 hst
    induction vs with
    | nil =>
      cases r with
      | ok v => exact absurd rfl (hr v)
      | err e => exact ⟨rfl, rfl⟩
      | panic => exact ⟨rfl, rfl⟩
    | cons v vs ih =>
      simp only [List.map_cons, List.cons_append, gather, oks, ih.1, ih.2, Res.bind_ok]
      cases r with
      | ok v => exact absurd rfl (hr v)
      | err e => exact ⟨rfl, trivial⟩
      | panic => exact ⟨rfl, trivial⟩
  have hall : stop = Option.none → oks (Lst.steps f (l.len + 1) l) = vs := by
    intro hs
    rw [hst, hs]
    generalize List.replicate (l.len - vs.length) Option.none = tl
    clear h1 h2 h3 h4 h5 hst hfail
    induction vs with
    | nil => rfl
    | cons v vs ih => simp only [List.map_cons, List.cons_append, oks, ih]
  by_cases hlt : vs.length < l.len
  · rcases h4 hlt with ⟨e, he, hs⟩ | ⟨he, hs⟩
    · obtain ⟨g1, g2⟩ := hfail (.err e) (by simp) hs
      exact ⟨vs, rest, h1, h2, g2, .inr ⟨hlt, .inl ⟨e, he, g1⟩⟩⟩
    · obtain ⟨g1, g2⟩ := hfail .panic (by simp) hs
      exact ⟨vs, rest, h1, h2, g2, .inr ⟨hlt, .inr ⟨he, g1⟩⟩⟩
  · have hs := h3 (by omega)
    refine ⟨vs, rest, h1, h2, hall hs, .inl ?_⟩
    rw [hst, hs]
    exact gather_all

theorem Props.Chain.mem {f : Parser α} {b rest : Bytes} {vs : List α} (h : Props.Chain f b vs rest) :
    ∀ v ∈ vs, ∃ b n, f b = .ok ⟨n, v⟩ := by
  induction h with
  | nil => simp
  | @cons b rest m v vs hf _ ih =>
    intro w hw
    rcases List.mem_cons.1 hw with rfl | hw
    · exact ⟨b, m, hf⟩
    · exact ih w hw

/-- The decoder of a list field. -/
def Lst.either (here : Bool) (e : Endian) (sz : Nat) (f : Parser α) : Parser (Seq Bytes) :=
  if here then Lst.fromSlice e sz f else Lst.unsizedFromSlice e sz

theorem Union.readCases_kept {S : ∀ {α : Type}, R α → Prop} (hS : ReadKept S) {c : Ctx} {cs : List UCase}
    (h : ∀ k ∈ cs, ∀ r, k.itemType = some r → ∀ b n v, r.parse c b = .ok ⟨n, v⟩ → S (r.read c v)) (i0 d : Nat)
    {b : Bytes} {n : Nat} {v : Value} (hv : Union.parseCases c cs i0 d b = .ok ⟨n, v⟩) :
    ∃ i x, v = .union (i0 + i) x ∧ S (Union.readCases c cs i x) := by
  induction cs generalizing i0 with
  | nil => simp [Union.parseCases] at hv
  | cons k cs ih =>
    obtain ⟨nm, case, t⟩ := k
    by_cases hd : d = case
    · refine ⟨0, ?_⟩
      cases t with
      | none =>
        simp only [Union.parseCases, if_pos hd, Res.ok.injEq, Msg.mk.injEq] at hv
        exact ⟨.unit, hv.2.symm, by simp only [Union.readCases, if_true]; exact hS.ok _⟩
      | some r =>
        simp only [Union.parseCases, if_pos hd] at hv
        obtain ⟨x, hx, rfl⟩ := Parser.map_eq_ok.mp hv
        exact ⟨x, rfl, by simp only [Union.readCases, if_true]; exact h _ List.mem_cons_self r rfl b n x hx⟩
    · have hp : Union.parseCases c (.mk nm case t :: cs) i0 d = Union.parseCases c cs (i0 + 1) d := by
        cases t <;> simp only [Union.parseCases, if_neg hd]
      rw [hp] at hv
      obtain ⟨i, x, rfl, hr⟩ := ih (fun k hk => h k (List.mem_cons_of_mem _ hk)) (i0 + 1) hv
      refine ⟨i + 1, x, by congr 1; omega, ?_⟩
      cases t <;> simpa only [Union.readCases, if_neg (Nat.succ_ne_zero i), Nat.add_sub_cancel] using hr

theorem MField.readList_kept {S : ∀ {α : Type}, R α → Prop} (hS : ReadKept S) {c : Ctx} {emb : Bool} {fs : List MField}
    (h : ∀ f ∈ fs, ∀ env b n v, f.parse c emb env b = .ok ⟨n, v⟩ → S (f.read c v)) {env vs : Env} {b : Bytes}
    {n : Nat} (hr : runFields (MField.parse c emb) fs env b = .ok (n, env ++ vs)) : S (MField.readList c fs vs) := by
  induction fs generalizing env vs b n with
  | nil => exact hS.ok _
  | cons f fs ih =>
    obtain ⟨m, v, k, hv, hk, rfl⟩ := runFields_cons_ok.mp hr
    obtain ⟨rest, hrest⟩ := runFields_env hk
    have hvs : vs = (f.name, v) :: rest := by
      have := hrest
      rw [List.append_assoc] at this
      simpa using List.append_cancel_left this
    subst hvs
    have he : env ++ (f.name, v) :: rest = env ++ [(f.name, v)] ++ rest := by simp
    rw [he] at hk
    simp only [MField.readList]
    refine hS.bind (h f List.mem_cons_self env b m v hv) fun d _ => ?_
    exact hS.bind (ih (fun g hg => h g (List.mem_cons_of_mem _ hg)) hk) fun ds _ => hS.ok _

theorem readInd {S : ∀ {α : Type}, R α → Prop} (hS : ReadKept S) (c : Ctx) {q : Message → Prop}
    (hq : ∀ m f t item, q m → f ∈ m.fields → f.ty = .list t item → item.AllMessages q → ∀ e sz b n l,
      Lst.either (c.emb m.id) e sz (item.parse c) b = .ok ⟨n, l⟩ →
      S (gather (Lst.steps (item.parse c) (l.len + 1) l))) : SchemaInd
    (fun m => m.AllMessages q → ∀ b n v, m.parse c b = .ok ⟨n, v⟩ → S (m.read c v))
    (fun ty => ty.AllMessages q → ∀ m f, q m → f ∈ m.fields → (f.ty = ty ∨ ∃ r, ty = .ref r) → ∀ e env b n v,
      ty.parse c (c.emb m.id) e env b = .ok ⟨n, v⟩ → S (ty.read c v)) where
  fixed ty _ m f _ _ _ e env b n v _ := by simp only [MFieldTy.read]; exact hS.ok _
  struct s _ m f _ _ _ e env b n v _ := by simp only [MFieldTy.read, Referenced.read]; exact hS.ok _
  message m h ha _ _ _ _ _ e env b n v hv := by
    simp only [MFieldTy.AllMessages, Referenced.AllMessages, MFieldTy.parse, Referenced.parse] at ha hv
    simpa only [MFieldTy.read, Referenced.read] using h ha b n v hv
  nul _ m f _ _ _ e env b n v _ := by simp only [MFieldTy.read]; exact hS.ok _
  varchar ty _ m f _ _ _ e env b n v _ := by simp only [MFieldTy.read]; exact hS.ok _
  array ty s _ m f _ _ _ e env b n v _ := by simp only [MFieldTy.read]; exact hS.ok _
  union n disc cs sz on i h ha m f hm hf _ e env b k v hv := by
    simp only [MFieldTy.parse, Union.parse] at hv
    obtain ⟨d, _, hv⟩ := Res.bind_eq_ok.1 hv
    simp only [MFieldTy.AllMessages, Union.AllMessages] at ha
    obtain ⟨i, x, rfl, hx⟩ := Union.readCases_kept hS (fun k hk r hr b n v hv => by
      have := h k hk r hr (by simpa only [MFieldTy.AllMessages] using UCase.listAllMessages_mem ha k hk r hr) m f hm hf
        (.inr ⟨r, rfl⟩) e env b n v (by simpa only [MFieldTy.parse] using hv)
      simpa only [MFieldTy.read] using this) 0 d hv
    simp only [MFieldTy.read, Union.read, Nat.zero_add]
    exact hS.bind hx fun _ _ => hS.ok _
  list ty item h ha m f hm hf ht e env b n v hv := by
    rcases ht with ht | ⟨_, ht⟩
    · simp only [MFieldTy.AllMessages] at ha
      have hv' : (Lst.either (c.emb m.id) e ty.byteSize (item.parse c)).map .seq b = .ok ⟨n, v⟩ := by
        simp only [MFieldTy.parse] at hv
        simp only [Lst.either]
        split <;> simp_all
      obtain ⟨l, hl, rfl⟩ := Parser.map_eq_ok.mp hv'
      obtain ⟨vs, rest, h1, _, _, _⟩ := Lst.gather_steps (Message.cut c item) l
      simp only [MFieldTy.read]
      refine hS.bind (hq m f ty item hm hf ht ha e _ b n l hl) fun ws hws => ?_
      refine hS.bind (hS.each fun x hx => ?_) fun _ _ => hS.ok _
      have hx : ∃ b n, item.parse c b = .ok ⟨n, x⟩ := by
        obtain ⟨vs, rest, h1, _, _, h2 | ⟨_, ⟨e, _, h2⟩ | ⟨_, h2⟩⟩⟩ := Lst.gather_steps (Message.cut c item) l
        · rw [hws] at h2
          cases h2
          exact h1.mem x hx
        · rw [hws] at h2
          cases h2
        · rw [hws] at h2
          cases h2
      obtain ⟨b, n, hx⟩ := hx
      exact h ha b n x hx
    · cases ht
  payload _ m f _ _ _ e env b n v _ := by simp only [MFieldTy.read]; exact hS.ok _
  msg id n fs sz h ha b k v hv := by
    obtain ⟨vs, rfl, hr⟩ := Message.parse_eq_ok.1 hv
    simp only [Message.AllMessages] at ha
    have hm := MField.listAllMessages_mem ha.2
    simp only [Message.read]
    refine hS.bind (MField.readList_kept hS (emb := c.emb id) (env := []) (vs := vs) (b := b) (n := k)
      (fun f hf env b n v hv => ?_) (by simpa only [Message.id, Message.fields, List.nil_append] using hr))
      fun _ _ => hS.ok _
    have h1 := h f hf (hm f hf) _ f ha.1 (by simpa only [Message.fields] using hf) (.inl rfl) f.endian env
    obtain ⟨_, ty, o, _, e⟩ := f
    simp only [MField.parse, MField.read, Message.id, MField.ty, MField.endian] at hv h1 ⊢
    cases o with
    | false => exact h1 b n v hv
    | true =>
      simp only [if_true] at hv ⊢
      obtain ⟨o, ho, rfl⟩ := Parser.map_eq_ok.mp hv
      rcases Optional.fromSlice_eq_ok.mp ho with ⟨t, rfl, rfl, rfl⟩ | ⟨x, t, m, w, rfl, hx, hw, rfl, rfl⟩
      · exact hS.ok _
      · simp only [Value.ofOption]
        exact hS.bind (h1 t m w hw) fun _ _ => hS.ok _

theorem quietInd (c : Ctx) : SchemaInd
    (fun m => m.allFields MField.notVarchar = true → m.allFields MField.countFits = true →
      m.AllMessages Message.Keyed → m.AllMessages fun m => ∀ b, m.parse c b ≠ .panic)
    (fun ty => ty.allFields MField.notVarchar = true → ty.allFields MField.countFits = true →
      ty.AllMessages Message.Keyed → ty.AllMessages fun m => ∀ b, m.parse c b ≠ .panic) where
  fixed _ _ _ _ := by simp only [MFieldTy.AllMessages]
  struct _ _ _ _ := by simp only [MFieldTy.AllMessages, Referenced.AllMessages]
  message m h h1 h2 h3 := by
    simp only [MFieldTy.AllMessages, Referenced.AllMessages, MFieldTy.allFields, Referenced.allFields] at h1 h2 h3 ⊢
    exact h h1 h2 h3
  nul _ _ _ := by simp only [MFieldTy.AllMessages]
  varchar _ _ _ _ := by simp only [MFieldTy.AllMessages]
  array _ _ _ _ _ := by simp only [MFieldTy.AllMessages]
  union n d cs sz on i h h1 h2 h3 := by
    simp only [MFieldTy.AllMessages, Union.AllMessages, MFieldTy.allFields, Union.allFields] at h1 h2 h3 ⊢
    rw [UCase.listAllMessages_iff]
    intro k hk r hr
    have := h k hk r hr (by simpa only [MFieldTy.allFields] using UCase.listAllFields_mem h1 k hk r hr)
      (by simpa only [MFieldTy.allFields] using UCase.listAllFields_mem h2 k hk r hr)
      (by simpa only [MFieldTy.AllMessages] using UCase.listAllMessages_mem h3 k hk r hr)
    simpa only [MFieldTy.AllMessages] using this
  list _ m h h1 h2 h3 := by
    simp only [MFieldTy.AllMessages, MFieldTy.allFields] at h1 h2 h3 ⊢
    exact h h1 h2 h3
  payload _ _ _ := by simp only [MFieldTy.AllMessages]
  msg id n fs sz h h1 h2 h3 := by
    have hp := Props.C25_no_panic c h1 h2 h3
    simp only [Message.AllMessages, Message.allFields] at h1 h2 h3 ⊢
    refine ⟨hp, MField.listAllMessages_iff.2 fun f hf => ?_⟩
    exact h f hf (MField.listAllFields_mem h1 f hf).2 (MField.listAllFields_mem h2 f hf).2
      (MField.listAllMessages_mem h3.2 f hf)

/-! ## What reading costs -/

mutual
/-- The work of reading everything behind a reference. -/
def Referenced.readWork (c : Ctx) : Referenced → Value → Nat
  | .struct _, _ => 0
  | .message m, v => m.readWork c v

/-- The calls of `next` up to the one that ends or fails, and what the items take. -/
def MFieldTy.readWork (c : Ctx) : MFieldTy → Value → Nat
  | .ref r, v => r.readWork c v
  | .union u _ _, v => u.readWork c v
  | .list _ m, v =>
    match v with
    | .seq l =>
      Lst.stepsWork (m.parse c) (m.work c) ((oks (Lst.steps (m.parse c) (l.len + 1) l)).length + 1) l +
        ((oks (Lst.steps (m.parse c) (l.len + 1) l)).map (m.readWork c)).sum
    | _ => 0
  | _, _ => 0

/-- The content of case number `i`. -/
def Union.readCasesWork (c : Ctx) : List UCase → Nat → Value → Nat
  | [], _, _ => 0
  | .mk _ _ none :: cs, i, x => if i = 0 then 0 else Union.readCasesWork c cs (i - 1) x
  | .mk _ _ (some r) :: cs, i, x => if i = 0 then r.readWork c x else Union.readCasesWork c cs (i - 1) x

/-- The content of the case. -/
def Union.readWork (c : Ctx) : Union → Value → Nat
  | .mk _ _ cases _, v =>
    match v with
    | .union i x => Union.readCasesWork c cases i x
    | _ => 0

/-- A field, if it is there. -/
def MField.readWork (c : Ctx) : MField → Value → Nat
  | .mk _ ty optional _ _, v =>
    if optional then
      match v with
      | .some x => ty.readWork c x
      | _ => 0
    else ty.readWork c v

/-- All fields. -/
def MField.readListWork (c : Ctx) : List MField → Env → Nat
  | [], _ => 0
  | f :: fs, vs =>
    match vs with
    | (_, v) :: rest => f.readWork c v + MField.readListWork c fs rest
    | [] => 0

/-- Everything in a message. -/
def Message.readWork (c : Ctx) : Message → Value → Nat
  | .mk _ _ fields _, v =>
    match v with
    | .msg vs => MField.readListWork c fields vs
    | _ => 0
end

mutual
/-- What reading a reference costs whatever its size. -/
def Referenced.readBase (emb : Nat → Bool) : Referenced → Nat
  | .struct _ => 0
  | .message m => m.readBase emb

/-- The last call of `next` on a list. -/
def MFieldTy.readBase (emb : Nat → Bool) : MFieldTy → Nat
  | .ref r => r.readBase emb
  | .union u _ _ => u.readBase emb
  | .list _ m => 1 + m.base emb
  | _ => 0

/-- The most of all cases. -/
def UCase.listReadBase (emb : Nat → Bool) : List UCase → Nat
  | [] => 0
  | .mk _ _ none :: cs => UCase.listReadBase emb cs
  | .mk _ _ (some r) :: cs => max (r.readBase emb) (UCase.listReadBase emb cs)

/-- The most of all cases. -/
def Union.readBase (emb : Nat → Bool) : Union → Nat
  | .mk _ _ cases _ => UCase.listReadBase emb cases

/-- All fields. -/
def MField.listReadBase (emb : Nat → Bool) : List MField → Nat
  | [] => 0
  | .mk _ ty _ _ _ :: fs => ty.readBase emb + MField.listReadBase emb fs

/-- All fields. -/
def Message.readBase (emb : Nat → Bool) : Message → Nat
  | .mk _ _ fields _ => MField.listReadBase emb fields
end

mutual
/-- What reading a reference costs per byte. -/
def Referenced.readRate (emb : Nat → Bool) : Referenced → Nat
  | .struct _ => 0
  | .message m => m.readRate emb

/-- A byte may be all of an item, which is decoded and then read. -/
def MFieldTy.readRate (emb : Nat → Bool) : MFieldTy → Nat
  | .ref r => r.readRate emb
  | .union u _ _ => u.readRate emb
  | .list _ m => (1 + m.base emb + m.rate emb) + (m.readBase emb + m.readRate emb)
  | _ => 0

/-- The most of all cases. -/
def UCase.listReadRate (emb : Nat → Bool) : List UCase → Nat
  | [] => 0
  | .mk _ _ none :: cs => UCase.listReadRate emb cs
  | .mk _ _ (some r) :: cs => max (r.readRate emb) (UCase.listReadRate emb cs)

/-- The most of all cases. -/
def Union.readRate (emb : Nat → Bool) : Union → Nat
  | .mk _ _ cases _ => UCase.listReadRate emb cases

/-- The most of all fields. -/
def MField.listReadRate (emb : Nat → Bool) : List MField → Nat
  | [] => 0
  | .mk _ ty _ _ _ :: fs => max (ty.readRate emb) (MField.listReadRate emb fs)

/-- The most of all fields. -/
def Message.readRate (emb : Nat → Bool) : Message → Nat
  | .mk _ _ fields _ => MField.listReadRate emb fields
end

theorem UCase.le_listRead {emb : Nat → Bool} {cs : List UCase} : ∀ k ∈ cs, ∀ r, k.itemType = some r →
    r.readBase emb ≤ UCase.listReadBase emb cs ∧ r.readRate emb ≤ UCase.listReadRate emb cs := by
  induction cs with
  | nil => simp
  | cons k cs ih =>
    intro k' hk r hr
    rcases List.mem_cons.1 hk with rfl | hk
    · obtain ⟨_, _, o⟩ := k'
      cases hr
      simp only [UCase.listReadBase, UCase.listReadRate]
      omega
    · have := ih k' hk r hr
      obtain ⟨_, _, _ | r0⟩ := k <;> simp only [UCase.listReadBase, UCase.listReadRate] <;> omega

theorem Union.readCases_le {c : Ctx} {x y : Nat} {cs : List UCase}
    (h : ∀ k ∈ cs, ∀ r, k.itemType = some r → ∀ b n v, r.parse c b = .ok ⟨n, v⟩ → r.readWork c v ≤ x + y * n)
    (i0 d : Nat) {b : Bytes} {n : Nat} {v : Value} (hv : Union.parseCases c cs i0 d b = .ok ⟨n, v⟩) :
    ∃ i w, v = .union (i0 + i) w ∧ Union.readCasesWork c cs i w ≤ x + y * n := by
  induction cs generalizing i0 with
  | nil => simp [Union.parseCases] at hv
  | cons k cs ih =>
    obtain ⟨nm, case, t⟩ := k
    by_cases hd : d = case
    · refine ⟨0, ?_⟩
      cases t with
      | none =>
        simp only [Union.parseCases, if_pos hd, Res.ok.injEq, Msg.mk.injEq] at hv
        exact ⟨.unit, hv.2.symm, by simp only [Union.readCasesWork, if_true]; omega⟩
      | some r =>
        simp only [Union.parseCases, if_pos hd] at hv
        obtain ⟨w, hw, rfl⟩ := Parser.map_eq_ok.mp hv
        exact ⟨w, rfl, by simp only [Union.readCasesWork, if_true]; exact h _ List.mem_cons_self r rfl b n w hw⟩
    · have hp : Union.parseCases c (.mk nm case t :: cs) i0 d = Union.parseCases c cs (i0 + 1) d := by
        cases t <;> simp only [Union.parseCases, if_neg hd]
      rw [hp] at hv
      obtain ⟨i, w, rfl, hr⟩ := ih (fun k hk => h k (List.mem_cons_of_mem _ hk)) (i0 + 1) hv
      refine ⟨i + 1, w, by congr 1; omega, ?_⟩
      cases t <;> simpa only [Union.readCasesWork, if_neg (Nat.succ_ne_zero i), Nat.add_sub_cancel] using hr

theorem MField.readList_le {c : Ctx} {emb : Bool} {fs : List MField}
    (h : ∀ f ∈ fs, ∀ env b n v, f.parse c emb env b = .ok ⟨n, v⟩ →
      f.readWork c v ≤ f.ty.readBase c.emb + f.ty.readRate c.emb * n) {env vs : Env} {b : Bytes} {n : Nat}
    (hr : runFields (MField.parse c emb) fs env b = .ok (n, env ++ vs)) :
    MField.readListWork c fs vs ≤ MField.listReadBase c.emb fs + MField.listReadRate c.emb fs * n := by
  induction fs generalizing env vs b n with
  | nil => simp only [MField.readListWork]; omega
  | cons f fs ih =>
    obtain ⟨m, v, k, hv, hk, rfl⟩ := runFields_cons_ok.mp hr
    obtain ⟨rest, hrest⟩ := runFields_env hk
    have hvs : vs = (f.name, v) :: rest := by
      have := hrest
      rw [List.append_assoc] at this
      simpa using List.append_cancel_left this
    subst hvs
    have he : env ++ (f.name, v) :: rest = env ++ [(f.name, v)] ++ rest := by simp
    rw [he] at hk
    have h1 := h f List.mem_cons_self env b m v hv
    have h2 := ih (fun g hg => h g (List.mem_cons_of_mem _ hg)) hk
    obtain ⟨_, ty, _, _, _⟩ := f
    simp only [MField.readListWork, MField.listReadBase, MField.listReadRate, MField.ty] at h1 ⊢
    have h3 := Nat.mul_le_mul_right m (Nat.le_max_left (ty.readRate c.emb) (MField.listReadRate c.emb fs))
    have h4 := Nat.mul_le_mul_right k (Nat.le_max_right (ty.readRate c.emb) (MField.listReadRate c.emb fs))
    rw [Nat.mul_add]
    omega

theorem Props.Chain.steps {f : Parser α} (hc : f.Cut) {b rest : Bytes} {vs : List α} (h : Props.Chain f b vs rest)
    {n : Nat} (hn : vs.length ≤ n) : Lst.steps f vs.length ⟨b, n⟩ = vs.map fun v => Option.some (.ok v) := by
  induction h generalizing n with
  | nil => rfl
  | @cons b rest m v vs hf _ ih =>
    simp only [List.length_cons] at hn
    have : Lst.next f ⟨b, n⟩ = (Option.some (.ok v), ⟨b.drop m, n - 1⟩) := by
      simp [Lst.next, hf, dropFrom_ok (hc _ _ _ hf).1, show n ≠ 0 by omega]
    simp only [List.length_cons, Lst.steps, this, ih (show vs.length ≤ n - 1 by omega), List.map_cons]

theorem Props.Chain.sum_le {f : Parser α} (hc : f.Cut) (hl : f.AtLeast 1) {t : α → Nat} {x y : Nat}
    (h : ∀ b n v, f b = .ok ⟨n, v⟩ → t v ≤ x + y * n) {b rest : Bytes} {vs : List α} (hch : Props.Chain f b vs rest) :
    (vs.map t).sum ≤ (x + y) * b.length := by
  induction hch with
  | nil => simp
  | @cons b rest m v vs hf _ ih =>
    have h1 := h b m v hf
    have h2 := (hc _ _ _ hf).1
    have h3 : x ≤ x * m := Nat.le_mul_of_pos_right _ (hl _ _ _ hf)
    rw [List.length_drop] at ih
    rw [List.map_cons, List.sum_cons, show b.length = m + (b.length - m) by omega, Nat.mul_add, Nat.add_mul x y m]
    omega

theorem readWorkInd (c : Ctx) : SchemaInd
    (fun m => m.allFields MField.fullItems = true → ∀ b n v, m.parse c b = .ok ⟨n, v⟩ →
      m.readWork c v ≤ m.readBase c.emb + m.readRate c.emb * n)
    (fun ty => ty.allFields MField.fullItems = true →
      MField.fullItems (.mk [] ty false ⟨false, false⟩ .little) = true → ∀ here e env b n v,
      ty.parse c here e env b = .ok ⟨n, v⟩ → ty.readWork c v ≤ ty.readBase c.emb + ty.readRate c.emb * n) where
  fixed ty _ _ here e env b n v _ := by simp only [MFieldTy.readWork]; omega
  struct s _ _ here e env b n v _ := by simp only [MFieldTy.readWork, Referenced.readWork]; omega
  message m h ha _ here e env b n v hv := by
    simp only [MFieldTy.allFields, Referenced.allFields, MFieldTy.parse, Referenced.parse] at ha hv
    simpa only [MFieldTy.readWork, Referenced.readWork, MFieldTy.readBase, Referenced.readBase, MFieldTy.readRate,
      Referenced.readRate] using h ha b n v hv
  nul _ _ here e env b n v _ := by simp only [MFieldTy.readWork]; omega
  varchar ty _ _ here e env b n v _ := by simp only [MFieldTy.readWork]; omega
  array ty s _ _ here e env b n v _ := by simp only [MFieldTy.readWork]; omega
  union n disc cs sz on i h ha _ here e env b k v hv := by
    simp only [MFieldTy.parse, Union.parse] at hv
    obtain ⟨d, _, hv⟩ := Res.bind_eq_ok.1 hv
    simp only [MFieldTy.allFields, Union.allFields] at ha
    obtain ⟨i, w, rfl, hw⟩ := Union.readCases_le (x := UCase.listReadBase c.emb cs) (y := UCase.listReadRate c.emb cs)
      (fun k hk r hr b n v hv => by
        have h1 := h k hk r hr (by simpa only [MFieldTy.allFields] using UCase.listAllFields_mem ha k hk r hr) rfl
          here e env b n v (by simpa only [MFieldTy.parse] using hv)
        simp only [MFieldTy.readWork, MFieldTy.readBase, MFieldTy.readRate] at h1
        have h2 := UCase.le_listRead (emb := c.emb) k hk r hr
        have h3 := Nat.mul_le_mul_right n h2.2
        omega) 0 d hv
    simpa only [MFieldTy.readWork, Union.readWork, MFieldTy.readBase, Union.readBase, MFieldTy.readRate,
      Union.readRate, Nat.zero_add] using hw
  list ty item h ha hf here e env b n v hv := by
    simp only [MFieldTy.allFields] at ha
    simp only [MField.fullItems, MField.ty, decide_eq_true_eq] at hf
    have hc := Message.cut c item
    have hl : (item.parse c).AtLeast 1 := ((leastInd c).all item).mono hf
    have hv' : (Lst.either here e ty.byteSize (item.parse c)).map .seq b = .ok ⟨n, v⟩ := by
      simp only [MFieldTy.parse] at hv
      simp only [Lst.either]
      split <;> simp_all
    obtain ⟨l, hl', rfl⟩ := Parser.map_eq_ok.mp hv'
    have hdata : l.data.length ≤ n := by
      simp only [Lst.either] at hl'
      split at hl'
      · obtain ⟨k, _, _, _, rfl, hd⟩ := (Lst.fromSlice_eq_ok hc).1 hl'
        rw [hd, List.length_take]
        omega
      · obtain ⟨_, rfl, rfl⟩ := Lst.unsized_eq_ok.1 hl'
        simp
    obtain ⟨vs, rest, h1, h2, h3, _⟩ := Lst.gather_steps hc l
    have hw := Lst.stepsWork_le hc hl ((workInd c).all item ha) vs.length l (by
      obtain ⟨d, len⟩ := l
      rw [h1.steps hc h2]
      intro r hr
      obtain ⟨v, _, rfl⟩ := List.mem_map.1 hr
      exact ⟨v, rfl⟩)
    have hs := h1.sum_le hc hl (h ha)
    simp only [MFieldTy.readWork, MFieldTy.readBase, MFieldTy.readRate, h3]
    have h4 := Nat.mul_le_mul_left (1 + item.base c.emb + item.rate c.emb) hdata
    have h5 := Nat.mul_le_mul_left (item.readBase c.emb + item.readRate c.emb) hdata
    rw [Nat.add_mul (1 + item.base c.emb + item.rate c.emb)]
    omega
  payload _ _ here e env b n v _ := by simp only [MFieldTy.readWork]; omega
  msg id n fs sz h ha b k v hv := by
    obtain ⟨vs, rfl, hr⟩ := Message.parse_eq_ok.1 hv
    have ha' := MField.listAllFields_mem (by simpa only [Message.allFields] using ha)
    simp only [Message.readWork, Message.readBase, Message.readRate]
    refine MField.readList_le (emb := c.emb id) (env := []) (b := b) (fun f hf env b n v hv => ?_)
      (by simpa only [Message.id, Message.fields, List.nil_append] using hr)
    have h1 := h f hf (ha' f hf).2 (ha' f hf).1 (c.emb id) f.endian env
    obtain ⟨_, ty, o, _, e⟩ := f
    simp only [MField.parse, MField.readWork, MField.ty, MField.endian] at hv h1 ⊢
    cases o with
    | false => exact h1 b n v hv
    | true =>
      simp only [if_true] at hv ⊢
      obtain ⟨o, ho, rfl⟩ := Parser.map_eq_ok.mp hv
      rcases Optional.fromSlice_eq_ok.mp ho with ⟨t, rfl, rfl, rfl⟩ | ⟨x, t, m, w, rfl, hx, hw, rfl, rfl⟩
      · simp only [Value.ofOption]
        omega
      · simp only [Value.ofOption]
        have := h1 t m w hw
        rw [Nat.mul_add]
        omega

/-- If the message has a list, it is one of those whose decoder looks for the end of its lists. -/
def Message.Scans (emb : Nat → Bool) (m : Message) : Prop :=
  ∀ f ∈ m.fields, ∀ ty item, f.ty = .list ty item → emb m.id = true

namespace Props

/-! ## C117 -/

/-- C117: what a client that means `d` builds, list by list and item by item, can be encoded, is decoded as built, and
read to the end gives `d` again, as long as the items of all lists end on their own. -/
theorem C117_roundtrip (c : Ctx) {m : Message} (ht : m.tailGreedy c.emb = true)
    (he : m.allFields (MField.endingItems c.emb) = true) {d : Deep} {v : Value} (h : m.Built c d v) :
    (m.write c v).res = .ok () ∧
      m.parse c (m.write c v).bytes = .ok ⟨(m.write c v).bytes.length, v⟩ ∧ m.read c v = .ok d := by
  obtain ⟨h1, h2⟩ := (builtInd c).all m he d v h
  exact ⟨(C22_roundtrip c ht h1).1, (C22_roundtrip c ht h1).2, h2⟩

namespace Ex

/-- A list of groups, which are lists of items. -/
def teams : Message :=
  .mk 22 "Teams".toList [.mk "groups".toList (.list .u16 group) false ⟨true, true⟩ .little] ⟨true, true⟩

def itemD : Deep :=
  .msg [("x".toList, .leaf (.num 513)), ("s".toList, .some (.leaf (.str [104, 105])))]
def itemE : Deep := .msg [("x".toList, .leaf (.num 7)), ("s".toList, .none)]
def groupD : Deep := .msg [("items".toList, .list [itemD, itemE])]
/-- Two items, then a group without items. -/
def teamsD : Deep := .msg [("groups".toList, .list [groupD, .msg [("items".toList, .list [])]])]
def teamsV : Value := .msg [("groups".toList, .seq ⟨[2, 1, 2, 1, 104, 105, 0, 7, 0, 0, 0], 2⟩)]

theorem itemD_built : item.Built ctx itemD itemV := by
  simp only [item, itemD, itemV, Message.Built, MField.ListBuilt, MField.Built, MFieldTy.Built, MFieldTy.Repr,
    Bool.false_eq_true, if_false, if_true]
  exact ⟨_, _, rfl, rfl, _, _, _, _, rfl, rfl, ⟨rfl, _, rfl, by decide⟩, _, _, _, _, rfl, rfl,
    .inr ⟨_, _, rfl, rfl, rfl, _, rfl, (validUtf8_iff _).1 (by decide +kernel), by decide⟩, rfl, rfl⟩

theorem itemE_built : item.Built ctx itemE itemW := by
  simp only [item, itemE, itemW, Message.Built, MField.ListBuilt, MField.Built, MFieldTy.Built, MFieldTy.Repr,
    Bool.false_eq_true, if_false, if_true]
  exact ⟨_, _, rfl, rfl, _, _, _, _, rfl, rfl, ⟨rfl, _, rfl, by decide⟩, _, _, _, _, rfl, rfl,
    .inl ⟨rfl, rfl⟩, rfl, rfl⟩

theorem group_built {items : List (Deep × Value)} {l : Seq Bytes} (h : ∀ x ∈ items, item.Built ctx x.1 x.2)
    (hn : items.length < 256)
    (hl : (Seq.new []).writeItems Sink.vec (items.map fun x => item.write ctx x.2) = (.ok (), l)) :
    group.Built ctx (.msg [("items".toList, .list (items.map Prod.fst))]) (.msg [("items".toList, .seq l)]) := by
  simp only [group, Message.Built, MField.ListBuilt, MField.Built, MFieldTy.Built, Bool.false_eq_true, if_false]
  exact ⟨_, _, rfl, rfl, _, _, _, _, rfl, rfl, ⟨items, l, h, hn, hl, rfl, rfl⟩, rfl, rfl⟩

theorem teams_built : teams.Built ctx teamsD teamsV := by
  have h1 : group.Built ctx groupD groupV := group_built (items := [(itemD, itemV), (itemE, itemW)])
    (by
      intro x hx
      simp only [List.mem_cons, List.not_mem_nil, or_false] at hx
      rcases hx with rfl | rfl
      · exact itemD_built
      · exact itemE_built) (by decide) (by rfl)
  have h2 : group.Built ctx (.msg [("items".toList, .list [])]) (.msg [("items".toList, .seq ⟨[], 0⟩)]) :=
    group_built (items := []) (by simp) (by decide) rfl
  simp only [teams, teamsD, teamsV, Message.Built, MField.ListBuilt, MField.Built, MFieldTy.Built, Bool.false_eq_true,
    if_false]
  refine ⟨_, _, rfl, rfl, _, _, _, _, rfl, rfl, ⟨[(groupD, groupV),
    (.msg [("items".toList, .list [])], .msg [("items".toList, .seq ⟨[], 0⟩)])], _, ?_, by decide, by rfl, rfl, rfl⟩, rfl, rfl⟩
  intro x hx
  simp only [List.mem_cons, List.not_mem_nil, or_false] at hx
  rcases hx with rfl | rfl
  · exact h1
  · exact h2

end Ex

example : (Ex.teams.write Ex.ctx Ex.teamsV).bytes = [2, 0, 2, 1, 2, 1, 104, 105, 0, 7, 0, 0, 0] ∧
    Ex.teams.parse Ex.ctx [2, 0, 2, 1, 2, 1, 104, 105, 0, 7, 0, 0, 0] = .ok ⟨13, Ex.teamsV⟩ ∧
    Ex.teams.read Ex.ctx Ex.teamsV = .ok Ex.teamsD := by
  obtain ⟨_, h2, h3⟩ := C117_roundtrip Ex.ctx (by decide) (by decide) Ex.teams_built
  have : (Ex.teams.write Ex.ctx Ex.teamsV).bytes = [2, 0, 2, 1, 2, 1, 104, 105, 0, 7, 0, 0, 0] := by decide +kernel
  rw [this] at h2
  exact ⟨this, h2, h3⟩

/-- C117: the same in front of other bytes, for a message that ends on its own. -/
theorem C117_stream (c : Ctx) {m : Message} (ht : m.delimited c.emb = true)
    (he : m.allFields (MField.endingItems c.emb) = true) {d : Deep} {v : Value} (h : m.Built c d v) (t : Bytes) :
    m.parse c ((m.write c v).bytes ++ t) = .ok ⟨(m.write c v).bytes.length, v⟩ ∧ m.read c v = .ok d := by
  obtain ⟨h1, h2⟩ := (builtInd c).all m he d v h
  exact ⟨C23_trailing c ht h1 t, h2⟩

example (t : Bytes) : Ex.teams.parse Ex.ctx ((Ex.teams.write Ex.ctx Ex.teamsV).bytes ++ t) =
    .ok ⟨(Ex.teams.write Ex.ctx Ex.teamsV).bytes.length, Ex.teamsV⟩ :=
  (C117_stream Ex.ctx (by decide) (by decide) Ex.teams_built t).1

/-- C117: two things a client may mean are never encoded in the same way. -/
theorem C117_injective (c : Ctx) {m : Message} (ht : m.tailGreedy c.emb = true)
    (he : m.allFields (MField.endingItems c.emb) = true) {d d' : Deep} {v v' : Value} (h : m.Built c d v)
    (h' : m.Built c d' v') (heq : (m.write c v).bytes = (m.write c v').bytes) : d = d' := by
  obtain ⟨_, a2, a3⟩ := C117_roundtrip c ht he h
  obtain ⟨_, b2, b3⟩ := C117_roundtrip c ht he h'
  rw [heq, b2] at a2
  simp only [Res.ok.injEq, Msg.mk.injEq, true_and] at a2
  rw [← a2, b3] at a3
  cases a3
  rfl

example {d : Deep} {v : Value} (h : Ex.teams.Built Ex.ctx d v)
    (hb : (Ex.teams.write Ex.ctx v).bytes = [2, 0, 2, 1, 2, 1, 104, 105, 0, 7, 0, 0, 0]) : d = Ex.teamsD :=
  C117_injective Ex.ctx (by decide) (by decide) h Ex.teams_built (by rw [hb]; decide +kernel)

/-- C117: when the decoders look for the end of every list, reading a decoded message to the end never fails, at any
depth. -/
theorem C117_decoded (c : Ctx) {m : Message} (hm : m.AllMessages (Message.Scans c.emb)) {b : Bytes} {n : Nat}
    {v : Value} (h : m.parse c b = .ok ⟨n, v⟩) : ∃ d, m.read c v = .ok d := by
  refine (readInd (S := fun {α} (r : R α) => ∃ a, r = .ok a) ⟨fun a => ⟨a, rfl⟩, ?_⟩ c ?_).all m hm b n v h
  · rintro α β x g ⟨a, rfl⟩ hg
    exact hg a rfl
  · intro m f t item hq hf ht _ e sz b n l hl
    simp only [Lst.either, hq f hf t item ht, if_true] at hl
    obtain ⟨_, vs, _, _, hst⟩ := C33_decoded e sz _ (Message.cut c item) b n l hl
    refine ⟨vs, ?_⟩
    rw [hst 1]
    exact gather_all

theorem Ex.teams_scans : Ex.teams.AllMessages (Message.Scans Ex.ctx.emb) := by
  simp only [Ex.teams, Ex.group, Ex.item, Message.AllMessages, MField.ListAllMessages, MFieldTy.AllMessages,
    Message.Scans, Message.id, Message.fields]
  refine ⟨fun _ _ _ _ _ => by decide, ⟨fun _ _ _ _ _ => by decide, ⟨?_, trivial, trivial, trivial⟩, trivial⟩, trivial⟩
  exact fun _ _ _ _ _ => by decide

example {b : Bytes} {n : Nat} {v : Value} (h : Ex.teams.parse Ex.ctx b = .ok ⟨n, v⟩) :
    ∃ d, Ex.teams.read Ex.ctx v = .ok d := C117_decoded Ex.ctx Ex.teams_scans h

/-- C117: otherwise it may fail: the count alone is decoded, and the item it announces is missing. -/
theorem C117_lazy (c : Ctx) {item : Message} (h1 : 1 ≤ item.least) {id : Nat} (hid : c.emb id = false)
    (name field : Name) (ty : FixedTy) (s1 s2 : SizeInfo) (e : Endian) :
    ∃ b v, (Message.mk id name [.mk field (.list ty item) false s1 e] s2).parse c b = .ok ⟨ty.byteSize, v⟩ ∧
      ∀ d, (Message.mk id name [.mk field (.list ty item) false s1 e] s2).read c v ≠ .ok d := by
  have hlen : (wireInt e ty.byteSize 1).length = ty.byteSize := wireInt_length e _ 1
  have htake : (wireInt e ty.byteSize 1).take ty.byteSize = wireInt e ty.byteSize 1 :=
    List.take_of_length_le (by omega)
  have hint : intOfWire e (wireInt e ty.byteSize 1) = 1 := by
    rw [intOfWire_wireInt]
    exact Nat.mod_eq_of_lt (by cases ty <;> decide)
  have hdrop : (wireInt e ty.byteSize 1).drop ty.byteSize = [] := List.drop_of_length_le (by omega)
  have hp : Lst.unsizedFromSlice e ty.byteSize (wireInt e ty.byteSize 1) = .ok ⟨ty.byteSize, ⟨[], 1⟩⟩ :=
    Lst.unsized_eq_ok.2 ⟨by omega, by omega, by rw [htake, hint, hdrop]⟩
  have hp' : MField.parse c false (.mk field (.list ty item) false s1 e) [] (wireInt e ty.byteSize 1) =
      .ok ⟨ty.byteSize, .seq ⟨[], 1⟩⟩ := by
    simp only [MField.parse, MFieldTy.parse, Bool.false_eq_true, if_false, Parser.map, hp]
    rfl
  refine ⟨wireInt e ty.byteSize 1, .msg [(field, .seq ⟨[], 1⟩)], ?_, ?_⟩
  · refine Message.parse_eq_ok.2 ⟨_, rfl, ?_⟩
    simp only [Message.id, Message.fields, hid, runFields, hp']
    rfl
  · intro d
    have hfail : ∀ r, item.parse c [] ≠ .ok r := C102_short c item (by simpa using Nat.lt_of_lt_of_le Nat.zero_lt_one h1)
    have hg : ∀ vs, gather (Lst.steps (item.parse c) (1 + 1) ⟨[], 1⟩) ≠ .ok vs := by
      intro vs
      simp only [Lst.steps, Lst.next, Nat.one_ne_zero, if_false]
      cases hr : item.parse c [] with
      | ok r => exact absurd hr (hfail r)
      | err e => simp [gather]
      | panic => simp [gather]
    simp only [Message.read, MField.readList, MField.read, Bool.false_eq_true, if_false, MFieldTy.read]
    cases hr : gather (Lst.steps (item.parse c) (1 + 1) ⟨[], 1⟩) with
    | ok vs => exact absurd hr (hg vs)
    | err e => simp
    | panic => simp

example : ∃ b v, (Message.mk 40 "L".toList [.mk "l".toList (.list .u8 Ex.item) false ⟨true, true⟩ .little]
      ⟨true, true⟩).parse Ex.ctx b = .ok ⟨1, v⟩ ∧
    ∀ d, (Message.mk 40 "L".toList [.mk "l".toList (.list .u8 Ex.item) false ⟨true, true⟩ .little]
      ⟨true, true⟩).read Ex.ctx v ≠ .ok d :=
  C117_lazy Ex.ctx (by decide) rfl "L".toList "l".toList .u8 ⟨true, true⟩ ⟨true, true⟩ .little

/-- C117: in any case reading a decoded message to the end does not panic if decoding cannot. -/
theorem C117_no_panic (c : Ctx) {m : Message} (h1 : m.allFields MField.notVarchar = true)
    (h2 : m.allFields MField.countFits = true) (h3 : m.AllMessages Message.Keyed) {b : Bytes} {n : Nat} {v : Value}
    (h : m.parse c b = .ok ⟨n, v⟩) : m.read c v ≠ .panic := by
  refine (readInd (S := fun {α} (r : R α) => r ≠ .panic) ⟨fun a => by simp, Res.bind_ne_panic⟩ c
    (q := fun m => ∀ b, m.parse c b ≠ .panic) ?_).all m ((quietInd c).all m h1 h2 h3) b n v h
  intro m f t item _ _ _ ha e sz b n l _
  have hp : ∀ b, item.parse c b ≠ .panic := (Message.allMessages_iff.1 ha).1
  obtain ⟨vs, rest, _, _, _, hg | ⟨_, ⟨e, _, hg⟩ | ⟨hr, _⟩⟩⟩ := Lst.gather_steps (Message.cut c item) l
  · rw [hg]; simp
  · rw [hg]; simp
  · exact absurd hr (hp rest)

example {b : Bytes} {n : Nat} {v : Value} (h : Ex.safe.parse Ex.ctx b = .ok ⟨n, v⟩) :
    Ex.safe.read Ex.ctx v ≠ .panic := C117_no_panic Ex.ctx (by decide) (by decide) Ex.safe_keyed h

/-- C117: reading a decoded message to the end, or to the first item that cannot be decoded, takes a time proportional
to the bytes of the message, however deep lists are nested. -/
theorem C117_work (c : Ctx) {m : Message} (hf : m.allFields MField.fullItems = true) {b : Bytes} {n : Nat} {v : Value}
    (h : m.parse c b = .ok ⟨n, v⟩) : m.readWork c v ≤ m.readBase c.emb + m.readRate c.emb * n :=
  (readWorkInd c).all m hf b n v h

example {b : Bytes} {n : Nat} {v : Value} (h : Ex.teams.parse Ex.ctx b = .ok ⟨n, v⟩) :
    Ex.teams.readWork Ex.ctx v ≤ 9 + 28 * n := by
  have := C117_work Ex.ctx (by decide) h
  rwa [show Ex.teams.readBase Ex.ctx.emb = 9 by decide, show Ex.teams.readRate Ex.ctx.emb = 28 by decide] at this

/-- What the two groups and their two items take. -/
example : Ex.teams.readWork Ex.ctx Ex.teamsV = 39 := by decide +kernel

/-- C117: decoding and reading everything together take a time proportional to the length of the input. -/
theorem C117_total (c : Ctx) {m : Message} (hf : m.allFields MField.fullItems = true) :
    ∃ k, ∀ b, m.work c b + (match m.parse c b with
      | .ok msg => m.readWork c msg.data
      | _ => 0 : Nat) ≤ k * (b.length + 1) := by
  obtain ⟨k, hk⟩ := C115_input c hf
  refine ⟨k + m.readBase c.emb + m.readRate c.emb, fun b => ?_⟩
  have h1 := hk b
  have h2 : (match m.parse c b with
      | .ok msg => m.readWork c msg.data
      | _ => 0 : Nat) ≤ m.readBase c.emb + m.readRate c.emb * b.length := by
    split
    · next msg hm =>
      have h3 := C117_work c hf (n := msg.size) (v := msg.data) hm
      have h4 := Nat.mul_le_mul_left (m.readRate c.emb) (C24_local c m (n := msg.size) (v := msg.data) hm).1
      omega
    · omega
  rw [Nat.add_mul, Nat.add_mul, Nat.mul_add (m.readBase c.emb), Nat.mul_add (m.readRate c.emb)]
  omega

example : ∃ k, ∀ b, Ex.teams.work Ex.ctx b + (match Ex.teams.parse Ex.ctx b with
    | .ok msg => Ex.teams.readWork Ex.ctx msg.data
    | _ => 0 : Nat) ≤ k * (b.length + 1) := C117_total Ex.ctx (by decide)

end Props

end Proto
