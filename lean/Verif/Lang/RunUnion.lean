import Verif.Lang.Run

/-!
# What the generated union code does
-/

namespace Proto

/-- Not an error, and a value with `P` if there is one. -/
def Res.Good (P : α → Prop) : Res ε α → Prop
  | .ok a => P a
  | .err _ => False
  | .panic => True

namespace Res.Good

theorem bind {P : α → Prop} {Q : β → Prop} {r : Res ε α} {f : α → Res ε β} (h : Res.Good P r)
    (hf : ∀ a, P a → Res.Good Q (f a)) : Res.Good Q (r >>= f) := by
  cases r with
  | ok a => exact hf a h
  | err e => cases h
  | panic => trivial

theorem mono {P Q : α → Prop} {r : Res ε α} (h : Res.Good P r) (hf : ∀ a, P a → Q a) : Res.Good Q r := by
  cases r with
  | ok a => exact hf a h
  | err e => cases h
  | panic => trivial

end Res.Good

open Res (Good)

theorem slice_good (b : Bytes) (i j : Nat) :
    Good (fun s => s.length = j - i ∧ i ≤ j ∧ j ≤ b.length ∧ s = (b.drop i).take (j - i))
      (slice b i j : R Bytes) := by
  unfold slice
  split
  · next h => exact ⟨by simp; omega, h.1, h.2, rfl⟩
  · trivial

theorem readBytes_good (e : Endian) (n : Nat) (b : Bytes) : Good (fun _ => True) (readBytes e n b) := by
  unfold readBytes
  split <;> trivial

theorem writeBytes_good (e : Endian) (n : Nat) (b : Bytes) (v : Nat) :
    Good (fun s => s.length = b.length) (writeBytes e n b v) := by
  unfold writeBytes
  split
  · next h => cases e <;> simp [Good] <;> omega
  · trivial

theorem pad8_good (b : Bytes) : Good (fun s => s.length = 8 ∧ b.length ≤ 8) (pad8 b) := by
  unfold pad8
  split
  · next h => exact ⟨by simp; omega, h⟩
  · trivial

theorem subU_good (p : Profile) (n a b : Nat) : Good (fun _ => True) (subU p n a b : R Nat) := by
  unfold subU
  split
  · trivial
  · cases p <;> trivial

theorem shlU_good (p : Profile) (n a b : Nat) : Good (fun _ => True) (shlU p n a b : R Nat) := by
  unfold shlU
  split
  · trivial
  · cases p <;> trivial

theorem shrU_good (p : Profile) (n a b : Nat) : Good (fun _ => True) (shrU p n a b : R Nat) := by
  unfold shrU
  split
  · trivial
  · cases p <;> trivial

namespace BitCodec

theorem mask_good (p : Profile) (n : Nat) : Good (fun _ => True) (mask p n) :=
  (shlU_good _ _ _ _).bind fun _ _ => subU_good _ _ _ _

theorem shiftAmount_good (p : Profile) (e : Endian) (o n : Nat) :
    Good (fun _ => True) (shiftAmount p e o n) := by
  cases e
  · trivial
  · exact (subU_good _ _ _ _).bind fun _ _ => subU_good _ _ _ _

theorem readAligned_good (p : Profile) (e : Endian) (sz o n : Nat) (b : Bytes) :
    Good (fun _ => True) (readAligned p e sz o n b) :=
  (mask_good _ _).bind fun _ _ => (readBytes_good _ _ _).bind fun _ _ =>
    (shiftAmount_good _ _ _ _).bind fun _ _ => (shrU_good _ _ _ _).bind fun _ _ => trivial

theorem writeAligned_good (p : Profile) (e : Endian) (sz o n : Nat) (b : Bytes) (v : Nat) :
    Good (fun s => s.length = b.length) (writeAligned p e sz o n b v) :=
  (mask_good _ _).bind fun _ _ => (shlU_good _ _ _ _).bind fun _ _ => (readBytes_good _ _ _).bind fun _ _ =>
    (shiftAmount_good _ _ _ _).bind fun _ _ => (shlU_good _ _ _ _).bind fun _ _ => writeBytes_good _ _ _ _

end BitCodec

theorem getRaw_good (p : Profile) (f : FixedField) (b : Bytes) : Good (fun _ => True) (f.getRaw p b) := by
  refine (slice_good _ _ _).bind fun s _ => ?_
  split
  · split
    · exact (pad8_good _).bind fun _ _ => BitCodec.readAligned_good _ _ _ _ _ _
    · exact BitCodec.readAligned_good _ _ _ _ _ _
  · split
    · exact (pad8_good _).bind fun _ _ => readBytes_good _ _ _
    · exact readBytes_good _ _ _

theorem setRaw_good (p : Profile) (f : FixedField) (b : Bytes) (v : Nat) :
    Good (fun s => s.length = b.length) (f.setRaw p b v) := by
  refine (slice_good _ _ _).bind fun s hs => ?_
  have key : ∀ t : Bytes, t.length = s.length →
      Good (fun c => c.length = b.length) (pure (splice b f.loc.byteOffset t) : R Bytes) := fun t ht =>
    splice_length (by rw [ht, hs.1]; have := hs.2.1; have := hs.2.2.1; omega)
  dsimp only
  split
  · split
    · exact ((pad8_good _).bind fun d hd => (BitCodec.writeAligned_good _ _ _ _ _ _ _).bind fun d' hd' =>
        (slice_good _ _ _).mono fun r hr => by rw [hr.1]; rfl).bind key
    · exact (BitCodec.writeAligned_good _ _ _ _ _ _ _).bind key
  · split
    · exact ((pad8_good _).bind fun d hd => (writeBytes_good _ _ _ _).bind fun d' hd' =>
        (slice_good _ _ _).mono fun r hr => by rw [hr.1]; rfl).bind key
    · exact (writeBytes_good _ _ _ _).bind key

theorem splice_splice {b s t : Bytes} {i j : Nat} (hs : s = (b.drop i).take s.length)
    (hj : j + t.length ≤ s.length) :
    splice b i (splice s j t) = splice b (i + j) t := by
  have hl : (splice s j t).length = s.length := splice_length hj
  unfold splice at hl ⊢
  rw [hl]
  have h1 : List.take j s = (b.drop i).take j := by
    rw [hs, List.take_take, Nat.min_eq_left (by omega)]
  have h2 : List.drop (j + t.length) s = ((b.drop i).drop (j + t.length)).take (s.length - (j + t.length)) := by
    conv => lhs; rw [hs]
    rw [List.drop_take]
  have h3 : List.take (i + j) b = List.take i b ++ (b.drop i).take j := by
    rw [List.take_add]
  have h4 : List.drop (i + j + t.length) b =
      ((b.drop i).drop (j + t.length)).take (s.length - (j + t.length)) ++ b.drop (i + s.length) := by
    rw [show List.drop (i + s.length) b = ((b.drop i).drop (j + t.length)).drop (s.length - (j + t.length)) by
      rw [List.drop_drop, List.drop_drop]; congr 1; omega]
    rw [List.take_append_drop, List.drop_drop]
    congr 1; omega
  rw [h1, h2, h3, h4]
  simp only [List.append_assoc]

end Proto

namespace Proto.Rs

/-! ## The path to the discriminant -/

/-- The structures along a path have methods with different names. -/
def MethodsDistinct : Structure → List Nat → Prop
  | _, [] => True
  | s, i :: is => ((methods s).map Prod.fst).Nodup ∧
    match s.fields[i]? with
    | some (.struct _ r _) => MethodsDistinct r is
    | _ => True

theorem filter_unique {l : List (Name × α)} (hd : (l.map Prod.fst).Nodup) {x : Name × α} (hx : x ∈ l) :
    l.filter (fun y => y.1 = x.1) = [x] := by
  induction l with
  | nil => cases hx
  | cons a l ih =>
    simp only [List.map_cons, List.nodup_cons] at hd
    rcases List.mem_cons.1 hx with rfl | hx
    · rw [List.filter_cons_of_pos (by simp), List.filter_eq_nil_iff.2]
      intro y hy
      simp only [decide_eq_true_eq]
      intro e
      exact hd.1 (by rw [← e]; exact List.mem_map_of_mem hy)
    · rw [List.filter_cons_of_neg, ih hd.2 hx]
      simp only [decide_eq_true_eq]
      intro e
      exact hd.1 (by rw [e]; exact List.mem_map_of_mem hx)

theorem method_unique {s : Structure} (hd : ((methods s).map Prod.fst).Nodup) {n : Name} {a : Accessor}
    (h : (n, a) ∈ methods s) : method s n = some a := by
  unfold method
  rw [filter_unique hd h]

theorem getter_mem {s : Structure} {f : SField} {x : Name × Accessor} (hf : f ∈ s.fields)
    (hx : x ∈ getters f) : x ∈ methods s := by
  simp only [methods, List.mem_append, List.mem_flatMap]
  exact .inl ⟨f, hf, hx⟩

theorem setter_mem {s : Structure} {f : SField} {x : Name × Accessor} (hf : f ∈ s.fields)
    (hx : x ∈ setters f) : x ∈ methods s := by
  simp only [methods, List.mem_append, List.mem_flatMap]
  exact .inr ⟨f, hf, hx⟩

/-- A path whose calls resolve: it passes the structures `names` and ends on `f`, through the accesses
`a`. -/
inductive Path : Structure → List Nat → List Name → FixedField → Access → Prop
  | leaf {s : Structure} {i : Nat} {f : FixedField} : s.fields[i]? = some (.fixed f) →
      method s (id "get_raw_" ++ f.name) = some (.raw f) →
      method s (id "set_raw_" ++ f.name) = some (.raw f) → Path s [i] [] f (.fixed f)
  | step {s r : Structure} {i : Nat} {is : List Nat} {n : Name} {l : Loc} {ns : List Name}
      {f : FixedField} {a : Access} : s.fields[i]? = some (.struct n r l) →
      method s (id "get_" ++ n) = some (.nested r l) →
      method s (id "get_" ++ n ++ id "_mut") = some (.nested r l) → Path r is ns f a →
      Path s (i :: is) (n :: ns) f (.nested l a)

theorem Path.of_chain {s : Structure} {is : List Nat} {ns : List Name} {leaf : Name}
    (h : Text.Chain s is ns (some leaf)) (hd : MethodsDistinct s is) :
    ∃ f a, f.name = leaf ∧ Path s is ns f a := by
  generalize hl : some leaf = l at h
  induction h with
  | stop => cases hl
  | leaf hf =>
    cases hl
    have hm := List.mem_of_getElem? hf
    exact ⟨_, _, rfl, .leaf hf (method_unique hd.1 (getter_mem hm (by simp [getters, id])))
      (method_unique hd.1 (setter_mem hm (by simp [setters, id])))⟩
  | step hf _ ih =>
    have hm := List.mem_of_getElem? hf
    simp only [MethodsDistinct, hf] at hd
    obtain ⟨f, a, hn, hp⟩ := ih hd.2 hl
    exact ⟨f, _, hn, .step hf (method_unique hd.1 (getter_mem hm (by simp [getters, id])))
      (method_unique hd.1 (setter_mem hm (by simp [setters, id]))) hp⟩

theorem Path.walk {s : Structure} {is : List Nat} {ns : List Name} {f : FixedField} {a : Access}
    (h : Path s is ns f a) : s.walk is = some a := by
  induction h with
  | leaf hf => simp [Structure.walk, hf]
  | step hf _ _ _ ih => simp [Structure.walk, hf, ih]

section
variable {g : Globals} {paths : List (Name × Name)}

theorem Path.get_good {s : Structure} {is : List Nat} {ns : List Name} {f : FixedField} {a : Access}
    (h : Path s is ns f a) (p : Profile) (b : Bytes) : Res.Good (fun _ => True) (a.get p b) := by
  induction h generalizing b with
  | leaf => exact getRaw_good _ _ _
  | step _ _ _ _ ih => exact (slice_good _ _ _).bind fun _ _ => ih _

theorem Path.set_good {s : Structure} {is : List Nat} {ns : List Name} {f : FixedField} {a : Access}
    (h : Path s is ns f a) (p : Profile) (b : Bytes) (v : Nat) :
    Res.Good (fun c => c.length = b.length) (a.set p b v) := by
  induction h generalizing b with
  | leaf => exact setRaw_good _ _ _ _
  | step _ _ _ _ ih =>
    refine (slice_good _ _ _).bind fun s hs => (ih s).bind fun t ht => ?_
    exact splice_length (by rw [ht, hs.1]; have := hs.2.1; have := hs.2.2.1; omega)

theorem chain_eval {s : Structure} {is : List Nat} {ns : List Name} {f : FixedField} {a : Access}
    (h : Path s is ns f a) {ρ : Locals} {e : Expr} {b : Bytes} (he : e.eval g ρ = .pure (.view s b)) :
    (Expr.method (ns.foldl (fun e n => .method e (id "get_" ++ n)) e) (id "get_raw_" ++ f.name)).eval g ρ =
      (lift (a.get g.c.p b) >>= fun n => .pure (.int f.loc.rawSize n)) := by
  induction h generalizing e b with
  | leaf hf hm _ =>
    simp only [List.foldl_nil, Expr.eval, he, Run.bind_pure, callMethod, hm, Access.get]
  | @step s r i is n l ns f a hf hm _ hp ih =>
    simp only [List.foldl_cons, Access.get]
    cases hs : (slice b l.byteOffset l.stop : R Bytes) with
    | ok b' =>
      rw [ih (b := b')]
      · simp only [Res.bind_ok]
      · simp only [Expr.eval, he, Run.bind_pure, callMethod, hm, hs, lift_ok]
    | err e => exact absurd hs slice_ne_err
    | panic =>
      have key : ∀ (ns : List Name) (e : Expr), e.eval g ρ = Run.panic →
          (ns.foldl (fun e n => Expr.method e (id "get_" ++ n)) e).eval g ρ = Run.panic := by
        intro ns
        induction ns with
        | nil => exact fun e he => he
        | cons n ns ih =>
          intro e he
          exact ih _ (by simp only [Expr.eval, he, Run.bind_panic])
      rw [Expr.eval, key _ _ (by
        simp only [Expr.eval, he, Run.bind_pure, callMethod, hm, hs, lift_panic, Run.bind_panic])]
      rfl

theorem readE_eval {s : Structure} {is : List Nat} {ns : List Name} {f : FixedField} {a : Access}
    (h : Path s is ns f a) {ρ : Locals} {b : Bytes}
    (hd : ρ.lookup (id "discriminant") = some (.view s b)) :
    (readE ns f.name).eval g ρ = (lift (a.get g.c.p b) >>= fun n => .pure (.int f.loc.rawSize n)) :=
  chain_eval h (by simp only [Expr.eval, hd, Run.get_some])

theorem chainMut_run {s : Structure} {is : List Nat} {ns : List Name} {f : FixedField} {a : Access}
    (h : Path s is ns f a) {ρ : Locals} {e v : Expr} {b whole : Bytes} {x y : Name} {off o k : Nat}
    {t : Structure} (he : e.eval g ρ = .pure (.viewMut x off s b)) (hv : v.eval g ρ = .pure (.usize k))
    (hx : ρ.lookup x = some (.viewMut y o t whole)) (hb : b = (whole.drop off).take b.length)
    (hk : k < 256 ^ f.loc.rawSize) :
    (Stmt.expr (.method1 (ns.foldl (fun e n => .method e (id "get_" ++ n ++ id "_mut")) e)
      (id "set_raw_" ++ f.name) v)).run g ρ =
      (lift (a.set g.c.p b k) >>= fun c => .pure (assign x (.viewMut y o t (splice whole off c)) ρ)) := by
  induction h generalizing e b off with
  | leaf hf _ hm =>
    simp only [List.foldl_nil, Stmt.run, he, hv, Run.bind_pure, callStore, hm, if_pos hk, hx, Access.set]
  | @step s r i is n l ns f a hf _ hm hp ih =>
    simp only [List.foldl_cons, Access.set]
    have hgood := slice_good b l.byteOffset l.stop
    cases hs : (slice b l.byteOffset l.stop : R Bytes) with
    | ok b' =>
      rw [hs] at hgood
      obtain ⟨hlen, hle, hle', hb'⟩ := hgood
      rw [ih (b := b') (off := off + l.byteOffset)]
      · simp only [Res.bind_ok]
        have hset := hp.set_good g.c.p b' k
        cases hr : a.set g.c.p b' k with
        | ok c =>
          rw [hr] at hset
          simp only [lift_ok, Run.bind_pure, Res.bind_ok, Res.pure_eq]
          rw [splice_splice hb (by rw [show c.length = b'.length from hset]; omega)]
        | err e => rw [hr] at hset; cases hset
        | panic => rfl
      · simp only [Expr.eval, he, Run.bind_pure, callMethod, hm, hs, lift_ok]
      · rw [hb']
        conv => lhs; rw [hb]
        rw [List.drop_take, List.drop_drop, List.take_take]
        congr 1
        rw [← hb', hlen]
        omega
      · exact hk
    | err e => exact absurd hs slice_ne_err
    | panic =>
      have key : ∀ (ns : List Name) (e : Expr), e.eval g ρ = Run.panic →
          (ns.foldl (fun e n => Expr.method e (id "get_" ++ n ++ id "_mut")) e).eval g ρ = Run.panic := by
        intro ns
        induction ns with
        | nil => exact fun e he => he
        | cons n ns ih =>
          intro e he
          exact ih _ (by simp only [Expr.eval, he, Run.bind_panic])
      rw [Stmt.run, key _ _ (by
        simp only [Expr.eval, he, Run.bind_pure, callMethod, hm, hs, lift_panic, Run.bind_panic])]
      rfl

/-! ## Cases -/

/-- What a case contains is found by its path. -/
def ResolvesCase (g : Globals) (paths : List (Name × Name)) (k : UCase) : Prop :=
  match k.itemType with
  | none => True
  | some (.struct s) => g.items (pathOf paths s.name) = some (.struct s)
  | some (.message m) => g.items (pathOf paths m.name) = some (.message m)

/-- `Self` is the enum of the cases, which have different names. -/
structure Cases (g : Globals) (cases : List UCase) : Prop where
  enum : g.cases = cases.map fun k => (k.name, k.itemType.isSome)
  distinct : (cases.map UCase.name).Nodup

theorem caseNumber_eq {cases : List UCase} (h : Cases g cases) {i : Nat} {k : UCase}
    (hk : cases[i]? = some k) (full : Bool) :
    caseNumber g k.name full = if k.itemType.isSome = full then some i else none := by
  have hf : g.cases.zipIdx.filter (fun x => x.1.1 = k.name) = [((k.name, k.itemType.isSome), i)] := by
    have hmem : ((k.name, k.itemType.isSome), i) ∈ g.cases.zipIdx := by
      rw [List.mem_zipIdx_iff_getElem?, h.enum, List.getElem?_map, hk]; rfl
    have hd : (((g.cases.zipIdx).map fun x => (x.1.1, x)).map Prod.fst).Nodup := by
      rw [List.map_map]
      rw [show (Prod.fst ∘ fun x : (Name × Bool) × Nat => (x.1.1, x)) = Prod.fst ∘ Prod.fst from rfl,
        ← List.map_map, List.zipIdx_map_fst, h.enum, List.map_map]
      exact h.distinct
    have := filter_unique hd (x := (k.name, ((k.name, k.itemType.isSome), i)))
      (List.mem_map.2 ⟨_, hmem, rfl⟩)
    rw [List.filter_map] at this
    have := congrArg (List.map Prod.snd) this
    rw [List.map_map] at this
    simpa [Function.comp_def] using this
  unfold caseNumber
  rw [hf]

theorem pathTy_fromSlice {r : Referenced} {k : UCase} (hk : k.itemType = some r) (h : ResolvesCase g paths k) :
    (pathTy paths r).fromSlice g = some (r.parse g.c) := by
  unfold ResolvesCase at h
  rw [hk] at h
  cases r with
  | struct s => simp only at h; simp only [pathTy, Ty.fromSlice, h, Referenced.parse]
  | message m => simp only at h; simp only [pathTy, Ty.fromSlice, h, Referenced.parse]

theorem pathTy_writeTo {r : Referenced} {k : UCase} (hk : k.itemType = some r) (h : ResolvesCase g paths k) :
    (pathTy paths r).writeTo g = some (r.write g.c) := by
  unfold ResolvesCase at h
  rw [hk] at h
  cases r with
  | struct s =>
    simp only at h
    simp only [pathTy, Ty.writeTo, h, Option.some.injEq]
    funext v
    cases v <;> simp only [Referenced.write]
  | message m =>
    simp only at h
    simp only [pathTy, Ty.writeTo, h, Option.some.injEq]
    funext v
    simp only [Referenced.write]

/-! ## Decoding -/

theorem decodeArms {cases pre cs : List UCase} (h : Cases g cases) (hc : cases = pre ++ cs)
    (hr : ∀ k ∈ cs, ResolvesCase g paths k) {ρ : Locals} {w d : Nat} {b : Bytes}
    (hd : ρ.lookup (id "discriminant") = some (.int w d))
    (hs : (∃ k ∈ cs, k.itemType.isSome = true) → ρ.lookup (id "slice") = some (.data (.buf b))) :
    arms g ρ (.int w d) (cs.map (decodeArm paths) ++ [unknownArm]) =
      decoded .data (Union.parseCases g.c cs pre.length d b) := by
  induction cs generalizing pre with
  | nil =>
    simp only [List.map_nil, List.nil_append, arms, unknownArm, Pat.match, Expr.eval, hd, Run.get_some,
      Run.bind_pure, Union.parseCases, decoded]
  | cons k cs ih =>
    have hk : cases[pre.length]? = some k := by rw [hc]; simp
    have htail := ih (pre := pre ++ [k]) (by rw [hc]; simp) (fun k' h' => hr k' (by simp [h']))
      (fun ⟨k', h', e⟩ => hs ⟨k', by simp [h'], e⟩)
    have hnum := caseNumber_eq h hk
    have hres := hr k (by simp)
    simp only [List.length_append, List.length_singleton] at htail
    obtain ⟨n, case, t⟩ := k
    cases t with
    | none =>
      simp only [UCase.name, UCase.itemType] at hnum
      simp only [List.map_cons, List.cons_append, arms, decodeArm, UCase.case, UCase.itemType, UCase.name,
        Pat.match, Union.parseCases]
      by_cases he : case = d
      · rw [if_pos he, if_pos he.symm]
        simp only [Expr.eval, Run.bind_pure, hnum, Option.isSome_none, if_true, Run.get_some, decoded]
      · rw [if_neg he, if_neg (Ne.symm he)]
        exact htail
    | some r =>
      simp only [UCase.name, UCase.itemType] at hnum
      simp only [List.map_cons, List.cons_append, arms, decodeArm, UCase.case, UCase.itemType, UCase.name,
        Pat.match, Union.parseCases]
      by_cases he : case = d
      · rw [if_pos he, if_pos he.symm]
        have hslice := hs ⟨.mk n case (some r), List.mem_cons_self .., rfl⟩
        simp only [List.nil_append, Expr.eval, hslice, Run.bind_pure, Run.get_some, callOne,
          pathTy_fromSlice (k := .mk n case (some r)) rfl hres, hnum, Option.isSome_some, if_true,
          Parser.map]
        cases r.parse g.c b <;> rfl
      · rw [if_neg he, if_neg (Ne.symm he)]
        exact htail

/-- Running the generated decoder of a union is decoding the union. -/
theorem unionDecoder_call {u : Union} {ns : List Name} {f : FixedField} {a : Access} {key b : Bytes}
    (hp : Path u.discriminant.root u.discriminant.indexList ns f a) (h : Cases g u.cases)
    (hr : ∀ k ∈ u.cases, ResolvesCase g paths k) (hf : ∀ k ∈ u.cases, k.case < 256 ^ f.loc.rawSize)
    {env : Env} {on : Name} (hk : env.lookup on = some (.struct key)) :
    (unionDecoder paths u ns f.name).call g ((id "discriminant", .view u.discriminant.root key) ::
      (if hasContent u then [(id "slice", .data (.buf b))] else [])) =
      decoded .data (u.parse g.c env on b) := by
  obtain ⟨n, disc, cases, size⟩ := u
  simp only [Union.discriminant, Union.cases] at hp h hr hf
  have hread : disc.read g.c.p env on = a.get g.c.p key := by
    simp only [Discriminant.read, hk, Discriminant.access, hp.walk]
  simp only [Union.parse, hread, Union.discriminant]
  have hstmts : ∀ ρ, runAll g ρ ((if hasContent (.mk n disc cases size) then
      [.use b!"bp3d_proto::message::FromSlice"] else []) ++
      [Stmt.let (id "discriminant") (readE ns f.name)]) =
      ((readE ns f.name).eval g ρ >>= fun v => .pure ((id "discriminant", v) :: ρ)) := by
    intro ρ
    split <;> simp only [runAll, List.cons_append, List.nil_append, Stmt.run, Run.bind_pure] <;>
      cases h : (readE ns f.name).eval g ρ with
      | mk cs r => cases r <;> simp [Run.pure]
  unfold Body.call
  simp only [unionDecoder, hstmts]
  rw [readE_eval hp (lookup_cons_eq _ _)]
  have hgood := hp.get_good g.c.p key
  cases hg : a.get g.c.p key with
  | err e => rw [hg] at hgood; cases hgood
  | panic => rfl
  | ok d =>
    simp only [lift_ok, Run.bind_pure, Res.bind_ok, Tail.run, matchOn, Expr.eval, lookup_cons_eq,
      Run.get_some, Union.cases]
    have hfits : ((cases.map (decodeArm paths) ++ [unknownArm]).all fun a =>
        a.pat.fits g (.int f.loc.rawSize d)) = true := by
      simp only [List.all_append, List.all_map, Bool.and_eq_true, List.all_eq_true, Function.comp,
        decodeArm, Pat.fits, decide_eq_true_eq]
      exact ⟨hf, by simp [unknownArm, Pat.fits]⟩
    simp only [hfits, if_true]
    rw [decodeArms (b := b) (pre := []) h rfl hr (lookup_cons_eq _ _)]
    · simp only [List.length_nil]
      cases Union.parseCases g.c cases 0 d b <;> rfl
    · intro hx
      rw [if_pos (by simpa [hasContent, Union.cases] using hx), lookup_cons_ne _ (by decide),
        lookup_cons_ne _ (by decide), lookup_cons_eq]

/-! ## Encoding -/

/-- What is written for a case. -/
def caseOut (c : Ctx) : UCase → Nat → Value → Out
  | .mk _ _ none, _, _ => .done
  | .mk _ case (some r), d, x =>
    if d = case then r.write c x else .stop (.err (.invalidUnionDiscriminant d))

theorem writeCases_get {c : Ctx} {cases : List UCase} {i d : Nat} {x : Value} {k : UCase}
    (hk : cases[i]? = some k) : Union.writeCases c cases i d x = caseOut c k d x := by
  induction cases generalizing i with
  | nil => cases hk
  | cons k' cs ih =>
    obtain ⟨n, case, t⟩ := k'
    cases i with
    | zero => 
      cases hk
      cases t with
      | none => simp [Union.writeCases, caseOut]
      | some r => simp only [Union.writeCases, caseOut, if_true]
    | succ i =>
      simp only [List.getElem?_cons_succ] at hk
      cases t <;> simp [Union.writeCases, ih hk]

theorem encodeArms {cases pre cs : List UCase} (h : Cases g cases) (hc : cases = pre ++ cs)
    (hr : ∀ k ∈ cs, ResolvesCase g paths k) {ρ : Locals} {w d i : Nat} {x : Value} {k : UCase}
    (hd : ρ.lookup (id "discriminant") = some (.int w d)) (ho : ρ.lookup (id "out") = some .writer)
    (hf : ∀ k ∈ cs, k.case < 256 ^ w) (hk : cases[i]? = some k) (hi : pre.length ≤ i) :
    arms g ρ (.data (.union i x)) (cs.flatMap (encodeArm paths) ++ [⟨.wild, .unit⟩]) =
      attemptOut (caseOut g.c k d x) := by
  induction cs generalizing pre with
  | nil =>
    rw [hc, List.append_nil, List.getElem?_eq_none hi] at hk
    cases hk
  | cons k' cs ih =>
    have hk' : cases[pre.length]? = some k' := by rw [hc]; simp
    have hnum := caseNumber_eq h hk' true
    by_cases he : i = pre.length
    · subst he
      rw [hk'] at hk
      cases hk
      have hres := hr k (by simp)
      obtain ⟨n, case, t⟩ := k
      cases t with
      | none =>
        have hrest : ∀ cs' : List UCase, (∀ k ∈ cs', ∃ j, cases[j]? = some k ∧ pre.length < j) →
            arms g ρ (.data (.union pre.length x)) (cs'.flatMap (encodeArm paths) ++ [⟨.wild, .unit⟩]) =
              .pure .unit := by
          intro cs' hcs
          induction cs' with
          | nil => rfl
          | cons a cs' ih' =>
            obtain ⟨j, hj, hlt⟩ := hcs a (by simp)
            have hn := caseNumber_eq h hj true
            obtain ⟨an, ac, at'⟩ := a
            have hrec := ih' (fun k hk => hcs k (by simp [hk]))
            cases at' with
            | none => exact hrec
            | some r =>
              simp only [UCase.name, UCase.itemType, Option.isSome_some, if_true] at hn
              simp only [List.flatMap_cons, encodeArm, UCase.itemType, UCase.name, UCase.case,
                List.cons_append, List.nil_append, arms, Pat.match, hn, Option.some.injEq]
              rw [if_neg (by omega)]
              exact hrec
        have := hrest cs (by
          intro a ha
          obtain ⟨j, hj⟩ := List.mem_iff_getElem?.1 ha
          refine ⟨pre.length + (1 + j), ?_, by omega⟩
          rw [hc, List.getElem?_append_right (by omega), Nat.add_sub_cancel_left, Nat.add_comm 1 j]
          exact hj)
        simp only [List.flatMap_cons, encodeArm, UCase.itemType, List.nil_append, caseOut]
        rw [this]
        rfl
      | some r =>
        simp only [UCase.name, UCase.itemType, Option.isSome_some, if_true] at hnum
        simp only [List.flatMap_cons, encodeArm, UCase.itemType, UCase.name, UCase.case, List.cons_append,
          List.nil_append, arms, Pat.match, hnum, if_true]
        have hlit := hf _ (List.mem_cons_self ..)
        simp only [UCase.case] at hlit
        rw [Expr.eval]
        simp only [Expr.eval, lookup_cons_ne _ (show id "discriminant" ≠ id "v" by decide), hd, Run.get_some,
          Run.bind_pure, if_pos hlit, caseOut, outE, lookup_cons_eq,
          lookup_cons_ne _ (show id "out" ≠ id "v" by decide), ho, callTwo,
          pathTy_writeTo (k := .mk n case (some r)) rfl hres]
        by_cases hdc : d = case
        · rw [if_pos hdc, if_pos hdc]
          generalize r.write g.c x = o
          obtain ⟨cs, o⟩ := o
          cases o <;> simp [encoded, attemptOut, Run.pure]
        · rw [if_neg hdc, if_neg hdc]
          rfl
    · have htail := ih (pre := pre ++ [k']) (by rw [hc]; simp) (fun k h => hr k (by simp [h]))
        (fun k h => hf k (by simp [h])) (by simp; omega)
      obtain ⟨n, case, t⟩ := k'
      cases t with
      | none => exact htail
      | some r =>
        simp only [UCase.name, UCase.itemType, Option.isSome_some, if_true] at hnum
        simp only [List.flatMap_cons, encodeArm, UCase.itemType, UCase.name, UCase.case, List.cons_append,
          List.nil_append, arms, Pat.match, hnum, Option.some.injEq]
        rw [if_neg (Ne.symm he)]
        exact htail

/-- Running the generated encoder of a union is encoding the union. -/
theorem unionEncoder_call {u : Union} {ns : List Name} {f : FixedField} {a : Access} {key : Bytes} {i : Nat}
    {x : Value} (hp : Path u.discriminant.root u.discriminant.indexList ns f a) (h : Cases g u.cases)
    (hr : ∀ k ∈ u.cases, ResolvesCase g paths k) (hf : ∀ k ∈ u.cases, k.case < 256 ^ f.loc.rawSize)
    (hi : i < u.cases.length) {env : Env} {on : Name} (hk : env.lookup on = some (.struct key)) :
    (unionEncoder paths u ns f.name).call g
      (if hasContent u then [(id "input", .data (.union i x)),
        (id "discriminant", .view u.discriminant.root key), (id "out", .writer)] else []) =
      encoded (u.write g.c env on (.union i x)) := by
  obtain ⟨n, disc, cases, size⟩ := u
  simp only [Union.discriminant, Union.cases] at hp h hr hf hi
  have hread : disc.read g.c.p env on = a.get g.c.p key := by
    simp only [Discriminant.read, hk, Discriminant.access, hp.walk]
  simp only [Union.write, hread, Union.discriminant, unionEncoder]
  cases hc : hasContent (.mk n disc cases size) with
  | false =>
    simp only [hasContent, Union.cases] at hc
    simp only [hc, Bool.false_eq_true, if_false]
    rfl
  | true =>
    simp only [hasContent, Union.cases] at hc
    simp only [hc, if_true]
    unfold Body.call
    simp only [runAll, Stmt.run, Run.bind_pure]
    rw [readE_eval hp (by rw [lookup_cons_ne _ (by decide), lookup_cons_eq])]
    have hgood := hp.get_good g.c.p key
    cases hg : a.get g.c.p key with
    | err e => rw [hg] at hgood; cases hgood
    | panic => rfl
    | ok d =>
      simp only [lift_ok, Run.bind_pure, matchOn, Expr.eval, lookup_cons_eq, Run.get_some, Union.cases,
        lookup_cons_ne _ (show id "input" ≠ id "discriminant" by decide)]
      have hget : cases[i]? = some cases[i] := List.getElem?_eq_getElem hi
      have hfits : ((cases.flatMap (encodeArm paths) ++ [Arm.mk .wild .unit]).all fun a =>
          a.pat.fits g (.data (.union i x))) = true := by
        simp only [List.all_append, List.all_flatMap, Bool.and_eq_true, List.all_eq_true]
        refine ⟨fun k hk arm harm => ?_, by simp [Pat.fits]⟩
        obtain ⟨j, hj⟩ := List.mem_iff_getElem?.1 hk
        have hn := caseNumber_eq h hj true
        obtain ⟨kn, kc, kt⟩ := k
        cases kt with
        | none => simp [encodeArm, UCase.itemType] at harm
        | some r =>
          simp only [encodeArm, UCase.itemType, UCase.name, List.mem_singleton] at harm
          subst harm
          simp only [UCase.name, UCase.itemType, Option.isSome_some, if_true] at hn
          simp only [Pat.fits, hn, Option.isSome_some]
      simp only [hfits, if_true]
      rw [encodeArms (i := i) (pre := []) h rfl hr (lookup_cons_eq _ _)
        (by rw [lookup_cons_ne _ (by decide), lookup_cons_ne _ (by decide), lookup_cons_ne _ (by decide),
          lookup_cons_eq]) hf hget (by simp), writeCases_get hget]
      generalize caseOut g.c cases[i] d x = o
      obtain ⟨cs, o⟩ := o
      cases o <;> simp [attemptOut, encoded, Tail.run, Expr.eval, Run.leave, Run.pure]

/-! ## Storing the discriminant -/

theorem storeArms {cases pre cs : List UCase} (h : Cases g cases) (hc : cases = pre ++ cs) {ρ : Locals}
    {i : Nat} {x : Value} {k : UCase} (hk : cases[i]? = some k) (hi : pre.length ≤ i) :
    arms g ρ (.data (.union i x)) (cs.map storeArm) = .pure (.usize k.case) := by
  induction cs generalizing pre with
  | nil =>
    rw [hc, List.append_nil, List.getElem?_eq_none hi] at hk
    cases hk
  | cons k' cs ih =>
    have hk' : cases[pre.length]? = some k' := by rw [hc]; simp
    have hnum := caseNumber_eq h hk'
    by_cases he : i = pre.length
    · subst he
      rw [hk'] at hk
      cases hk
      obtain ⟨n, case, t⟩ := k
      cases t <;> simp only [UCase.name, UCase.itemType] at hnum <;>
        simp [arms, storeArm, UCase.itemType, Pat.match, hnum, UCase.name, Expr.eval]
    · have htail := ih (pre := pre ++ [k']) (by rw [hc]; simp) (by simp; omega)
      obtain ⟨n, case, t⟩ := k'
      cases t <;> simp only [UCase.name, UCase.itemType] at hnum <;>
        simp [arms, storeArm, UCase.itemType, Pat.match, hnum, UCase.name, Ne.symm he, htail]

/-- Running the generated `set_discriminant` stores the case in the key. -/
theorem unionStore_effect {u : Union} {ns : List Name} {f : FixedField} {a : Access} {key : Bytes} {i : Nat}
    {x : Value} {k : UCase} (hp : Path u.discriminant.root u.discriminant.indexList ns f a)
    (h : Cases g u.cases) (hf : ∀ k ∈ u.cases, k.case < 256 ^ f.loc.rawSize) (hk : u.cases[i]? = some k) :
    (unionStore u ns f.name).effect g [(id "self", .data (.union i x)),
      (id "discriminant", .viewMut (id "discriminant") 0 u.discriminant.root key)] =
      (lift (u.setDiscriminant g.c.p i key) >>= fun key => .pure [(id "discriminant_value", .usize k.case),
        (id "self", .data (.union i x)),
        (id "discriminant", .viewMut (id "discriminant") 0 u.discriminant.root key)]) := by
  have hfits : ((u.cases.map storeArm).all fun a => a.pat.fits g (.data (.union i x))) = true := by
    simp only [List.all_map, List.all_eq_true, Function.comp]
    intro k' hk'
    obtain ⟨j, hj⟩ := List.mem_iff_getElem?.1 hk'
    have hn := caseNumber_eq h hj
    obtain ⟨n, case, t⟩ := k'
    cases t <;> simp only [UCase.name, UCase.itemType] at hn <;>
      simp [storeArm, Pat.fits, UCase.itemType, UCase.name, hn]
  have hmatch : matchOn g [(id "self", .data (.union i x)),
      (id "discriminant", .viewMut (id "discriminant") 0 u.discriminant.root key)] (.var (id "self"))
      (u.cases.map storeArm) = .pure (.usize k.case) := by
    simp only [matchOn, Expr.eval, lookup_cons_eq, Run.get_some, Run.bind_pure, hfits, if_true]
    exact storeArms (pre := []) h rfl hk (by simp)
  unfold Body.effect unionStore
  rw [runAll, Stmt.run, hmatch]
  simp only [runAll, Run.bind_pure, Union.setDiscriminant, hk, Discriminant.access, hp.walk]
  have hrun := chainMut_run (g := g) hp (e := .var (id "discriminant")) (v := .var (id "discriminant_value"))
    (ρ := [(id "discriminant_value", .usize k.case), (id "self", .data (.union i x)),
      (id "discriminant", .viewMut (id "discriminant") 0 u.discriminant.root key)]) (b := key) (off := 0)
    (x := id "discriminant") (k := k.case) rfl rfl rfl (by simp) (hf k (List.mem_of_getElem? hk))
  unfold storeE
  rw [hrun]
  have hgood := hp.set_good g.c.p key k.case
  cases hs : a.set g.c.p key k.case with
  | err e => rw [hs] at hgood; cases hgood
  | panic => rfl
  | ok c =>
    rw [hs] at hgood
    simp only [lift_ok, Run.bind_pure]
    have : splice key 0 c = c := by
      simp only [splice, List.take_zero, List.nil_append, Nat.zero_add]
      rw [List.drop_eq_nil_of_le (Nat.le_of_eq (Eq.symm hgood)), List.append_nil]
    rw [this]
    rfl

/-! ## Looking at a case -/

/-- What `as_x` (content) and `is_x` (none) return. -/
def caseVal (k : UCase) (o : Option Value) : Val :=
  match k.itemType with
  | none => .bool o.isSome
  | some _ =>
    match o with
    | some v => .some (.data v)
    | none => .none

/-- Running the generated `as_x` or `is_x` looks at the case. -/
theorem caseAccessor_call {cases : List UCase} {i j : Nat} {x : Value} {k : UCase} (h : Cases g cases)
    (hk : cases[i]? = some k) :
    (caseAccessor k).call g [(id "self", .data (.union j x))] =
      .pure (caseVal k (Union.asCase i (.union j x))) := by
  have hn := caseNumber_eq h hk
  obtain ⟨n, case, t⟩ := k
  cases t <;> simp only [UCase.name, UCase.itemType] at hn <;> by_cases he : i = j <;>
    simp [Body.call, caseAccessor, UCase.itemType, UCase.name, runAll, Tail.run, matchOn, Expr.eval,
      lookup_cons_eq, Pat.fits, hn, arms, Pat.match, he, Union.asCase, caseVal, Run.leave, Run.pure]

end

end Proto.Rs
