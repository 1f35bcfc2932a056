import Verif.Decl.Union
import Mathlib.Data.List.Nodup
import Mathlib.Data.List.Pairwise

/-!
# C91, C92: the names the generated Rust code declares
-/

namespace Proto.Decl

open Text Rust

theorem free_types : Free typeKeys := by
  unfold Free OneLine
  decide +kernel

theorem free_constants : Free constantKeys := by
  unfold Free OneLine
  decide +kernel

theorem free_methods : Free methodKeys := by
  unfold Free OneLine
  decide +kernel

theorem free_fields : Free fieldKeys := by
  unfold Free OneLine
  decide +kernel

theorem free_variants : Free variantKeys := by
  unfold Free OneLine
  decide +kernel

theorem spaced_eq {α : Type} {kws : List Bytes} (hf : Free kws) {f : α → Bytes} {o : α → List Bytes} {xs : List α}
    (hn : run kws (.start []) [10] = ([], .start []))
    (h : ∀ x ∈ xs, run kws (.start []) (f x) = (o x, .start [])) :
    declared kws (spaced (xs.map f)) = xs.flatMap o := by
  have := run_spaced (ts := xs.map fun x => (f x, o x)) hn (by
    intro y hy
    obtain ⟨x, hx, rfl⟩ := List.mem_map.1 hy
    exact h x hx)
  refine declared_eq hf ?_
  simpa [List.map_map, Function.comp_def, List.flatMap_map] using this

theorem intercalate_oneLine {xs : List Bytes} (h : ∀ x ∈ xs, OneLine x) : OneLine (b!".".intercalate xs) := by
  match xs with
  | [] => simp [OneLine]
  | [x] => simpa [List.intercalate] using h x (by simp)
  | x :: y :: ys =>
    have e : b!".".intercalate (x :: y :: ys) = x ++ (b!"." ++ b!".".intercalate (y :: ys)) := by
      simp [List.intercalate]
    rw [e]
    refine (h x (by simp)).append (OneLine.append (by simp [OneLine]) ?_)
    exact intercalate_oneLine fun z hz => h z (by simp [hz])

theorem path_oneLine {ns : List Name} {leaf : Option Name} (h : ∀ n ∈ ns ++ leaf.toList, OneLine (Name.utf8 n)) :
    OneLine (readPath ns leaf) ∧ OneLine (writePath ns leaf) := by
  constructor
  all_goals
    refine intercalate_oneLine fun x hx => ?_
    rcases List.mem_append.1 hx with hx | hx
    all_goals
      obtain ⟨n, hn, rfl⟩ := List.mem_map.1 hx
      have := h n (by simp_all)
      first
        | exact OneLine.append (by simp [OneLine]) (this.append (by simp [OneLine]))
        | exact OneLine.append (by simp [OneLine]) this

/-- C91: the types and the constants each of the seven files declares, in order. -/
theorem C91_items {lib : Lib} (hl : Sane lib) (p : Profile) (emb : Nat → Bool) {proto : Protocol} (ht : Tidy proto)
    {names : Union → List Name × Option Name}
    (hs : ∀ s ∈ proto.structs, ∀ f ∈ s.fields, Accessible f)
    (hu : ∀ u ∈ proto.unions, Chain u.discriminant.root u.discriminant.indexList (names u).1 (names u).2)
    (hm : ∀ m ∈ proto.messages, ∀ f ∈ m.fields, Nameable f) :
    ∃ files, (generator lib p emb).generate proto = .ok files ∧
      files.map (fun f => (f.name, types f.data, constants f.data)) =
        [(b!"messages.rs", proto.messages.flatMap (fun m => Name.utf8 m.name :: m.fields.flatMap (aliases m)), []),
         (b!"messages_from_slice.rs", [], []),
         (b!"messages_write.rs", [], []),
         (b!"messages_offsets.rs", proto.messages.map (fun m => t!"{Name.utf8 m.name}Offsets"), []),
         (b!"structures.rs", proto.structs.map (fun s => Name.utf8 s.name),
           proto.structs.map (fun s => t!"SIZE_{lib.caseMap.upper (Name.utf8 s.name)}")),
         (b!"enums.rs", proto.enums.map (fun e => Name.utf8 e.name), []),
         (b!"unions.rs", proto.unions.map (fun u => Name.utf8 u.name), [])] := by
  refine ⟨_, C52_files lib p emb proto names hs hu hm, ?_⟩
  have nt : run typeKeys (.start []) [10] = ([], .start []) := by
    unfold typeKeys
    krun
  have nc : run constantKeys (.start []) [10] = ([], .start []) := by
    unfold constantKeys
    krun
  have hp := fun u h => path_oneLine ((ht.unions u h).2.2.2 _ _ (hu u h))
  have m1 := spaced_eq free_types nt fun m h => messageText_types proto.typePathByName m (ht.messages m h).1 (ht.messages m h).2
  have m2 := spaced_eq free_constants (o := fun _ => []) nc fun m h => messageText_constants proto.typePathByName m (ht.messages m h).1 (ht.messages m h).2
  have f1 := spaced_eq free_types (o := fun _ => []) nt fun m h => fromSliceText_types proto.typePathByName (emb m.id) m (ht.messages m h).1 (ht.messages m h).2
  have f2 := spaced_eq free_constants (o := fun _ => []) nc fun m h => fromSliceText_constants proto.typePathByName (emb m.id) m (ht.messages m h).1 (ht.messages m h).2
  have w1 := spaced_eq free_types (o := fun _ => []) nt fun m h => writeText_types proto.typePathByName m (ht.messages m h).1 (ht.messages m h).2
  have w2 := spaced_eq free_constants (o := fun _ => []) nc fun m h => writeText_constants proto.typePathByName m (ht.messages m h).1 (ht.messages m h).2
  have o1 := spaced_eq free_types nt fun m h => offsetsText_types proto.typePathByName (emb m.id) m (ht.messages m h).1 (ht.messages m h).2
  have o2 := spaced_eq free_constants (o := fun _ => []) nc fun m h => offsetsText_constants proto.typePathByName (emb m.id) m (ht.messages m h).1 (ht.messages m h).2
  have s1 := spaced_eq free_types nt fun s h => structureText_types hl (paths := proto.typePathByName) s (ht.structs s h).1 (ht.structs s h).2
  have s2 := spaced_eq free_constants nc fun s h => structureText_constants hl (paths := proto.typePathByName) s (ht.structs s h).1 (ht.structs s h).2
  have e1 := spaced_eq free_types nt fun e h => enumText_types e (ht.enums e h).1 (ht.enums e h).2
  have e2 := spaced_eq free_constants (o := fun _ => []) nc fun e h => enumText_constants e (ht.enums e h).1 (ht.enums e h).2
  have u1 := spaced_eq free_types nt fun u h => unionText_types proto.typePathByName u _ _ (ht.unions u h).1 (ht.unions u h).2.1 (hp u h).1 (hp u h).2 (ht.unions u h).2.2.1
  have u2 := spaced_eq free_constants (o := fun _ => []) nc fun u h => unionText_constants proto.typePathByName u _ _ (ht.unions u h).1 (ht.unions u h).2.1 (hp u h).1 (hp u h).2 (ht.unions u h).2.2.1
  simp only [files, List.map_cons, List.map_nil, types, constants, m1, m2, f1, f2, w1, w2, o1, o2, s1, s2, e1, e2,
    u1, u2, flatMap_none, ← List.map_eq_flatMap]

/-! ## Items -/

/-- The names of the declared types, in bytes. -/
def typeNames (proto : Protocol) : List Bytes :=
  proto.structs.map (fun s => Name.utf8 s.name) ++ proto.enums.map (fun e => Name.utf8 e.name) ++
    proto.unions.map (fun u => Name.utf8 u.name) ++ proto.messages.map (fun m => Name.utf8 m.name)

/-- The names of the aliases of arrays and lists: the message's, followed by the field's with a capital. -/
def aliasNames (proto : Protocol) : List Bytes :=
  proto.messages.flatMap fun m => (m.fields.filter fun f => aliased f.ty).map fun f =>
    Name.utf8 m.name ++ capital (Name.utf8 f.name)

theorem aliases_eq (m : Message) (fs : List MField) : fs.flatMap (aliases m) =
    (fs.filter fun f => aliased f.ty).map fun f => Name.utf8 m.name ++ capital (Name.utf8 f.name) := by
  induction fs with
  | nil => rfl
  | cons f fs ih =>
    rw [List.flatMap_cons, ih, List.filter_cons]
    unfold aliases
    split <;> simp

theorem perm_messages {α : Type} (n : α → Bytes) (a : α → List Bytes) (xs : List α) :
    (xs.flatMap fun x => n x :: a x).Perm (xs.map n ++ xs.flatMap a) := by
  induction xs with
  | nil => exact .refl _
  | cons x xs ih =>
    simp only [List.flatMap_cons, List.map_cons, List.cons_append]
    refine List.Perm.cons _ ((List.Perm.append_left _ ih).trans ?_)
    rw [← List.append_assoc, ← List.append_assoc]
    exact List.Perm.append_right _ List.perm_append_comm

/-- C91: no two items of the generated module have the same name exactly when the types of the protocol
have different names, none is called like a message followed by `Offsets`, the aliases have different
names, none of which is the name of a type or of the offsets of a message, and no two structures have the
same name in capital letters. -/
theorem C91_unique {lib : Lib} (hl : Sane lib) (p : Profile) (emb : Nat → Bool) {proto : Protocol} (ht : Tidy proto)
    {names : Union → List Name × Option Name}
    (hs : ∀ s ∈ proto.structs, ∀ f ∈ s.fields, Accessible f)
    (hu : ∀ u ∈ proto.unions, Chain u.discriminant.root u.discriminant.indexList (names u).1 (names u).2)
    (hm : ∀ m ∈ proto.messages, ∀ f ∈ m.fields, Nameable f) :
    ∃ files, (generator lib p emb).generate proto = .ok files ∧
      ((files.flatMap fun f => types f.data).Nodup ↔
        (typeNames proto).Nodup ∧ (∀ m ∈ proto.messages, t!"{Name.utf8 m.name}Offsets" ∉ typeNames proto) ∧
        (aliasNames proto).Nodup ∧ ∀ a ∈ aliasNames proto, a ∉ typeNames proto ∧
          ∀ m ∈ proto.messages, a ≠ t!"{Name.utf8 m.name}Offsets") ∧
      ((files.flatMap fun f => constants f.data).Nodup ↔
        (proto.structs.map fun s => lib.caseMap.upper (Name.utf8 s.name)).Nodup) := by
  obtain ⟨files, h, e⟩ := C91_items hl p emb ht hs hu hm
  refine ⟨files, h, ?_, ?_⟩
  · have e1 : (files.flatMap fun f => types f.data) =
        (files.map (fun f => (f.name, types f.data, constants f.data))).flatMap fun x => x.2.1 := by
      simp [List.flatMap_map]
    rw [e1, e]
    simp only [List.flatMap_cons, List.flatMap_nil, List.append_nil, List.nil_append, aliases_eq]
    have pm := perm_messages (fun m : Message => Name.utf8 m.name) (fun m => (m.fields.filter fun f => aliased f.ty).map fun f =>
      Name.utf8 m.name ++ capital (Name.utf8 f.name)) proto.messages
    have ho : (proto.messages.map fun m => Name.utf8 m.name).Nodup →
        (proto.messages.map (fun m => t!"{Name.utf8 m.name}Offsets")).Nodup := by
      intro hn
      have := hn.map (f := fun b : Bytes => b ++ b!"Offsets") fun _ _ h => List.append_cancel_right h
      simpa [List.map_map, Function.comp_def] using this
    have pall : ((proto.messages.flatMap fun m => Name.utf8 m.name :: (m.fields.filter fun f => aliased f.ty).map fun f =>
        Name.utf8 m.name ++ capital (Name.utf8 f.name)) ++
        (proto.messages.map (fun m => t!"{Name.utf8 m.name}Offsets") ++
          (proto.structs.map (fun s => Name.utf8 s.name) ++ (proto.enums.map (fun e => Name.utf8 e.name) ++
            proto.unions.map (fun u => Name.utf8 u.name))))).Perm
        (typeNames proto ++ (proto.messages.map (fun m => t!"{Name.utf8 m.name}Offsets") ++ aliasNames proto)) := by
      refine (List.Perm.append_right _ pm).trans ?_
      unfold typeNames aliasNames
      generalize proto.messages.map (fun m => Name.utf8 m.name) = a
      generalize proto.messages.map (fun m => t!"{Name.utf8 m.name}Offsets") = b
      generalize proto.structs.map (fun s => Name.utf8 s.name) = c
      generalize proto.enums.map (fun s => Name.utf8 s.name) = d
      generalize proto.unions.map (fun s => Name.utf8 s.name) = e
      generalize List.flatMap _ proto.messages = g
      rw [List.perm_iff_count]
      intro x
      simp only [List.count_append]
      omega
    rw [pall.nodup_iff, List.nodup_append, List.nodup_append]
    constructor
    · rintro ⟨h1, ⟨h2, h3, h4⟩, h5⟩
      refine ⟨h1, fun m hm hi => ?_, h3, fun a ha => ⟨fun hi => ?_, fun m hm e => ?_⟩⟩
      · exact h5 _ hi _ (List.mem_append_left _ (List.mem_map_of_mem hm)) rfl
      · exact h5 _ hi _ (List.mem_append_right _ ha) rfl
      · exact h4 _ (List.mem_map_of_mem hm) _ ha e.symm
    · rintro ⟨h1, h2, h3, h4⟩
      refine ⟨h1, ⟨ho ?_, h3, ?_⟩, ?_⟩
      · unfold typeNames at h1
        exact (List.nodup_append.1 h1).2.1
      · rintro _ ha b hb rfl
        obtain ⟨m, hm, e⟩ := List.mem_map.1 ha
        exact (h4 _ hb).2 m hm e.symm
      · rintro a ha b hb rfl
        rcases List.mem_append.1 hb with hb | hb
        · obtain ⟨m, hm, rfl⟩ := List.mem_map.1 hb
          exact h2 m hm ha
        · exact (h4 _ hb).1 ha
  · have e1 : (files.flatMap fun f => constants f.data) =
        (files.map (fun f => (f.name, types f.data, constants f.data))).flatMap fun x => x.2.2 := by
      simp [List.flatMap_map]
    rw [e1, e]
    simp only [List.flatMap_cons, List.flatMap_nil, List.append_nil, List.nil_append]
    constructor
    · intro hn
      refine List.Nodup.of_map (fun b : Bytes => b!"SIZE_" ++ b) ?_
      simpa [List.map_map, Function.comp_def] using hn
    · intro hn
      have := hn.map (f := fun b : Bytes => b!"SIZE_" ++ b) fun _ _ h => List.append_cancel_left h
      simpa [List.map_map, Function.comp_def] using this

/-! ## Members -/

/-- The name of a field. -/
def nameOf : SField → Bytes
  | .fixed f => Name.utf8 f.name
  | .array f => Name.utf8 f.name
  | .struct n _ _ => Name.utf8 n

/-- Numbers, booleans and enums, as opposed to arrays and structures. -/
def scalar : SField → Bool
  | .fixed _ => true
  | _ => false

theorem disjoint_iff {a b : List Bytes} : a.Disjoint b ↔ ∀ x ∈ a, ∀ y ∈ b, x ≠ y := by
  constructor
  · rintro h x hx _ hy rfl
    exact h hx hy
  · intro h x hx hy
    exact h x hx x hy rfl

theorem raw_ne (b : Bytes) : b ≠ b!"raw_" ++ b := by
  intro h
  have := congrArg List.length h
  simp at this
  omega

theorem mut_ne (b : Bytes) : b ≠ b ++ b!"_mut" := by
  intro h
  have := congrArg List.length h
  simp at this

theorem getters_disjoint (f g : SField) : (getters f).Disjoint (getters g) ↔
    nameOf f ≠ nameOf g ∧ (scalar f = true → nameOf g ≠ b!"raw_" ++ nameOf f) ∧
      (scalar g = true → nameOf f ≠ b!"raw_" ++ nameOf g) := by
  rw [disjoint_iff]
  cases f <;> cases g <;> simp [getters, nameOf, scalar, eq_comm] <;> tauto

theorem setters_disjoint (f g : SField) : (setters f).Disjoint (setters g) ↔
    (scalar f = scalar g → nameOf f ≠ nameOf g) ∧
      (scalar f = true → scalar g = true → nameOf g ≠ b!"raw_" ++ nameOf f ∧ nameOf f ≠ b!"raw_" ++ nameOf g) := by
  rw [disjoint_iff]
  cases f <;> cases g <;> simp [setters, nameOf, scalar, eq_comm] <;> tauto

theorem cross_disjoint (f g : SField) : (getters f).Disjoint (setters g) ↔
    (scalar g = false → nameOf f ≠ nameOf g ++ b!"_mut" ∧
      (scalar f = true → b!"raw_" ++ nameOf f ≠ nameOf g ++ b!"_mut")) := by
  rw [disjoint_iff]
  cases f <;> cases g <;> simp [getters, setters, nameOf, scalar, eq_comm] <;> tauto

theorem getters_nodup (f : SField) : (getters f).Nodup := by
  cases f <;> simp [getters]
  exact fun h => raw_ne _ h.symm

theorem setters_nodup (f : SField) : (setters f).Nodup := by
  cases f <;> simp [setters]
  exact fun h => raw_ne _ h.symm

/-- C92: the methods of a structure. -/
theorem C92_structure {lib : Lib} (hl : Sane lib) (p : Profile) {paths : List (Name × Name)} {s : Structure}
    (hw : Word (Name.utf8 s.name)) (hn : ∀ f ∈ s.fields, Named paths f) (ha : ∀ f ∈ s.fields, Accessible f) :
    ∃ text, structureDecl lib p paths s = .ok text ∧
      methods text = [b!"new", b!"new_on_stack", b!"to_ref", b!"to_mut"] ++ s.fields.flatMap getters ++
        s.fields.flatMap setters ∧
      ((methods text).Nodup ↔
        (s.fields.map nameOf).Nodup ∧
        (∀ f ∈ s.fields, ∀ g ∈ s.fields, scalar f = true → nameOf g ≠ t!"raw_{nameOf f}") ∧
        (∀ f ∈ s.fields, ∀ g ∈ s.fields, scalar f = false → nameOf g ≠ t!"{nameOf f}_mut") ∧
        (∀ f ∈ s.fields, ∀ g ∈ s.fields, scalar f = true → scalar g = false →
          t!"raw_{nameOf f}" ≠ t!"{nameOf g}_mut")) := by
  refine ⟨_, C52_structure lib p paths s ha, declared_eq free_methods (structureText_methods hl s hw hn), ?_⟩
  have e := declared_eq free_methods (structureText_methods hl s hw hn)
  unfold methods
  rw [e]
  clear e
  generalize s.fields = fs
  have apart : ∀ {f g : SField}, nameOf f ≠ nameOf g → f ≠ g := fun h e => h (e ▸ rfl)
  constructor
  · intro h
    obtain ⟨h, hS, hGS⟩ := List.nodup_append.1 h
    obtain ⟨_, hG, _⟩ := List.nodup_append.1 h
    have hG' := (List.nodup_flatMap.1 hG).2
    have sym : Std.Symm (Function.onFun List.Disjoint getters) := ⟨fun _ _ h _ hx hy => h hy hx⟩
    have cross : ∀ f ∈ fs, ∀ g ∈ fs, (getters f).Disjoint (setters g) := by
      intro f hf g hg
      rw [disjoint_iff]
      exact fun x hx y hy => hGS x (List.mem_append_right _ (List.mem_flatMap.2 ⟨f, hf, hx⟩)) y
        (List.mem_flatMap.2 ⟨g, hg, hy⟩)
    refine ⟨?_, ?_, ?_, ?_⟩
    · rw [List.Nodup, List.pairwise_map]
      exact hG'.imp fun h => ((getters_disjoint _ _).1 h).1
    · intro f hf g hg hs e
      have hne : nameOf f ≠ nameOf g := by
        rw [e]
        exact raw_ne _
      exact ((getters_disjoint _ _).1 (hG'.forall hf hg (apart hne))).2.1 hs e
    · intro f hf g hg hs e
      exact ((cross_disjoint g f).1 (cross g hg f hf) hs).1 e
    · intro f hf g hg hs hs' e
      exact ((cross_disjoint f g).1 (cross f hf g hg) hs').2 hs e
  · rintro ⟨h1, h2, h3, h4⟩
    rw [List.Nodup, List.pairwise_map] at h1
    have hG : (fs.flatMap getters).Nodup := by
      refine List.nodup_flatMap.2 ⟨fun f _ => getters_nodup f, ?_⟩
      refine h1.imp_of_mem fun {f g} hf hg hne => (getters_disjoint f g).2 ⟨hne, h2 f hf g hg, h2 g hg f hf⟩
    have hS : (fs.flatMap setters).Nodup := by
      refine List.nodup_flatMap.2 ⟨fun f _ => setters_nodup f, ?_⟩
      refine h1.imp_of_mem fun {f g} hf hg hne => (setters_disjoint f g).2
        ⟨fun _ => hne, fun s1 s2 => ⟨h2 f hf g hg s1, h2 g hg f hf s2⟩⟩
    have start : ∀ x ∈ fs.flatMap getters ++ fs.flatMap setters, x.take 4 = b!"get_" ∨ x.take 4 = b!"set_" := by
      intro x hx
      rcases List.mem_append.1 hx with hx | hx
      all_goals
        obtain ⟨f, _, hx⟩ := List.mem_flatMap.1 hx
        cases f <;> simp [getters, setters] at hx <;> rcases hx with rfl | rfl <;> simp
    rw [List.append_assoc, List.nodup_append]
    refine ⟨by decide, List.nodup_append.2 ⟨hG, hS, ?_⟩, ?_⟩
    · intro x hx y hy
      obtain ⟨f, hf, hx⟩ := List.mem_flatMap.1 hx
      obtain ⟨g, hg, hy⟩ := List.mem_flatMap.1 hy
      refine disjoint_iff.1 ((cross_disjoint f g).2 fun hs => ⟨h3 g hg f hf hs, fun hs' => h4 f hf g hg hs' hs⟩) x hx y hy
    · rintro x hx y hy rfl
      have := start x hy
      revert hx
      simp only [List.mem_cons, List.not_mem_nil, or_false]
      rintro (rfl | rfl | rfl | rfl) <;> revert this <;> decide

theorem flatMap_one {α : Type} {f : α → List Bytes} {g : α → Bytes} (h : ∀ x, f x = [g x]) (xs : List α) :
    xs.flatMap f = xs.map g := by
  induction xs with
  | nil => rfl
  | cons x xs ih => simp [h, ih]

/-- C92: the methods of a union are different exactly when no two cases with content have the same name
in small letters, and no two cases without content have. -/
theorem C92_union (lib : Lib) {paths : List (Name × Name)} {u : Union} {ns : List Name} {leaf : Option Name}
    (h : Chain u.discriminant.root u.discriminant.indexList ns leaf) (hw : Word (Name.utf8 u.name))
    (hr : OneLine (pathOf paths u.discriminant.root.name)) (hp : ∀ n ∈ ns ++ leaf.toList, OneLine (Name.utf8 n))
    (hc : ∀ c ∈ u.cases, CNamed paths c) :
    ∃ text, unionDecl lib paths u = .ok text ∧
      methods text = [b!"from_slice", b!"write_to", b!"set_discriminant"] ++ u.cases.flatMap accessors ∧
      ((methods text).Nodup ↔
        (u.cases.map fun c => (c.itemType.isSome, lower (Name.utf8 c.name))).Nodup) := by
  have e := declared_eq free_methods (unionText_methods paths u _ _ hw hr (path_oneLine hp).1 (path_oneLine hp).2 hc)
  refine ⟨_, C52_union lib paths h, e, ?_⟩
  unfold methods
  rw [e, flatMap_one (g := fun c : UCase => (if c.itemType.isSome then b!"as_" else b!"is_") ++ lower (Name.utf8 c.name))
    (fun c => by unfold accessors; split <;> rfl)]
  constructor
  · intro h
    have := (List.nodup_append.1 h).2.1
    refine List.Nodup.of_map (fun x : Bool × Bytes => (if x.1 then b!"as_" else b!"is_") ++ x.2) ?_
    simpa [List.map_map, Function.comp_def] using this
  · intro h
    refine List.nodup_append.2 ⟨by decide, ?_, ?_⟩
    · have := h.map (f := fun x : Bool × Bytes => (if x.1 then b!"as_" else b!"is_") ++ x.2) (by
        rintro ⟨a, x⟩ ⟨b, y⟩ h
        cases a <;> cases b <;> simp_all)
      simpa [List.map_map, Function.comp_def] using this
    · rintro x hx y hy rfl
      obtain ⟨c, _, rfl⟩ := List.mem_map.1 hy
      revert hx
      cases c.itemType.isSome <;> simp

/-- C92: the fields of a message and of its offsets are different exactly when the fields of the message
have different names, none of which is that of a field that is a message, followed by `_offsets`. -/
theorem C92_message (lib : Lib) (emb : Nat → Bool) {paths : List (Name × Name)} {m : Message}
    (hw : Word (Name.utf8 m.name)) (hn : ∀ f ∈ m.fields, MNamed paths f) (ha : ∀ f ∈ m.fields, Nameable f) :
    ∃ text offsets, messageDecl lib paths m = .ok text ∧ messageOffsets lib paths emb m = .ok offsets ∧
      fields text = m.fields.map (fun f => Name.utf8 f.name) ∧
      fields offsets = m.fields.flatMap offsetNames ∧
      ((fields text).Nodup ↔ (m.fields.map fun f => Name.utf8 f.name).Nodup) ∧
      ((fields offsets).Nodup ↔ (m.fields.map fun f => Name.utf8 f.name).Nodup ∧
        ∀ f ∈ m.fields, ∀ n, f.ty = .ref (.message n) → ∀ g ∈ m.fields,
          Name.utf8 g.name ≠ t!"{Name.utf8 f.name}_offsets") := by
  have e1 := declared_eq free_fields (messageText_fields paths m hw hn)
  have e2 := declared_eq free_fields (offsetsText_fields paths (emb m.id) m hw hn)
  refine ⟨_, _, C52_message lib paths m ha, C52_offsets lib paths emb m, e1, e2, by rw [fields, e1], ?_⟩
  rw [fields, e2]
  generalize m.fields = fs
  have disj : ∀ f g : MField, (offsetNames f).Disjoint (offsetNames g) ↔ Name.utf8 f.name ≠ Name.utf8 g.name ∧
      (∀ n, f.ty = .ref (.message n) → Name.utf8 g.name ≠ Name.utf8 f.name ++ b!"_offsets") ∧
      (∀ n, g.ty = .ref (.message n) → Name.utf8 f.name ≠ Name.utf8 g.name ++ b!"_offsets") := by
    intro f g
    rw [disjoint_iff]
    unfold offsetNames
    split <;> split <;> simp_all [eq_comm] <;> tauto
  have long : ∀ b : Bytes, b ≠ b ++ b!"_offsets" := by
    intro b h
    have := congrArg List.length h
    simp at this
  rw [List.nodup_flatMap]
  constructor
  · rintro ⟨-, h⟩
    refine ⟨?_, ?_⟩
    · rw [List.Nodup, List.pairwise_map]
      exact h.imp fun h => ((disj _ _).1 h).1
    · intro f hf n hty g hg e
      have sym : Std.Symm (Function.onFun List.Disjoint offsetNames) := ⟨fun _ _ h _ hx hy => h hy hx⟩
      have hne : f ≠ g := by
        rintro rfl
        exact long _ e
      exact ((disj _ _).1 (h.forall hf hg hne)).2.1 n hty e
  · rintro ⟨h1, h2⟩
    rw [List.Nodup, List.pairwise_map] at h1
    refine ⟨fun f _ => ?_, h1.imp_of_mem fun {f g} hf hg hne => (disj f g).2
      ⟨hne, fun n e => h2 f hf n e g hg, fun n e => h2 g hg n e f hf⟩⟩
    unfold offsetNames
    split
    · simp [long]
    · simp

/-- C92: the variants of an enum are those declared. -/
theorem C92_enum (lib : Lib) {e : Enum} (hw : Word (Name.utf8 e.name)) (hv : ∀ v ∈ e.variants, Word (Name.utf8 v.1)) :
    ∃ text, enumDecl lib e = .ok text ∧ variants text = e.variants.map fun v => Name.utf8 v.1 :=
  ⟨_, C52_enum lib e, declared_eq free_variants (enumText_variants e hw hv)⟩

/-! ## Protocols that compile and whose generated code has clashes -/

instance (b : Bytes) : Decidable (Word b) := inferInstanceAs (Decidable (∀ c ∈ b, isWord c = true))
instance (b : Bytes) : Decidable (OneLine b) := inferInstanceAs (Decidable (∀ c ∈ b, c ≠ 10))

namespace Ex

/-- A structure with fields `x` and `raw_x`, and a message with an array called `offsets`. -/
def clash : Model.Protocol :=
  { name := ['p'],
    structs := [⟨['A'], [⟨['x'], .unsigned 8, none, none⟩, ⟨"raw_x".toList, .unsigned 8, none, none⟩]⟩],
    messages := [⟨['F'], [⟨"offsets".toList, .list 3 ['A'], none⟩]⟩] }

/-- The same, with other names. -/
def fine : Model.Protocol :=
  { name := ['p'],
    structs := [⟨['A'], [⟨['x'], .unsigned 8, none, none⟩, ⟨"y_mut".toList, .unsigned 8, none, none⟩]⟩],
    messages := [⟨['F'], [⟨"items".toList, .list 3 ['A'], none⟩]⟩] }

end Ex

/-- What the two examples have in common. -/
theorem examples_tidy : ∀ v ∈ [Ex.clash, Ex.fine], ∃ proto w',
    Protocol.fromModel .checked Resolver.none ⟨0, []⟩ v = .ok (proto, w') ∧ Tidy proto ∧
    (∀ s ∈ proto.structs, ∀ f ∈ s.fields, Accessible f) ∧
    (∀ m ∈ proto.messages, ∀ f ∈ m.fields, Nameable f) ∧ proto.unions = [] := by
  intro v hv
  simp only [List.mem_cons, List.not_mem_nil, or_false] at hv
  rcases hv with rfl | rfl
  all_goals
    refine ⟨_, _, rfl, ⟨?_, ?_, ?_, ?_⟩, ?_, ?_, rfl⟩
    · intro s hs
      rw [List.mem_singleton.1 hs]
      refine ⟨by decide +kernel, fun f hf => ?_⟩
      rcases List.mem_cons.1 hf with rfl | hf
      · exact ⟨by decide +kernel, nofun⟩
      · rw [List.mem_singleton.1 hf]
        exact ⟨by decide +kernel, nofun⟩
    · exact nofun
    · exact nofun
    · intro m hm
      rw [List.mem_singleton.1 hm]
      refine ⟨by decide +kernel, fun f hf => ?_⟩
      rw [List.mem_singleton.1 hf]
      exact ⟨by decide +kernel, (by decide +kernel : OneLine (pathOf [] ['A']))⟩
    · intro s hs f hf
      rw [List.mem_singleton.1 hs] at hf
      rcases List.mem_cons.1 hf with rfl | hf
      · exact ⟨by decide, by decide, by decide⟩
      · rw [List.mem_singleton.1 hf]
        exact ⟨by decide, by decide, by decide⟩
    · intro m hm f hf
      rw [List.mem_singleton.1 hm] at hf
      rw [List.mem_singleton.1 hf]
      intro _
      decide +kernel

/-- C91, C92: a protocol that compiles, for which code is generated, and whose code declares a type
twice and a method of a structure twice. -/
theorem C91_clashes {lib : Lib} (hl : Sane lib) (p : Profile) (emb : Nat → Bool) : ∃ proto w' files,
    Protocol.fromModel .checked Resolver.none ⟨0, []⟩ Ex.clash = .ok (proto, w') ∧
    (generator lib p emb).generate proto = .ok files ∧ ¬ (files.flatMap fun f => types f.data).Nodup ∧
    ∃ s ∈ proto.structs, ∃ text, structureDecl lib p proto.typePathByName s = .ok text ∧ ¬ (methods text).Nodup := by
  obtain ⟨proto, w', h, ht, hs, hm, hu⟩ := examples_tidy Ex.clash (by simp)
  obtain ⟨files, hf, hT, _⟩ := C91_unique hl p emb (names := fun _ => ([], none)) ht hs (by simp [hu]) hm
  refine ⟨proto, w', files, h, hf, fun hn => ?_, ?_⟩
  · obtain ⟨_, _, _, h4⟩ := hT.1 hn
    cases h
    exact (h4 b!"FOffsets" (by decide +kernel)).2 _ (List.mem_cons_self ..) (by decide +kernel)
  · have hA : ∃ s, s ∈ proto.structs ∧ s.fields.map nameOf = [b!"x", b!"raw_x"] ∧ ∀ f ∈ s.fields, scalar f = true := by
      cases h
      refine ⟨_, List.mem_cons_self .., by decide +kernel, fun f hf => ?_⟩
      rcases List.mem_cons.1 hf with rfl | hf
      · rfl
      · rw [List.mem_singleton.1 hf]
        rfl
    obtain ⟨s, hmem, hn, hsc⟩ := hA
    obtain ⟨text, htext, _, hM⟩ := C92_structure hl p (ht.structs s hmem).1 (ht.structs s hmem).2 (hs s hmem)
    refine ⟨s, hmem, text, htext, fun hnd => ?_⟩
    have h2 := (hM.1 hnd).2.1
    rcases e : s.fields with _ | ⟨f, _ | ⟨g, _ | ⟨_, _⟩⟩⟩
    all_goals
      rw [e] at hn
      simp only [List.map_cons, List.map_nil, List.cons.injEq, reduceCtorEq, and_true, and_false] at hn
    rw [e] at h2 hsc
    exact h2 f (by simp) g (by simp) (hsc f (by simp)) (by rw [hn.1, hn.2]; rfl)

/-- With other names there is none. -/
example : ∃ proto w' files, Protocol.fromModel .checked Resolver.none ⟨0, []⟩ Ex.fine = .ok (proto, w') ∧
    (generator RustEx.lib .checked fun _ => false).generate proto = .ok files ∧
    (files.flatMap fun f => types f.data).Nodup ∧ (files.flatMap fun f => constants f.data).Nodup ∧
    (files.flatMap fun f => types f.data) = [b!"F", b!"FItems", b!"FOffsets", b!"A"] := by
  have hl : Sane RustEx.lib := ⟨fun _ => by show OneLine b!"0.0"; decide, fun _ h => h⟩
  obtain ⟨proto, w', h, ht, hs, hm, hu⟩ := examples_tidy Ex.fine (by simp)
  obtain ⟨files, hf, hT, hC⟩ := C91_unique hl .checked (fun _ => false) (names := fun _ => ([], none)) ht hs
    (by simp [hu]) hm
  obtain ⟨files', hf', hi⟩ := C91_items hl .checked (fun _ => false) (names := fun _ => ([], none)) ht hs
    (by simp [hu]) hm
  cases hf.symm.trans hf'
  have e1 : (files.flatMap fun f => types f.data) =
      (files.map (fun f => (f.name, types f.data, constants f.data))).flatMap fun x => x.2.1 := by
    simp [List.flatMap_map]
  refine ⟨proto, w', files, h, hf, hT.2 ?_, hC.2 ?_, ?_⟩
  all_goals
    try rw [e1, hi]
    cases h
    decide +kernel

/-- A structure with a number and an array. -/
def Ex.twoFields : Structure :=
  .mk 0 ['S'] [.fixed ⟨['a'], .u8, ⟨0, 0, 1, 8⟩, .none, .little⟩, .array ⟨['b'], .u8, 2, ⟨1, 0, 2, 16⟩, .little⟩] 3 24

example {lib : Lib} (hl : Sane lib) (p : Profile) : ∃ text, structureDecl lib p [] Ex.twoFields = .ok text ∧
    methods text = [b!"new", b!"new_on_stack", b!"to_ref", b!"to_mut", b!"get_raw_a", b!"get_a", b!"get_b",
      b!"set_raw_a", b!"set_a", b!"get_b_mut"] ∧ (methods text).Nodup := by
  obtain ⟨text, h1, h2, _⟩ := C92_structure hl p (paths := []) (s := Ex.twoFields) (by decide +kernel)
    (by
      intro f hf
      rcases List.mem_cons.1 hf with rfl | hf
      · exact ⟨by decide +kernel, nofun⟩
      · rw [List.mem_singleton.1 hf]
        exact (by decide +kernel : Word (Name.utf8 ['b'])))
    (by
      intro f hf
      rcases List.mem_cons.1 hf with rfl | hf
      · exact ⟨by decide, by decide, by decide⟩
      · rw [List.mem_singleton.1 hf]
        exact ⟨by decide, by decide⟩)
  refine ⟨text, h1, ?_, ?_⟩ <;> rw [h2] <;> decide +kernel

/-- A union with two cases that differ in case only: `as_a` twice. -/
example : ∃ c d : UCase, c.name ≠ d.name ∧ accessors c = accessors d :=
  ⟨⟨['A'], 1, some (.struct Ex.twoFields)⟩, ⟨['a'], 2, some (.struct Ex.twoFields)⟩, by decide, by decide +kernel⟩

end Proto.Decl
