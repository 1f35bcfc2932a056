import Verif.Props.Names
import Verif.Props.Loader

/-!
# C93: arrays of imported structures
-/

namespace Proto.Decl

open Text Rust Props

theorem lines_append (a b : Bytes) : lines (a ++ 10 :: b) = lines a ++ lines b := by
  induction a with
  | nil => rw [List.nil_append, lines_cons, if_pos rfl]; rfl
  | cons c cs ih =>
    rw [List.cons_append, lines_cons, lines_cons, ih]
    split
    · rfl
    · cases e : lines cs with
      | nil => exact absurd e (lines_ne cs)
      | cons l ls => rfl

theorem lines_one {l : Bytes} (h : OneLine l) : lines l = [l] := by
  induction l with
  | nil => rfl
  | cons c cs ih =>
    rw [lines_cons, ih fun x hx => h x (by simp [hx]), if_neg (h c (by simp))]
    rfl

theorem wrapped_nil_line : wrapped [] = [] := by decide

theorem wrapped_append (a b : Bytes) : wrapped (a ++ 10 :: b) = wrapped a ++ wrapped b := by
  unfold wrapped
  rw [lines_append, List.filterMap_append]

/-- What ends with a line break. -/
def Ended (t : Bytes) : Prop := t = [] ∨ ∃ u, t = u ++ [10]

theorem wrapped_ended {a : Bytes} (h : Ended a) (b : Bytes) : wrapped (a ++ b) = wrapped a ++ wrapped b := by
  rcases h with rfl | ⟨u, rfl⟩
  · rfl
  · rw [List.append_assoc, List.singleton_append, wrapped_append, show u ++ [10] = u ++ 10 :: [] from rfl,
      wrapped_append, wrapped_nil_line, List.append_nil]

theorem wrapped_none {t : Bytes} (h : ∀ l ∈ lines t, ¬ b!"bp3d_proto::generate_array_wrapper!(" <+: l) :
    wrapped t = [] := by
  unfold wrapped
  rw [List.filterMap_eq_nil_iff]
  intro l hl
  rw [if_neg]
  exact fun e => h l hl (List.isPrefixOf_iff_prefix.1 e)

theorem wrapped_of_declared {kws : List Bytes} (hk : b!"bp3d_proto::generate_array_wrapper!(" ∈ kws) {t : Bytes}
    (h : declared kws t = []) : wrapped t = [] := by
  refine wrapped_none fun l hl hp => ?_
  have := List.flatMap_eq_nil_iff.1 h l hl
  unfold names at this
  cases e : kws.find? (·.isPrefixOf l) with
  | none => exact List.find?_eq_none.1 e _ hk (List.isPrefixOf_iff_prefix.2 hp)
  | some k =>
    rw [e] at this
    cases this

/-- What the calls begin with. -/
def wrapKeys : List Bytes := [b!"bp3d_proto::generate_array_wrapper!("]

theorem free_wrap : Free wrapKeys := by
  unfold Free OneLine
  decide +kernel

theorem fieldDecl_wrap (paths : List (Name × Name)) (f : MField) (h : MNamed paths f) :
    run wrapKeys (.start []) (fieldDecl paths f) = ([], .start []) := by
  have hi := declType_goes wrapKeys paths f h
  have hn := h.1
  unfold fieldDecl
  dsimp only
  split
  all_goals
    unfold wrapKeys at *
    rcases hi with hi | hi <;> scan

/-- The declaration of the `struct` of a message, without the aliases. -/
def structText (paths : List (Name × Name)) (m : Message) : Bytes :=
  t!"#[derive(Copy, Clone, Debug)]
pub struct {Name.utf8 m.name}{messageGenerics m} \{
{all (fieldDecl paths) m.fields}
}
"

theorem struct_wrap (paths : List (Name × Name)) (m : Message) (hm : Word (Name.utf8 m.name))
    (hf : ∀ f ∈ m.fields, MNamed paths f) : run wrapKeys (.start []) (structText paths m) = ([], .start []) := by
  have h1 := run_all (o := fun _ => []) fun f h => fieldDecl_wrap paths f (hf f h)
  have h2 := oneLine_messageGenerics m
  unfold structText wrapKeys at *
  apply Eq.trans
  (focus (repeat scan_step))
  simp

theorem dropWhile_past {a b : Bytes} (h : ∀ c ∈ a, c ≠ 0x2c) :
    (a ++ b).dropWhile (· ≠ 0x2c) = b.dropWhile (· ≠ 0x2c) := by
  induction a with
  | nil => rfl
  | cons c cs ih =>
    rw [List.cons_append, List.dropWhile_cons, if_pos (by simp [h c (by simp)]), ih fun x hx => h x (by simp [hx])]

theorem takeWhile_until {a b : Bytes} (h : ∀ c ∈ a, c ≠ 0x2c) :
    (a ++ 0x2c :: b).takeWhile (· ≠ 0x2c) = a := by
  induction a with
  | nil => simp
  | cons c cs ih =>
    rw [List.cons_append, List.takeWhile_cons, if_pos (by simp [h c (by simp)]), ih fun x hx => h x (by simp [hx])]

theorem Word.noComma {b : Bytes} (h : Word b) : ∀ c ∈ b, c ≠ 0x2c := by
  rintro c hc rfl
  have := h _ hc
  revert this
  decide

/-- The structures that are items of arrays. -/
def arrayItem (f : MField) : Option Structure :=
  match f.ty with
  | .array _ s => some s
  | _ => none

theorem alias_wrap (paths : List (Name × Name)) (m : Message) (hm : Word (Name.utf8 m.name)) (f : MField)
    (h : MNamed paths f) (hc : ∀ s, arrayItem f = some s → ∀ c ∈ pathOf paths s.name, c ≠ 0x2c) :
    Ended (aliasDecl paths m f) ∧
      wrapped (aliasDecl paths m f) = ((arrayItem f).map fun s => pathOf paths s.name).toList := by
  obtain ⟨h1, h2⟩ := h
  have hw := hm.append (word_capital h1)
  unfold aliasDecl
  unfold arrayItem at *
  cases e : f.ty with
  | array t s =>
    simp only [e] at h2 hc ⊢
    have hv := oneLine_value f.endian t
    let l : Bytes := t!"bp3d_proto::generate_array_wrapper!({Name.utf8 m.name}{capital (Name.utf8 f.name)}, {pathOf paths s.name}, {value f.endian t});"
    have el : t!"bp3d_proto::generate_array_wrapper!({Name.utf8 m.name}{capital (Name.utf8 f.name)}, {pathOf paths s.name}, {value f.endian t});
" = l ++ [10] := by simp [l]
    rw [el]
    refine ⟨.inr ⟨l, rfl⟩, ?_⟩
    have hl : OneLine l := by
      refine OneLine.append (by simp [OneLine]) ?_
      rw [← List.append_assoc]
      exact hw.oneLine.append (OneLine.append (by simp [OneLine]) (h2.append (OneLine.append (by simp [OneLine])
        (hv.append (by simp [OneLine])))))
    rw [show l ++ [10] = l ++ 10 :: [] from rfl, wrapped_append, wrapped_nil_line, List.append_nil]
    unfold wrapped
    rw [lines_one hl]
    have hp : b!"bp3d_proto::generate_array_wrapper!(".isPrefixOf l = true :=
      List.isPrefixOf_iff_prefix.2 (List.prefix_append _ _)
    simp only [List.filterMap_cons, List.filterMap_nil, hp, if_true, Option.map_some, Option.toList_some]
    have e1 : l = (b!"bp3d_proto::generate_array_wrapper!(" ++ (Name.utf8 m.name ++ capital (Name.utf8 f.name))) ++
        0x2c :: 0x20 :: (pathOf paths s.name ++ 0x2c :: (b!" " ++ (value f.endian t ++ b!");"))) := by
      simp [l]
    rw [e1, dropWhile_past, List.dropWhile_cons, if_neg (by simp), List.drop_succ_cons, List.drop_succ_cons,
      List.drop_zero, takeWhile_until (hc s rfl)]
    intro c hc'
    rcases List.mem_append.1 hc' with h' | h'
    · clear hc'
      revert c
      decide
    · exact hw.noComma c h'
  | list t s =>
    simp only [e] at h2 ⊢
    have hv := oneLine_value f.endian t
    let l : Bytes := t!"pub type {Name.utf8 m.name}{capital (Name.utf8 f.name)}<'a, T> = bp3d_proto::message::util::List<T, {value f.endian t}, {pathOf paths s.name}<'a>>;"
    have el : t!"pub type {Name.utf8 m.name}{capital (Name.utf8 f.name)}<'a, T> = bp3d_proto::message::util::List<T, {value f.endian t}, {pathOf paths s.name}<'a>>;
" = l ++ [10] := by simp [l]
    rw [el]
    refine ⟨.inr ⟨l, rfl⟩, ?_⟩
    have hl : OneLine l := by
      refine OneLine.append (by simp [OneLine]) ?_
      rw [← List.append_assoc]
      exact hw.oneLine.append (OneLine.append (by simp [OneLine]) (hv.append (OneLine.append (by simp [OneLine])
        (h2.append (by simp [OneLine])))))
    rw [show l ++ [10] = l ++ 10 :: [] from rfl, wrapped_append, wrapped_nil_line, List.append_nil]
    refine wrapped_none fun x hx hp => ?_
    rw [lines_one hl, List.mem_singleton] at hx
    subst hx
    simp [l] at hp
  | _ => exact ⟨.inl rfl, wrapped_nil_line⟩

theorem wrapped_all {α : Type} {f : α → Bytes} {o : α → List Bytes} {xs : List α}
    (h : ∀ x ∈ xs, Ended (f x) ∧ wrapped (f x) = o x) (b : Bytes) :
    wrapped (all f xs ++ b) = xs.flatMap o ++ wrapped b := by
  induction xs with
  | nil => rfl
  | cons x xs ih =>
    show wrapped ((f x ++ all f xs) ++ b) = _
    rw [List.append_assoc, wrapped_ended (h x (by simp)).1, (h x (by simp)).2, ih fun y hy => h y (by simp [hy])]
    simp

/-- C93: the generated declaration of a message calls the macro once for each of its arrays, in order, and
passes the path of the item. -/
theorem C93_calls (lib : Lib) {paths : List (Name × Name)} {m : Message} (hw : Word (Name.utf8 m.name))
    (hn : ∀ f ∈ m.fields, MNamed paths f) (ha : ∀ f ∈ m.fields, Nameable f)
    (hc : ∀ f ∈ m.fields, ∀ s, arrayItem f = some s → ∀ c ∈ pathOf paths s.name, c ≠ 0x2c) :
    ∃ text, messageDecl lib paths m = .ok text ∧
      wrapped text = (m.fields.filterMap arrayItem).map fun s => pathOf paths s.name := by
  refine ⟨_, C52_message lib paths m ha, ?_⟩
  have h0 := wrapped_of_declared (kws := wrapKeys) (by simp [wrapKeys]) (declared_eq free_wrap (struct_wrap paths m hw hn))
  have e : messageText paths m = structText paths m ++ (10 :: 10 :: (all (aliasDecl paths m) m.fields ++ [10])) := by
    unfold messageText structText
    simp
  have hend : Ended (structText paths m) := by
    right
    refine ⟨t!"#[derive(Copy, Clone, Debug)]
pub struct {Name.utf8 m.name}{messageGenerics m} \{
{all (fieldDecl paths) m.fields}
}", ?_⟩
    unfold structText
    simp
  rw [e, wrapped_ended hend, h0, List.nil_append, show ∀ x : Bytes, 10 :: 10 :: x = ([10, 10] : Bytes) ++ x from fun _ => rfl,
    wrapped_ended (a := [10, 10]) (.inr ⟨[10], rfl⟩), wrapped_all fun f hf => alias_wrap paths m hw f (hn f hf) (hc f hf)]
  have hz : wrapped ([10] : Bytes) = [] := by decide
  have hzz : wrapped ([10, 10] : Bytes) = [] := by decide
  rw [hz, hzz, List.nil_append, List.append_nil]
  generalize m.fields = fs
  induction fs with
  | nil => rfl
  | cons f fs ih =>
    rw [List.flatMap_cons, ih, List.filterMap_cons]
    cases arrayItem f <;> rfl

theorem paths_imports {s : SimpleImportSolver} (hs : ∀ n r, s.resolver.protocolByName n = some r → Props.Named r)
    {vs : List Model.Import} {proto proto' : Protocol} (h : Protocol.addImports s.resolver proto vs = .ok proto')
    (n : Name) : (n ∉ vs.map Model.Import.typeName → typePath proto'.typePathByName n = typePath proto.typePathByName n) ∧
      (n ∈ vs.map Model.Import.typeName → ∃ i ∈ vs, ∃ base r, i.typeName = n ∧
        s.importMap.lookup i.protocol = some (base, r) ∧
        typePath proto'.typePathByName n = base ++ s.separator ++ n) := by
  induction vs generalizing proto with
  | nil => cases h; exact ⟨fun _ => rfl, fun h => absurd h (by simp)⟩
  | cons v vs ih =>
    obtain ⟨p1, h1, h⟩ := Res.bind_eq_ok.1 h
    obtain ⟨base, r, hb, e1, e2⟩ := C49_import_path hs h1
    obtain ⟨i1, i2⟩ := ih h
    refine ⟨fun hn => ?_, fun hn => ?_⟩
    · rw [List.map_cons, List.mem_cons, not_or] at hn
      rw [i1 hn.2, e2 n hn.1]
    · by_cases hm : n ∈ vs.map Model.Import.typeName
      · obtain ⟨i, hi, h⟩ := i2 hm
        exact ⟨i, by simp [hi], h⟩
      · have : n = v.typeName := by
          rw [List.map_cons, List.mem_cons] at hn
          exact hn.resolve_right hm
        subst this
        exact ⟨v, by simp, base, r, rfl, hb, by rw [i1 hm, e1]⟩

/-- What a solver made by registering compiled protocols under some base paths satisfies. -/
def Solver.Fine (sep : Name) (bases : List Name) (s : SimpleImportSolver) : Prop :=
  s.separator = sep ∧ (∀ n r, s.resolver.protocolByName n = some r → Props.Named r) ∧
    ∀ x ∈ s.importMap, x.2.1 ∈ bases

theorem fine_imports {p : Profile} {sep : Name} {bases : List Name} {vs : List (Name × Model.Protocol)}
    {s s' : SimpleImportSolver} {w w' : World} (hs : Solver.Fine sep bases s) (hb : ∀ v ∈ vs, v.1 ∈ bases)
    (h : Loader.compileImports p s w vs = .ok (s', w')) : Solver.Fine sep bases s' := by
  induction vs generalizing s w with
  | nil => cases h; exact hs
  | cons v vs ih =>
    obtain ⟨⟨proto, w1⟩, h1, h⟩ := Res.bind_eq_ok.1 h
    refine ih (s := s.register v.1 proto) (w := w1) ⟨hs.1, fun n r hr => ?_, ?_⟩ (fun v hv => hb v (by simp [hv])) h
    · rw [(C49_register s v.1 proto n []).1] at hr
      split at hr
      · cases hr
        exact C49_named hs.2.1 h1
      · exact hs.2.1 n r hr
    · exact List.forall_mem_cons.2 ⟨hb v (by simp), hs.2.2⟩

theorem compiled_model {p : Profile} {vs : List Model.Protocol} {s : SimpleImportSolver}
    {w w' : World} {protos : List Protocol} (h : Loader.compileModels p s.resolver w vs = .ok (protos, w')) :
    ∀ (i : Nat) proto, protos[i]? = some proto →
      ∃ v, vs[i]? = some v ∧ ∃ w1 w2, Protocol.fromModel p s.resolver w1 v = .ok (proto, w2) := by
  induction vs generalizing w protos with
  | nil => cases h; simp
  | cons v vs ih =>
    obtain ⟨⟨proto, w1⟩, h1, h⟩ := Res.bind_eq_ok.1 h
    obtain ⟨⟨ps, w2⟩, h2, h⟩ := Res.bind_eq_ok.1 h
    cases h
    intro i x hx
    cases i with
    | zero =>
      cases hx
      exact ⟨v, rfl, _, _, h1⟩
    | succ i => exact ih h2 i x hx

theorem paths_kept {p : Profile} {s : Resolver} {w w' : World} {v : Model.Protocol} {proto : Protocol}
    (h : Protocol.fromModel p s w v = .ok (proto, w')) :
    ∃ p1, Protocol.addImports s (Protocol.empty v) v.imports = .ok p1 ∧ p1.typePathByName = proto.typePathByName := by
  obtain ⟨p1, p2, p3, p4, next, h1, h2, h3, h4, h5⟩ := (C44_phases _ _ _ _ _ _).1 h
  obtain ⟨es, _, rfl, _⟩ := (C44_enums _ _ _).1 h2
  obtain ⟨ss, _, _, rfl, _⟩ := (C44_structs _ _ _ _ _ _).1 h3
  obtain ⟨us, _, rfl, _⟩ := (C44_unions _ _ _).1 h4
  obtain ⟨ms, _, _, _, _, rfl, _⟩ := (C44_messages _ _ _ _ _).1 h5
  exact ⟨p1, h1, rfl⟩

/-- C93: the generated code of the protocol compiled from the `i`-th model names a type `base::Type`, where
`base` is the path under which some model was imported, if the model imports a type of that name, and by its
own name otherwise. -/
theorem C93_paths {p : Profile} {l : Loader} {solver : SimpleImportSolver} {w w' : World}
    {protos : List Protocol} (hs : solver.importMap = [])
    (h : Loader.compile p l solver w = .ok (protos, w')) {i : Nat} {proto : Protocol} (hp : protos[i]? = some proto) :
    ∃ v, l.models[i]? = some v ∧ ∀ n,
      (n ∉ v.imports.map Model.Import.typeName → pathOf proto.typePathByName n = Name.utf8 n) ∧
      (n ∈ v.imports.map Model.Import.typeName → ∃ base ∈ l.importedModels.map Prod.fst,
        pathOf proto.typePathByName n = Name.utf8 (base ++ solver.separator ++ n)) := by
  unfold Loader.compile at h
  obtain ⟨⟨s1, w1⟩, h1, h⟩ := Res.bind_eq_ok.1 h
  have hf := fine_imports (sep := solver.separator) (bases := l.importedModels.map Prod.fst)
    ⟨rfl, fun n r hr => by simp [SimpleImportSolver.resolver, hs] at hr, by simp [hs]⟩
    (fun v hv => List.mem_map_of_mem hv) h1
  obtain ⟨v, hv, w1, w2, hm⟩ := compiled_model h i proto hp
  obtain ⟨p1, hi, e⟩ := paths_kept hm
  refine ⟨v, hv, fun n => ?_⟩
  obtain ⟨a, b⟩ := paths_imports hf.2.1 hi n
  rw [e] at a b
  unfold pathOf
  refine ⟨fun hn => ?_, fun hn => ?_⟩
  · rw [a hn]
    rfl
  · obtain ⟨im, _, base, r, _, hl, hb⟩ := b hn
    rw [hf.1] at hb
    exact ⟨base, hf.2.2 _ (mem_of_lookup hl), by rw [hb]⟩

theorem not_word_of_separator (a b : Name) : ¬ Word (Name.utf8 (a ++ "::".toList ++ b)) := by
  intro h
  have : (0x3a : UInt8) ∈ Name.utf8 (a ++ "::".toList ++ b) := by
    simp only [Name.utf8, List.flatMap_append, List.mem_append]
    left; right
    decide
  have := h _ this
  revert this
  decide

/-- C93: the macro takes identifiers. With the default solver all its arguments are identifiers exactly when
the model imports no type that has the name of an item of an array of the message. -/
theorem C93_identifiers (lib : Lib) {p : Profile} {l : Loader} {w w' : World} {protos : List Protocol}
    (h : Loader.compile p l SimpleImportSolver.default w = .ok (protos, w')) {i : Nat} {proto : Protocol}
    (hp : protos[i]? = some proto) {m : Message} (hw : Word (Name.utf8 m.name))
    (hn : ∀ f ∈ m.fields, MNamed proto.typePathByName f) (ha : ∀ f ∈ m.fields, Nameable f)
    (hi : ∀ f ∈ m.fields, ∀ s, arrayItem f = some s → Word (Name.utf8 s.name))
    (hc : ∀ base ∈ l.importedModels.map Prod.fst, ∀ c ∈ Name.utf8 base, c ≠ 0x2c) :
    ∃ v text, l.models[i]? = some v ∧ messageDecl lib proto.typePathByName m = .ok text ∧
      ((∀ a ∈ wrapped text, Word a) ↔ ∀ f ∈ m.fields, ∀ s, arrayItem f = some s →
        ∀ im ∈ v.imports, im.typeName ≠ s.name) := by
  obtain ⟨v, hv, hpath⟩ := C93_paths rfl h hp
  obtain ⟨text, ht, e⟩ := C93_calls lib hw hn ha (by
    intro f hf s hs
    obtain ⟨h1, h2⟩ := hpath s.name
    by_cases hm : s.name ∈ v.imports.map Model.Import.typeName
    · obtain ⟨base, hb, e⟩ := h2 hm
      rw [e]
      intro c hc'
      simp only [Name.utf8, List.flatMap_append, List.mem_append] at hc'
      rcases hc' with (hc' | hc') | hc'
      · exact hc base hb c hc'
      · revert c
        decide
      · exact (hi f hf s hs).noComma c hc'
    · rw [h1 hm]
      exact (hi f hf s hs).noComma)
  refine ⟨v, text, hv, ht, ?_⟩
  rw [e]
  constructor
  · intro hall f hf s hs im him heq
    obtain ⟨base, _, e⟩ := (hpath s.name).2 (List.mem_map.2 ⟨im, him, heq⟩)
    have := hall _ (List.mem_map.2 ⟨s, List.mem_filterMap.2 ⟨f, hf, hs⟩, rfl⟩)
    rw [e] at this
    exact not_word_of_separator _ _ this
  · intro hall a ha
    obtain ⟨s, hs, rfl⟩ := List.mem_map.1 ha
    obtain ⟨f, hf, hs⟩ := List.mem_filterMap.1 hs
    rw [(hpath s.name).1]
    · exact hi f hf s hs
    · intro hm
      obtain ⟨im, him, heq⟩ := List.mem_map.1 hm
      exact hall f hf s hs im him heq

/-- C94: a structure declared by a model under the name of a type the model imports is what the name stands
for in its messages, but the generated code refers to it as `base::Name`. -/
theorem C94_shadowed {p : Profile} {l : Loader} {solver : SimpleImportSolver} {w w' : World}
    {protos : List Protocol} (hs : solver.importMap = [])
    (h : Loader.compile p l solver w = .ok (protos, w')) {i : Nat} {proto : Protocol} (hp : protos[i]? = some proto)
    {v : Model.Protocol} (hv : l.models[i]? = some v) {d : Model.Structure} (hd : d ∈ v.structs)
    {im : Model.Import} (him : im ∈ v.imports) (he : im.typeName = d.name) :
    (∃ s ∈ proto.structs, s.name = d.name ∧ proto.structsByName.lookup d.name = some s) ∧
      ∃ base ∈ l.importedModels.map Prod.fst,
        pathOf proto.typePathByName d.name = Name.utf8 (base ++ solver.separator ++ d.name) := by
  obtain ⟨v', hv', hpath⟩ := C93_paths hs h hp
  cases hv.symm.trans hv'
  refine ⟨?_, (hpath d.name).2 (List.mem_map.2 ⟨im, him, he⟩)⟩
  unfold Loader.compile at h
  obtain ⟨⟨s1, w1⟩, h1, h⟩ := Res.bind_eq_ok.1 h
  obtain ⟨v', hv', w1, w2, hm⟩ := compiled_model h i proto hp
  cases hv.symm.trans hv'
  obtain ⟨p1, p2, p3, p4, next, h1, h2, h3, h4, h5⟩ := (C44_phases _ _ _ _ _ _).1 hm
  obtain ⟨es, _, rfl, _⟩ := (C44_enums _ _ _).1 h2
  obtain ⟨ss, hl, _, rfl, hss⟩ := (C44_structs _ _ _ _ _ _).1 h3
  obtain ⟨us, _, rfl, _⟩ := (C44_unions _ _ _).1 h4
  obtain ⟨ms, _, _, _, _, rfl, _⟩ := (C44_messages _ _ _ _ _).1 h5
  obtain ⟨j, hj, rfl⟩ := List.mem_iff_getElem.1 hd
  have hj' : j < ss.length := by omega
  have hn : ss[j].name = v.structs[j].name := by
    have := hss j hj' hj
    unfold Structure.fromModel at this
    obtain ⟨x, _, this⟩ := Res.bind_eq_ok.1 this
    rw [← Res.ok.inj this]
    rfl
  have hmem : (v.structs[j].name, ss[j]) ∈ ss.reverse.map fun x => (Structure.name x, x) :=
    List.mem_map.2 ⟨ss[j], by simp, by rw [hn]⟩
  simp only [scope]
  rw [List.lookup_append]
  cases e : (ss.reverse.map fun x => (Structure.name x, x)).lookup v.structs[j].name with
  | none =>
    have := List.lookup_eq_none_iff.1 e _ hmem
    simp at this
  | some s =>
    have := mem_of_lookup e
    obtain ⟨x, hx, hxe⟩ := List.mem_map.1 this
    obtain ⟨e1, rfl⟩ := Prod.mk.inj hxe
    exact ⟨x, List.mem_append_right _ (List.mem_reverse.1 hx), e1, rfl⟩

namespace Ex

/-- A protocol to import from. -/
def base : Model.Protocol :=
  { name := ['b'],
    structs := [⟨['A'], [⟨['x'], .unsigned 8, none, none⟩, ⟨['y'], .unsigned 8, none, none⟩]⟩] }

/-- A message with an array of an imported structure and one of its own. -/
def imports : Model.Protocol :=
  { name := ['p'], imports := [⟨['b'], ['A']⟩],
    structs := [⟨['B'], [⟨['x'], .unsigned 8, none, none⟩, ⟨['y'], .unsigned 8, none, none⟩]⟩],
    messages := [⟨['F'], [⟨"many".toList, .list 3 ['A'], none⟩, ⟨"own".toList, .list 3 ['B'], none⟩]⟩] }

/-- A structure of the name of the imported one. -/
def shadows : Model.Protocol :=
  { name := ['q'], imports := [⟨['b'], ['A']⟩],
    structs := [⟨['A'], [⟨['x'], .unsigned 8, none, none⟩, ⟨['y'], .unsigned 32, none, none⟩]⟩],
    messages := [⟨['F'], [⟨"many".toList, .list 3 ['A'], none⟩]⟩] }

def loader : Loader := ⟨[imports, shadows], [("crate::b".toList, base)]⟩

end Ex

/-- The array of the imported structure hands the macro a path. -/
example : ∃ protos w' p q m text, Loader.compile .checked Ex.loader .default ⟨0, []⟩ = .ok (protos, w') ∧
    protos = [p, q] ∧ p.messages = [m] ∧ messageDecl RustEx.lib p.typePathByName m = .ok text ∧
    wrapped text = [b!"crate::b::A", b!"B"] := by
  refine ⟨_, _, _, _, _, _, rfl, rfl, rfl, C52_message _ _ _ ?_, ?_⟩
  · intro f hf
    rcases List.mem_cons.1 hf with rfl | hf
    · intro _
      decide +kernel
    · rw [List.mem_singleton.1 hf]
      intro _
      decide +kernel
  · decide +kernel

/-- The array of the shadowing structure, of five bytes, hands the macro the path of the imported one, of
two. -/
example : ∃ protos w' p q m s text, Loader.compile .checked Ex.loader .default ⟨0, []⟩ = .ok (protos, w') ∧
    protos = [p, q] ∧ q.messages = [m] ∧ m.fields.filterMap arrayItem = [s] ∧ s.byteSize = 5 ∧
    messageDecl RustEx.lib q.typePathByName m = .ok text ∧ wrapped text = [b!"crate::b::A"] := by
  refine ⟨_, _, _, _, _, _, _, rfl, rfl, rfl, rfl, rfl, C52_message _ _ _ ?_, ?_⟩
  · intro f hf
    rw [List.mem_singleton.1 hf]
    intro _
    decide +kernel
  · decide +kernel

end Proto.Decl
