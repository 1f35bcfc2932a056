import Verif.Props.Rust

/-!
# Lifetimes of generated types (C64)
-/

namespace Proto

open Rust Props

/-- The first line of the declaration of a message with generics `g`. -/
def Text.messageHead (name g : Bytes) : Bytes := t!"#[derive(Copy, Clone, Debug)]
pub struct {name}{g} \{
"

/-- The first line of the declaration of a union with generics `g`. -/
def Text.unionHead (name g : Bytes) : Bytes := t!"#[derive(Copy, Clone, Debug)]
pub enum {name}{g} \{
"

/-- The declaration of a field whose type has the path `path` and generics `g`. -/
def Text.refLine (optional : Bool) (name path g : Bytes) : Bytes :=
  if optional then t!"    pub {name}: Option<{path}{g}>,
" else t!"    pub {name}: {path}{g},
"

/-- The declaration of a case whose content has the path `path` and generics `g`. -/
def Text.caseLine (name path g : Bytes) : Bytes := t!"    {name}({path}{g}),
"

theorem Text.infix_all {α : Type} (f : α → Bytes) {x : α} : ∀ {xs : List α}, x ∈ xs →
    f x <:+: Text.all f xs
  | y :: ys, h => by
    rcases List.mem_cons.1 h with rfl | h
    · exact ⟨[], Text.all f ys, by simp [Text.all]⟩
    · obtain ⟨a, b, e⟩ := Text.infix_all f h
      exact ⟨f y ++ a, b, by simp only [Text.all, List.map_cons, List.flatten_cons] at e ⊢; simp [← e]⟩

/-- C64: a message is declared without lifetime exactly when all its fields are numbers. -/
theorem C64_message_declared (lib : Lib) (paths : List (Name × Name)) (m : Message)
    (h : ∀ f ∈ m.fields, Text.Nameable f) : ∃ text, messageDecl lib paths m = .ok text ∧
      ((∀ f ∈ m.fields, ∃ ty, f.ty = .fixed ty) → Text.messageHead (Name.utf8 m.name) b!"" <+: text) ∧
      ((∃ f ∈ m.fields, ∀ ty, f.ty ≠ .fixed ty) →
        Text.messageHead (Name.utf8 m.name) b!"<'a>" <+: text) := by
  have hg : ∀ g, Text.messageGenerics m = g →
      Text.messageHead (Name.utf8 m.name) g <+: Text.messageText paths m := by
    rintro g rfl
    exact ⟨Text.all (Text.fieldDecl paths) m.fields ++ b!"\n}\n" ++ b!"\n\n" ++
      Text.all (Text.aliasDecl paths m) m.fields ++ b!"\n",
      by simp [Text.messageHead, Text.messageText]⟩
  refine ⟨_, C52_message lib paths m h, fun hf => hg _ ?_, fun hf => hg _ ?_⟩
  · unfold Text.messageGenerics
    rw [if_pos]
    intro f hm
    obtain ⟨ty, e⟩ := hf f hm
    rw [e]
    rfl
  · unfold Text.messageGenerics
    rw [if_neg]
    intro ha
    obtain ⟨f, hm, hn⟩ := hf
    have hf := ha f hm
    cases e : f.ty with
    | fixed ty => exact hn ty e
    | _ => rw [e] at hf; cases hf

theorem Text.split5 (l n g r cs t a b c d : Bytes) :
    (l ++ (n ++ (g ++ (r ++ (cs ++ t))))) ++ a ++ b ++ c ++ d =
      (l ++ (n ++ (g ++ r))) ++ cs ++ (t ++ a ++ b ++ c ++ d) := by simp

theorem Text.unionText_head (paths : List (Name × Name)) (u : Union) (pr pw : Bytes) :
    ∃ rest, Text.unionText paths u pr pw = Text.unionHead (Name.utf8 u.name) (Text.unionGenerics u) ++
      Text.all (Text.caseDecl paths) u.cases ++ rest :=
  ⟨_, Text.split5 _ _ _ _ _ _ _ _ _ _⟩

/-- C64: a union is declared without lifetime exactly when no case has content. -/
theorem C64_union_declared (lib : Lib) (paths : List (Name × Name)) {u : Union} {ns : List Name}
    {leaf : Option Name} (h : Text.Chain u.discriminant.root u.discriminant.indexList ns leaf) :
    ∃ text, unionDecl lib paths u = .ok text ∧
      ((∀ c ∈ u.cases, c.itemType = none) → Text.unionHead (Name.utf8 u.name) b!"" <+: text) ∧
      ((∃ c ∈ u.cases, c.itemType ≠ none) →
        Text.unionHead (Name.utf8 u.name) b!"<'a>" <+: text) := by
  have hg : ∀ g pr pw, Text.unionGenerics u = g →
      Text.unionHead (Name.utf8 u.name) g <+: Text.unionText paths u pr pw := by
    rintro g pr pw rfl
    obtain ⟨rest, e⟩ := Text.unionText_head paths u pr pw
    rw [e, List.append_assoc]
    exact List.prefix_append _ _
  refine ⟨_, C52_union lib paths h, fun hc => hg _ _ _ ?_, fun hc => hg _ _ _ ?_⟩
  · unfold Text.unionGenerics
    rw [if_neg]
    rintro ⟨c, hm, hs⟩
    rw [hc c hm] at hs
    cases hs
  · unfold Text.unionGenerics
    rw [if_pos]
    obtain ⟨c, hm, hn⟩ := hc
    exact ⟨c, hm, Option.isSome_iff_ne_none.2 hn⟩

theorem fieldDecl_infix (paths : List (Name × Name)) (m : Message) {f : MField} (hf : f ∈ m.fields) :
    Text.fieldDecl paths f <:+: Text.messageText paths m := by
  refine List.IsInfix.trans (Text.infix_all (Text.fieldDecl paths) hf)
    ⟨Text.messageHead (Name.utf8 m.name) (Text.messageGenerics m),
      b!"\n}\n" ++ b!"\n\n" ++ Text.all (Text.aliasDecl paths m) m.fields ++ b!"\n", ?_⟩
  simp [Text.messageHead, Text.messageText]

/-- C64: every field that is a message or a union is declared with a lifetime, whatever the message or
union. -/
theorem C64_referenced (lib : Lib) (paths : List (Name × Name)) (m : Message)
    (h : ∀ f ∈ m.fields, Text.Nameable f) : ∃ text, messageDecl lib paths m = .ok text ∧
      ∀ f ∈ m.fields,
        (∀ r, f.ty = .ref (.message r) →
          Text.refLine f.optional (Name.utf8 f.name) (pathOf paths r.name) b!"<'a>" <:+: text) ∧
        (∀ u on i, f.ty = .union u on i →
          Text.refLine f.optional (Name.utf8 f.name) (pathOf paths u.name) b!"<'a>" <:+: text) := by
  refine ⟨_, C52_message lib paths m h, fun f hf => ⟨fun r e => ?_, fun u on i e => ?_⟩⟩
  all_goals
    refine List.IsInfix.trans ?_ (fieldDecl_infix paths m hf)
    unfold Text.refLine Text.fieldDecl
    rw [e]
    cases f.optional <;> simp [Text.declType]

/-- C64: every case whose content is a message is declared with a lifetime, whatever the message. -/
theorem C64_case_referenced (lib : Lib) (paths : List (Name × Name)) {u : Union} {ns : List Name}
    {leaf : Option Name} (h : Text.Chain u.discriminant.root u.discriminant.indexList ns leaf) :
    ∃ text, unionDecl lib paths u = .ok text ∧ ∀ c ∈ u.cases, ∀ r, c.itemType = some (.message r) →
      Text.caseLine (Name.utf8 c.name) (pathOf paths r.name) b!"<'a>" <:+: text := by
  refine ⟨_, C52_union lib paths h, fun c hc r e => ?_⟩
  have h1 : Text.caseLine (Name.utf8 c.name) (pathOf paths r.name) b!"<'a>" = Text.caseDecl paths c := by
    unfold Text.caseLine Text.caseDecl
    rw [e]
    rfl
  rw [h1]
  refine (Text.infix_all (Text.caseDecl paths) hc).trans ?_
  obtain ⟨rest, e⟩ := Text.unionText_head paths u (Text.readPath ns leaf) (Text.writePath ns leaf)
  rw [e]
  exact ⟨_, _, rfl⟩

/-- C64 as one would want it: a message and the fields of its type agree on the generics. -/
def C64_full : Prop :=
  ∀ (lib : Lib) (p : Profile) (v : Model.Protocol) (proto : Protocol) (w : World),
    Protocol.fromModel p Resolver.none ⟨0, []⟩ v = .ok (proto, w) →
    ∀ m ∈ proto.messages, ∀ f ∈ m.fields, ∀ r, f.ty = .ref (.message r) →
      ∀ mText rText, messageDecl lib proto.typePathByName m = .ok mText →
        messageDecl lib proto.typePathByName r = .ok rText →
        ∃ g ∈ [b!"", b!"<'a>"], Text.messageHead (Name.utf8 r.name) g <+: rText ∧
          Text.refLine f.optional (Name.utf8 f.name) (pathOf proto.typePathByName r.name) g <:+: mText

namespace RustEx

/-- A message made of one number, and a message that contains it. -/
def plain : Model.Protocol :=
  { name := ['p'],
    structs := [⟨['S'], [⟨['x'], .unsigned 8, none, none⟩]⟩],
    messages := [⟨['A'], [⟨['n'], .item ['S'], none⟩]⟩, ⟨['B'], [⟨['a'], .item ['A'], none⟩]⟩] }

end RustEx

/-- C64 is false of the code: `A` is declared without lifetime and used with one. -/
theorem C64_full_false : ¬ C64_full ∧ ∀ lib : Lib, ∃ proto w a b f,
    Protocol.fromModel .checked Resolver.none ⟨0, []⟩ RustEx.plain = .ok (proto, w) ∧
    proto.messages = [a, b] ∧ b.fields = [f] ∧ f.ty = .ref (.message a) ∧
    messageDecl lib proto.typePathByName a = .ok b!"#[derive(Copy, Clone, Debug)]
pub struct A {
    pub n: u8,

}



" ∧
    messageDecl lib proto.typePathByName b = .ok b!"#[derive(Copy, Clone, Debug)]
pub struct B<'a> {
    pub a: A<'a>,

}



" := by
  have key : ∀ lib : Lib, ∃ proto w a b f,
    Protocol.fromModel .checked Resolver.none ⟨0, []⟩ RustEx.plain = .ok (proto, w) ∧
    proto.messages = [a, b] ∧ b.fields = [f] ∧ f.ty = .ref (.message a) ∧ f.optional = false ∧
    f.name = ['a'] ∧ a.name = ['A'] ∧ pathOf proto.typePathByName a.name = b!"A" ∧
    messageDecl lib proto.typePathByName a = .ok b!"#[derive(Copy, Clone, Debug)]
pub struct A {
    pub n: u8,

}



" ∧
    messageDecl lib proto.typePathByName b = .ok b!"#[derive(Copy, Clone, Debug)]
pub struct B<'a> {
    pub a: A<'a>,

}



" := by
    intro lib
    refine ⟨_, _, _, _, _, rfl, rfl, rfl, rfl, rfl, rfl, rfl, ?_, ?_, ?_⟩
    · decide +kernel
    · rw [C52_message lib _ _ (fun f hf => by rw [List.mem_singleton.1 hf]; intro h; cases h)]
      exact congrArg Res.ok (by decide +kernel)
    · rw [C52_message lib _ _ (fun f hf => by rw [List.mem_singleton.1 hf]; intro h; cases h)]
      exact congrArg Res.ok (by decide +kernel)
  constructor
  · intro h
    obtain ⟨proto, w, a, b, f, h1, h2, h3, h4, h5, h6, h7, h8, h9, h10⟩ := key RustEx.lib
    obtain ⟨g, hg, ha, hb⟩ := h RustEx.lib .checked _ _ _ h1 b (by rw [h2]; simp) f (by rw [h3]; simp) a h4
      _ _ h10 h9
    rw [h7] at ha
    rw [h5, h6, h8] at hb
    simp only [List.mem_cons, List.not_mem_nil, or_false] at hg
    rcases hg with rfl | rfl
    · exact absurd hb (by decide +kernel)
    · exact absurd ha (by decide +kernel)
  · intro lib
    obtain ⟨proto, w, a, b, f, h1, h2, h3, h4, _, _, _, _, h9, h10⟩ := key lib
    exact ⟨proto, w, a, b, f, h1, h2, h3, h4, h9, h10⟩

end Proto
