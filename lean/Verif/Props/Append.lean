import Verif.Props.Grow
import Verif.Props.Nested

/-!
# Messages appended to a file

C103: what becomes of the messages of a file when others are declared behind them, under any names.
-/

namespace Proto

theorem addMessages_append {vs us : List Model.Message} {w : World} {q : Protocol} :
    Protocol.addMessages w q (vs ++ us) =
      (Protocol.addMessages w q vs).bind fun x => Protocol.addMessages x.2 x.1 us := by
  induction vs generalizing w q with
  | nil => rfl
  | cons v vs ih =>
    simp only [List.cons_append, Protocol.addMessages]
    cases Message.fromModel q w.embedded w.next v with
    | ok x => simp only [Res.bind_ok, ih]
    | err e => rfl
    | panic => rfl

/-- Some field of one of the messages is a list of the message with this identity. -/
def Message.Lists (ms : List Message) (id : Nat) : Prop :=
  ∃ m ∈ ms, ∃ f ∈ m.fields, ∃ t item, f.ty = .list t item ∧ item.id = id

theorem mfield_flags {q : Protocol} {emb e : List Nat} {fs : List MField} {v : Model.MField} {f : MField}
    (h : MField.fromModel q emb fs v = .ok (f, e)) (id : Nat) :
    id ∈ e ↔ id ∈ emb ∨ ∃ t item, f.ty = .list t item ∧ item.id = id := by
  obtain ⟨n, info, o⟩ := v
  cases info with
  | item t =>
    simp only [MField.fromModel] at h
    obtain ⟨r, -, h⟩ := Res.bind_eq_ok.1 h
    cases r with
    | struct s =>
      dsimp only at h
      cases hs : s.asScalar <;> rw [hs] at h <;> cases h <;> simp [MField.ty]
    | message m => cases h; simp [MField.ty]
  | list a t =>
    simp only [MField.fromModel] at h
    obtain ⟨r, -, h⟩ := Res.bind_eq_ok.1 h
    obtain ⟨ty, -, h⟩ := Res.bind_eq_ok.1 h
    cases r with
    | struct s => cases h; simp [MField.ty]
    | message m =>
      cases h
      simp only [List.mem_cons, MField.ty, MFieldTy.list.injEq]
      constructor
      · rintro (rfl | h)
        · exact .inr ⟨_, _, ⟨rfl, rfl⟩, rfl⟩
        · exact .inl h
      · rintro (h | ⟨_, _, ⟨rfl, rfl⟩, rfl⟩)
        · exact .inr h
        · exact .inl rfl
  | string a =>
    cases a with
    | none => cases h; simp [MField.ty]
    | some a =>
      simp only [MField.fromModel] at h
      obtain ⟨ty, -, h⟩ := Res.bind_eq_ok.1 h
      cases h
      simp [MField.ty]
  | union on t =>
    simp only [MField.fromModel] at h
    obtain ⟨i, -, h⟩ := Res.bind_eq_ok.1 h
    obtain ⟨g, -, h⟩ := Res.bind_eq_ok.1 h
    obtain ⟨u, -, h⟩ := Res.bind_eq_ok.1 h
    split at h
    · split at h
      · cases h; simp [MField.ty]
      · cases h
    · cases h
  | payload => cases h; simp [MField.ty]

theorem fields_flags {q : Protocol} {vs : List Model.MField} {emb e : List Nat} {fs gs : List MField} {n k : Nat}
    {d b : Bool} (h : Message.fieldsFromModel q emb fs n d vs = .ok (gs, k, b, e)) :
    ∃ new, gs = fs ++ new ∧ ∀ id, id ∈ e ↔ id ∈ emb ∨ ∃ f ∈ new, ∃ t item, f.ty = .list t item ∧ item.id = id := by
  induction vs generalizing emb fs n d with
  | nil =>
    cases h
    exact ⟨[], by simp, by simp⟩
  | cons v vs ih =>
    obtain ⟨f, e1, _, _, h1, h⟩ := fields_step h
    obtain ⟨new, rfl, hn⟩ := ih h
    refine ⟨f :: new, by simp, fun id => ?_⟩
    rw [hn, mfield_flags h1, or_assoc]
    simp only [List.mem_cons, exists_eq_or_imp]

theorem messages_flags {vs : List Model.Message} {w w1 : World} {q r : Protocol}
    (h : Protocol.addMessages w q vs = .ok (r, w1)) :
    ∃ new, r = { q with messagesByName := r.messagesByName, messages := q.messages ++ new } ∧
      new.map Message.name = vs.map Model.Message.name ∧
      ∀ id, id ∈ w1.embedded ↔ id ∈ w.embedded ∨ Message.Lists new id := by
  induction vs generalizing w q with
  | nil =>
    cases h
    exact ⟨[], by simp, rfl, by simp [Message.Lists]⟩
  | cons v vs ih =>
    obtain ⟨⟨m, e⟩, h1, h⟩ := Res.bind_eq_ok.1 h
    obtain ⟨⟨gs, n1, d1, e2⟩, g1, g2⟩ := Res.bind_eq_ok.1 h1
    cases g2
    obtain ⟨new, h2, h3, h4⟩ := ih h
    obtain ⟨gs', hgs, h5⟩ := fields_flags g1
    rw [List.nil_append] at hgs
    subst hgs
    refine ⟨.mk w.next v.name gs ⟨d1, decide (n1 > 0)⟩ :: new, ?_, ?_, fun id => ?_⟩
    · rw [h2]; simp
    · simp [h3, Message.name]
    · rw [h4, h5, or_assoc]
      simp only [Message.Lists, List.mem_cons, exists_eq_or_imp, Message.fields]

/-! ## Decoders -/

/-- The decoder of the message takes its lists apart in both builds or in none, or there are none. -/
def Message.ItemsAlike (c c' : Ctx) (m : Message) : Prop :=
  c'.emb m.id = c.emb m.id ∨ ∀ f ∈ m.fields, ∀ t item, f.ty ≠ .list t item

mutual

theorem Referenced.parse_flags {c c' : Ctx} (hp : c'.p = c.p) : ∀ r : Referenced,
    r.AllMessages (Message.ItemsAlike c c') → r.parse c' = r.parse c
  | .struct _, _ => by simp only [Referenced.parse]
  | .message m, h => by
    simp only [Referenced.AllMessages] at h
    simp only [Referenced.parse, Message.parse_flags hp m h]

theorem MFieldTy.parse_flags {c c' : Ctx} (hp : c'.p = c.p) : ∀ t : MFieldTy,
    t.AllMessages (Message.ItemsAlike c c') → ∀ emb' emb e env, emb' = emb ∨ (∀ a item, t ≠ .list a item) →
    t.parse c' emb' e env = t.parse c emb e env
  | .fixed _, _, _, _, _, _, _ => by simp only [MFieldTy.parse]
  | .ref r, h, _, _, _, _, _ => by
    simp only [MFieldTy.AllMessages] at h
    simp only [MFieldTy.parse, Referenced.parse_flags hp r h]
  | .nullTerminatedString, _, _, _, _, _, _ => by simp only [MFieldTy.parse]
  | .varcharString _, _, _, _, _, _, _ => by simp only [MFieldTy.parse, hp]
  | .array _ _, _, _, _, _, _, _ => by simp only [MFieldTy.parse, hp]
  | .union u _ _, h, _, _, _, _, _ => by
    simp only [MFieldTy.AllMessages] at h
    simp only [MFieldTy.parse, Union.parse_flags hp u h]
  | .list _ m, h, _, _, _, _, he => by
    simp only [MFieldTy.AllMessages] at h
    rcases he with rfl | he
    · simp only [MFieldTy.parse, Message.parse_flags hp m h]
    · exact absurd rfl (he _ _)
  | .payload, _, _, _, _, _, _ => by simp only [MFieldTy.parse]

theorem MField.parse_flags {c c' : Ctx} (hp : c'.p = c.p) : ∀ fs : List MField,
    MField.ListAllMessages (Message.ItemsAlike c c') fs → ∀ emb' emb,
    emb' = emb ∨ (∀ f ∈ fs, ∀ a item, f.ty ≠ .list a item) → ∀ env n b,
    MField.parseList c' emb' fs env n b = MField.parseList c emb fs env n b
  | [], _, _, _, _, _, _, _ => by simp only [MField.parseList]
  | .mk n ty o sz e :: fs, h, emb', emb, he, _, _, _ => by
    simp only [MField.ListAllMessages] at h
    have h1 := fun env => MFieldTy.parse_flags hp ty h.1 emb' emb e env
      (he.imp id fun he => he (.mk n ty o sz e) (List.mem_cons_self ..))
    have h2 := MField.parse_flags hp fs h.2 emb' emb
      (he.imp id fun he f hf => he f (List.mem_cons_of_mem _ hf))
    simp only [MField.parseList, MField.parse, h1, h2]

theorem Message.parse_flags {c c' : Ctx} (hp : c'.p = c.p) : ∀ m : Message,
    m.AllMessages (Message.ItemsAlike c c') → m.parse c' = m.parse c
  | .mk id n fs sz, h => by
    simp only [Message.AllMessages] at h
    funext b
    simp only [Message.parse, MField.parse_flags hp fs h.2 (c'.emb id) (c.emb id) h.1]

theorem UCase.parse_flags {c c' : Ctx} (hp : c'.p = c.p) : ∀ cs : List UCase,
    UCase.ListAllMessages (Message.ItemsAlike c c') cs → ∀ i d,
    Union.parseCases c' cs i d = Union.parseCases c cs i d
  | [], _, _, _ => by simp only [Union.parseCases]
  | .mk _ _ none :: cs, h, _, _ => by
    simp only [UCase.ListAllMessages] at h
    simp only [Union.parseCases, UCase.parse_flags hp cs h]
  | .mk _ _ (some r) :: cs, h, _, _ => by
    simp only [UCase.ListAllMessages] at h
    simp only [Union.parseCases, UCase.parse_flags hp cs h.2, Referenced.parse_flags hp r h.1]

theorem Union.parse_flags {c c' : Ctx} (hp : c'.p = c.p) : ∀ u : Union,
    u.AllMessages (Message.ItemsAlike c c') → ∀ env on, u.parse c' env on = u.parse c env on
  | .mk _ _ cs _, h, _, _ => by
    simp only [Union.AllMessages] at h
    funext b
    simp only [Union.parse, hp, UCase.parse_flags hp cs h]

end

namespace Props

/-- C103: a file with messages appended compiles only if it does without them, and then to the same declarations in
front of the appended ones.  Flagged as list items are those flagged before and those of which an appended message
has a list. -/
theorem C103_appended {p : Profile} {sv : Resolver} {w w2 : World} {d : Model.Protocol} {more : List Model.Message}
    {r' : Protocol} (h : Protocol.fromModel p sv w { d with messages := d.messages ++ more } = .ok (r', w2)) :
    ∃ r w1 new, Protocol.fromModel p sv w d = .ok (r, w1) ∧
      r' = { r with messagesByName := r'.messagesByName, messages := r.messages ++ new } ∧
      new.map Message.name = more.map Model.Message.name ∧
      ∀ id, id ∈ w2.embedded ↔ id ∈ w1.embedded ∨ Message.Lists new id := by
  obtain ⟨p1, p2, p3, p4, next, h1, h2, h3, h4, h5⟩ := (C44_phases _ _ _ _ _ _).1 h
  rw [addMessages_append] at h5
  obtain ⟨⟨r, w1⟩, h5, h6⟩ := Res.bind_eq_ok.1 h5
  obtain ⟨new, h7, h8, h9⟩ := messages_flags h6
  exact ⟨r, w1, new, (C44_phases _ _ _ _ _ _).2 ⟨p1, p2, p3, p4, next, h1, h2, h3, h4, h5⟩, h7, h8, h9⟩

/-- C103: and what is reported of the file without them is reported of it with them. -/
theorem C103_appended_fails {p : Profile} {sv : Resolver} {w : World} {d : Model.Protocol}
    (more : List Model.Message) :
    (∀ e, Protocol.fromModel p sv w d = .err e →
      Protocol.fromModel p sv w { d with messages := d.messages ++ more } = .err e) ∧
    (Protocol.fromModel p sv w d = .panic →
      Protocol.fromModel p sv w { d with messages := d.messages ++ more } = .panic) := by
  have key : Protocol.fromModel p sv w { d with messages := d.messages ++ more } =
      (Protocol.fromModel p sv w d).bind fun x => Protocol.addMessages x.2 x.1 more := by
    simp only [Protocol.fromModel, addMessages_append, Protocol.empty]
    cases Protocol.addImports sv _ d.imports with
    | err e => rfl
    | panic => rfl
    | ok p1 =>
      simp only [Res.bind_ok]
      cases Protocol.addEnums p1 d.enums with
      | err e => rfl
      | panic => rfl
      | ok p2 =>
        simp only [Res.bind_ok]
        cases Protocol.addStructs p w.next p2 d.structs with
        | err e => rfl
        | panic => rfl
        | ok p3 =>
          simp only [Res.bind_ok]
          cases Protocol.addUnions p3.1 d.unions with
          | err e => rfl
          | panic => rfl
          | ok p4 => rfl
  rw [key]
  exact ⟨fun e h => by rw [h]; rfl, fun h => by rw [h]; rfl⟩

/-- C103: the messages that are appended change the decoder of a message only if one of them has a list of it, or
of one inside of it at any depth, that itself has a list and was not an item before. -/
theorem C103_unlisted {w1 w2 : World} {new : List Message}
    (he : ∀ id, id ∈ w2.embedded ↔ id ∈ w1.embedded ∨ Message.Lists new id) {m : Message}
    (hm : m.AllMessages fun x => x.id ∈ w1.embedded ∨ ¬ Message.Lists new x.id ∨
      ∀ f ∈ x.fields, ∀ t item, f.ty ≠ .list t item) (p : Profile) :
    m.parse (genCtx p w2) = m.parse (genCtx p w1) := by
  refine Message.parse_flags (c := genCtx p w1) (c' := genCtx p w2) rfl m (hm.mono fun x hx => ?_)
  rcases hx with h | h | h
  · exact .inl (by simp [genCtx, h, he])
  · exact .inl (by simp [genCtx, h, he])
  · exact .inr h

namespace Ex.Append

/-- A number and the rest, -/
def n : Message := .mk 1 "N".toList [.mk "x".toList (.fixed .u8) false ⟨false, false⟩ .little,
  .mk "p".toList .payload false ⟨true, true⟩ .little] ⟨true, true⟩

/-- a list of these, -/
def m : Message := .mk 2 "M".toList [.mk "l".toList (.list .u8 n) false ⟨true, true⟩ .little] ⟨true, true⟩

/-- and, appended, a list of the lists, and one more list of numbers. -/
def l : Message := .mk 3 "L".toList [.mk "l".toList (.list .u8 m) false ⟨true, true⟩ .little] ⟨true, true⟩

def k : Message := .mk 3 "K".toList [.mk "l".toList (.list .u8 n) false ⟨true, true⟩ .little] ⟨true, true⟩

/-- The list of lists turns a message that was read into one that is refused, -/
example : m.parse (genCtx .checked ⟨3, [1]⟩) [2, 7, 8] = .ok ⟨3, .msg [("l".toList, .seq ⟨[7, 8], 2⟩)]⟩ ∧
    m.parse (genCtx .checked ⟨4, [2, 1]⟩) [2, 7, 8] = .err .truncated ∧ Message.Lists [l] m.id :=
  ⟨by rfl, by rfl, l, List.mem_singleton.2 rfl, _, List.mem_singleton.2 rfl, _, _, rfl, rfl⟩

/-- the other one makes no difference. -/
example (p : Profile) : m.parse (genCtx p ⟨4, [1, 1]⟩) = m.parse (genCtx p ⟨3, [1]⟩) := by
  have key : ∀ id, Message.Lists [k] id ↔ id = 1 := by
    intro id
    constructor
    · rintro ⟨x, hx, f, hf, t, item, ht, rfl⟩
      cases List.mem_singleton.1 hx
      cases List.mem_singleton.1 hf
      cases ht
      rfl
    · rintro rfl
      exact ⟨k, List.mem_singleton.2 rfl, _, List.mem_singleton.2 rfl, _, _, rfl, rfl⟩
  refine C103_unlisted (new := [k]) (fun id => by simp [key]) ?_ p
  simp only [m, n, Message.AllMessages, MField.ListAllMessages, MFieldTy.AllMessages, key]
  exact ⟨.inr (.inl (by decide)), ⟨.inl (by simp [Message.id]), trivial, trivial, trivial⟩, trivial⟩

/-- A reference to a message that only follows stays an error when that message is appended. -/
example (p : Profile) (more : List Model.Message) :
    Protocol.fromModel p .none ⟨0, []⟩ { name := "p".toList, messages :=
      [⟨"A".toList, [⟨"b".toList, .item "B".toList, none⟩]⟩] ++ more } = .err (.undefinedReference "B".toList) :=
  (C103_appended_fails (d := { name := "p".toList, messages :=
    [⟨"A".toList, [⟨"b".toList, .item "B".toList, none⟩]⟩] }) more).1 _ rfl

/-- A file to which a message of the same name as one of its own is appended. -/
example {p : Profile} {sv : Resolver} {w w2 : World} {r' : Protocol}
    (h : Protocol.fromModel p sv w { Ex.Understand.oldFile with messages := Ex.Understand.oldFile.messages ++
      [⟨"M".toList, [⟨"l".toList, .list 9 "O".toList, false⟩]⟩] } = .ok (r', w2)) :
    ∃ r w1 x, Protocol.fromModel p sv w Ex.Understand.oldFile = .ok (r, w1) ∧ r'.messages = r.messages ++ [x] ∧
      x.name = "M".toList := by
  obtain ⟨r, w1, new, h1, h2, h3, -⟩ := C103_appended h
  match new, h2, h3 with
  | [x], h2, h3 => exact ⟨r, w1, x, h1, by rw [h2], by simpa using h3⟩
  | _ :: _ :: _, _, h3 => simp at h3

end Ex.Append

end Props

end Proto
