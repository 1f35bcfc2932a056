import Verif.Props.Grow
import Verif.Spec.Skeleton
import Verif.Base.Lit

/-!
# C107: what of a description reaches the wire
-/

namespace Proto

open Spec

/-! ## Compiled declarations that are alike -/

mutual

/-- Fields at the same places in a structure of the same size; in messages both are numbers of the same size or
neither is one. -/
inductive Structure.Like : Structure → Structure → Prop
  | mk {id n fs fs' bytes bits} : SField.AllLike fs fs' →
      (Structure.mk id n fs' bytes bits).asScalar.map FixedTy.byteSize =
        (Structure.mk id n fs bytes bits).asScalar.map FixedTy.byteSize →
      Structure.Like (.mk id n fs bytes bits) (.mk id n fs' bytes bits)

/-- Fields at the same places. -/
inductive SField.AllLike : List SField → List SField → Prop
  | nil : SField.AllLike [] []
  | fixed {n n' ty ty' loc view view' endian fs fs'} : SField.AllLike fs fs' →
      SField.AllLike (.fixed ⟨n, ty, loc, view, endian⟩ :: fs) (.fixed ⟨n', ty', loc, view', endian⟩ :: fs')
  | array {n n' ty ty' len loc endian fs fs'} : ty'.byteSize = ty.byteSize → SField.AllLike fs fs' →
      SField.AllLike (.array ⟨n, ty, len, loc, endian⟩ :: fs) (.array ⟨n', ty', len, loc, endian⟩ :: fs')
  | struct {n n' r r' loc fs fs'} : Structure.Like r r' → SField.AllLike fs fs' →
      SField.AllLike (.struct n r loc :: fs) (.struct n' r' loc :: fs')

end

/-- One field at the same place. -/
def SField.Like (f f' : SField) : Prop := SField.AllLike [f] [f']

namespace Structure.Like

theorem id {s s' : Structure} (h : s.Like s') : s'.id = s.id := by cases h; rfl

theorem name {s s' : Structure} (h : s.Like s') : s'.name = s.name := by cases h; rfl

theorem byteSize {s s' : Structure} (h : s.Like s') : s'.byteSize = s.byteSize := by cases h; rfl

theorem bitSize {s s' : Structure} (h : s.Like s') : s'.bitSize = s.bitSize := by cases h; rfl

theorem scalar {s s' : Structure} (h : s.Like s') :
    s'.asScalar.map FixedTy.byteSize = s.asScalar.map FixedTy.byteSize := by cases h; assumption

theorem fields {s s' : Structure} (h : s.Like s') : SField.AllLike s.fields s'.fields := by cases h; assumption

end Structure.Like

theorem SField.AllLike.cons {f f' : SField} {fs fs' : List SField} (h : SField.Like f f')
    (hs : SField.AllLike fs fs') : SField.AllLike (f :: fs) (f' :: fs') := by
  cases h with
  | fixed _ => exact .fixed hs
  | array ht _ => exact .array ht hs
  | struct hr _ => exact .struct hr hs

theorem SField.AllLike.forall₂ {fs fs' : List SField} (h : SField.AllLike fs fs') :
    List.Forall₂ SField.Like fs fs' := by
  induction fs generalizing fs' with
  | nil => cases h; exact .nil
  | cons f fs ih =>
    cases h with
    | fixed h => exact .cons (.fixed .nil) (ih h)
    | array ht h => exact .cons (.array ht .nil) (ih h)
    | struct hr h => exact .cons (.struct hr .nil) (ih h)

theorem SField.AllLike.of_forall₂ {fs fs' : List SField} (h : List.Forall₂ SField.Like fs fs') :
    SField.AllLike fs fs' := by
  induction h with
  | nil => exact .nil
  | cons h _ ih => exact .cons h ih

theorem Structure.Like.walk {s s' : Structure} (h : s.Like s') (is : List Nat) :
    (s.walk is = none ∧ s'.walk is = none) ∨
      ∃ a a', s.walk is = some a ∧ s'.walk is = some a' ∧ (∀ p b, a'.get p b = a.get p b) ∧
        ∀ p b v, a'.set p b v = a.set p b v := by
  induction is generalizing s s' with
  | nil => exact .inl ⟨rfl, rfl⟩
  | cons i is ih =>
    simp only [Structure.walk]
    rcases forall₂_get h.fields.forall₂ i with ⟨h1, h2⟩ | ⟨f, f', h1, h2, hf⟩
    · rw [h1, h2]
      exact .inl ⟨rfl, rfl⟩
    · rw [h1, h2]
      cases hf with
      | fixed _ =>
        simp only
        split
        · exact .inr ⟨_, _, rfl, rfl, fun _ _ => rfl, fun _ _ _ => rfl⟩
        · exact .inl ⟨rfl, rfl⟩
      | array _ _ => exact .inl ⟨rfl, rfl⟩
      | struct hr _ =>
        simp only
        rcases ih hr with ⟨e1, e2⟩ | ⟨a, a', e1, e2, e3, e4⟩
        · rw [e1, e2]
          exact .inl ⟨rfl, rfl⟩
        · rw [e1, e2]
          refine .inr ⟨_, _, rfl, rfl, fun p b => ?_, fun p b v => ?_⟩
          · simp only [Access.get, e3]
          · simp only [Access.set, e4]

/-- The same path through structures that are alike. -/
structure Discriminant.Like (d d' : Discriminant) : Prop where
  root : d.root.Like d'.root
  indexList : d'.indexList = d.indexList

theorem Discriminant.Like.read {d d' : Discriminant} (h : d.Like d') (p : Profile) (env : Env) (on : Name) :
    d'.read p env on = d.read p env on := by
  simp only [Discriminant.read, Discriminant.access, h.indexList]
  rcases h.root.walk d.indexList with ⟨e1, e2⟩ | ⟨a, a', e1, e2, e3, _⟩
  · rw [e1, e2]
  · rw [e1, e2]
    split <;> simp_all

theorem Structure.Like.parse {s s' : Structure} (h : s.Like s') : s'.parse = s.parse := by
  funext b
  simp only [Structure.parse, h.byteSize]

theorem Structure.Like.write {s s' : Structure} (h : s.Like s') : s'.write = s.write := by
  funext b
  simp only [Structure.write, h.byteSize]

mutual

/-- References to structures or messages that are alike. -/
inductive Referenced.Like : Referenced → Referenced → Prop
  | struct {s s'} : s.Like s' → Referenced.Like (.struct s) (.struct s')
  | message {m m'} : Message.Like m m' → Referenced.Like (.message m) (.message m')

/-- The same kind of field of types that are alike. -/
inductive MFieldTy.Like : MFieldTy → MFieldTy → Prop
  | fixed {t t'} : FixedTy.byteSize t' = FixedTy.byteSize t → MFieldTy.Like (.fixed t) (.fixed t')
  | ref {r r'} : Referenced.Like r r' → MFieldTy.Like (.ref r) (.ref r')
  | nul : MFieldTy.Like .nullTerminatedString .nullTerminatedString
  | varchar {t} : MFieldTy.Like (.varcharString t) (.varcharString t)
  | array {t s s'} : s.Like s' → MFieldTy.Like (.array t s) (.array t s')
  | union {u u' on i} : Union.Like u u' → MFieldTy.Like (.union u on i) (.union u' on i)
  | list {t m m'} : Message.Like m m' → MFieldTy.Like (.list t m) (.list t m')
  | payload : MFieldTy.Like .payload .payload

/-- The same fields in the same order, under the same names. -/
inductive MField.AllLike : List MField → List MField → Prop
  | nil : MField.AllLike [] []
  | cons {n t t' o sz e fs fs'} : MFieldTy.Like t t' → MField.AllLike fs fs' →
      MField.AllLike (.mk n t o sz e :: fs) (.mk n t' o sz e :: fs')

/-- Messages whose fields are alike. -/
inductive Message.Like : Message → Message → Prop
  | mk {id n fs fs' sz} : MField.AllLike fs fs' → Message.Like (.mk id n fs sz) (.mk id n fs' sz)

/-- The same values of cases in the same order, with contents that are alike. -/
inductive UCase.AllLike : List UCase → List UCase → Prop
  | nil : UCase.AllLike [] []
  | bare {n n' k cs cs'} : UCase.AllLike cs cs' → UCase.AllLike (.mk n k none :: cs) (.mk n' k none :: cs')
  | content {n n' k r r' cs cs'} : Referenced.Like r r' → UCase.AllLike cs cs' →
      UCase.AllLike (.mk n k (some r) :: cs) (.mk n' k (some r') :: cs')

/-- Unions whose cases are alike. -/
inductive Union.Like : Union → Union → Prop
  | mk {n d d' cs cs' sz} : d.Like d' → UCase.AllLike cs cs' → Union.Like (.mk n d cs sz) (.mk n d' cs' sz)

end

variable {c : Ctx}

mutual

theorem Referenced.Like.parse : ∀ {r r' : Referenced}, r.Like r' → r'.parse c = r.parse c
  | _, _, .struct h => by simp only [Referenced.parse, h.parse]
  | _, _, .message h => by simp only [Referenced.parse, Message.Like.parse h]

theorem MFieldTy.Like.parse : ∀ {t t' : MFieldTy}, t.Like t' →
    ∀ emb e env, t'.parse c emb e env = t.parse c emb e env
  | _, _, .fixed h, _, _, _ => by simp only [MFieldTy.parse, h]
  | _, _, .ref h, _, _, _ => by simp only [MFieldTy.parse, Referenced.Like.parse h]
  | _, _, .nul, _, _, _ => by simp only [MFieldTy.parse]
  | _, _, .varchar, _, _, _ => by simp only [MFieldTy.parse]
  | _, _, .array h, _, _, _ => by simp only [MFieldTy.parse, h.byteSize]
  | _, _, .union h, _, _, _ => by simp only [MFieldTy.parse, Union.Like.parse h]
  | _, _, .list h, _, _, _ => by simp only [MFieldTy.parse, Message.Like.parse h]
  | _, _, .payload, _, _, _ => by simp only [MFieldTy.parse]

theorem MField.AllLike.parse : ∀ {fs fs' : List MField}, MField.AllLike fs fs' →
    ∀ emb env n b, MField.parseList c emb fs' env n b = MField.parseList c emb fs env n b
  | _, _, .nil, _, _, _, _ => by simp only [MField.parseList]
  | _, _, .cons h hs, _, _, _, _ => by
    simp only [MField.parseList, MField.parse, MFieldTy.Like.parse h, MField.AllLike.parse hs, MField.name]

theorem Message.Like.parse : ∀ {m m' : Message}, m.Like m' → m'.parse c = m.parse c
  | _, _, .mk h => by
    funext b
    simp only [Message.parse, MField.AllLike.parse h]

theorem UCase.AllLike.parse : ∀ {cs cs' : List UCase}, UCase.AllLike cs cs' →
    ∀ i d, Union.parseCases c cs' i d = Union.parseCases c cs i d
  | _, _, .nil, _, _ => by simp only [Union.parseCases]
  | _, _, .bare h, _, _ => by simp only [Union.parseCases, UCase.AllLike.parse h]
  | _, _, .content hr h, _, _ => by
    simp only [Union.parseCases, UCase.AllLike.parse h, Referenced.Like.parse hr]

theorem Union.Like.parse : ∀ {u u' : Union}, u.Like u' →
    ∀ env on, u'.parse c env on = u.parse c env on
  | _, _, .mk hd h, _, _ => by
    funext b
    simp only [Union.parse, hd.read, UCase.AllLike.parse h]

end

theorem UCase.AllLike.any {cs cs' : List UCase} (h : UCase.AllLike cs cs') :
    cs'.any (fun k => k.itemType.isSome) = cs.any (fun k => k.itemType.isSome) := by
  induction cs generalizing cs' with
  | nil => cases h; rfl
  | cons k cs ih =>
    cases h with
    | bare h => rw [List.any_cons, List.any_cons, ih h]; rfl
    | content _ h => simp [UCase.itemType]

mutual

theorem Referenced.Like.write : ∀ {r r' : Referenced}, r.Like r' → ∀ v, r'.write c v = r.write c v
  | _, _, .struct h, _ => by simp only [Referenced.write, h.write]
  | _, _, .message h, _ => by simp only [Referenced.write, Message.Like.write h]

theorem MFieldTy.Like.write : ∀ {t t' : MFieldTy}, t.Like t' →
    ∀ e env v, t'.write c e env v = t.write c e env v
  | _, _, .fixed h, _, _, _ => by simp only [MFieldTy.write, h]
  | _, _, .ref h, _, _, _ => by simp only [MFieldTy.write, Referenced.Like.write h]
  | _, _, .nul, _, _, _ => by simp only [MFieldTy.write]
  | _, _, .varchar, _, _, _ => by simp only [MFieldTy.write]
  | _, _, .array _, _, _, _ => by simp only [MFieldTy.write]
  | _, _, .union h, _, _, _ => by simp only [MFieldTy.write, Union.Like.write h]
  | _, _, .list _, _, _, _ => by simp only [MFieldTy.write]
  | _, _, .payload, _, _, _ => by simp only [MFieldTy.write]

theorem MField.AllLike.write : ∀ {fs fs' : List MField}, MField.AllLike fs fs' →
    ∀ env vs, MField.writeList c fs' env vs = MField.writeList c fs env vs
  | _, _, .nil, _, _ => by simp only [MField.writeList]
  | _, _, .cons h hs, _, vs => by
    cases vs with
    | nil => simp only [MField.writeList]
    | cons v vs =>
      have ht := MFieldTy.Like.write h
      simp only [MField.writeList, MField.AllLike.write hs]
      congr 1
      simp only [MField.write, ht, funext (ht _ _)]

theorem Message.Like.write : ∀ {m m' : Message}, m.Like m' → ∀ v, m'.write c v = m.write c v
  | _, _, .mk h, _ => by simp only [Message.write, MField.AllLike.write h]

theorem UCase.AllLike.write : ∀ {cs cs' : List UCase}, UCase.AllLike cs cs' →
    ∀ i d v, Union.writeCases c cs' i d v = Union.writeCases c cs i d v
  | _, _, .nil, _, _, _ => by simp only [Union.writeCases]
  | _, _, .bare h, _, _, _ => by simp only [Union.writeCases, UCase.AllLike.write h]
  | _, _, .content hr h, _, _, _ => by
    simp only [Union.writeCases, UCase.AllLike.write h, Referenced.Like.write hr]

theorem Union.Like.write : ∀ {u u' : Union}, u.Like u' →
    ∀ env on v, u'.write c env on v = u.write c env on v
  | _, _, .mk hd h, _, _, v => by
    simp only [Union.write, hd.read, UCase.AllLike.write h, h.any]

end

/-! ## What the compiler makes of descriptions that are alike -/

/-- Maps that have entries for the same names, and entries that are alike. -/
def MapLike (R : α → α → Prop) (l l' : List (Name × α)) : Prop :=
  ∀ n, (l.lookup n = none ∧ l'.lookup n = none) ∨ ∃ a a', l.lookup n = some a ∧ l'.lookup n = some a' ∧ R a a'

theorem MapLike.nil {R : α → α → Prop} : MapLike R [] [] := fun _ => .inl ⟨rfl, rfl⟩

theorem MapLike.both {R : α → α → Prop} {l l' : List (Name × α)} (h : MapLike R l l') {n : Name}
    {a a' : α} (ha : l.lookup n = some a) (ha' : l'.lookup n = some a') : R a a' := by
  rcases h n with ⟨h1, _⟩ | ⟨b, b', h1, h2, h3⟩
  · rw [ha] at h1
    cases h1
  · rw [ha] at h1
    rw [ha'] at h2
    obtain rfl := Option.some.inj h1
    obtain rfl := Option.some.inj h2
    exact h3

theorem MapLike.none_iff {R : α → α → Prop} {l l' : List (Name × α)} (h : MapLike R l l') (n : Name) :
    l.lookup n = none ↔ l'.lookup n = none := by
  rcases h n with ⟨h1, h2⟩ | ⟨a, a', h1, h2, _⟩ <;> simp [h1, h2]

theorem MapLike.cons {R : α → α → Prop} {l l' : List (Name × α)} (h : MapLike R l l')
    {n n' : Name} {a a' : α} (hn : n' = n) (ha : R a a') : MapLike R ((n, a) :: l) ((n', a') :: l') := by
  subst hn
  intro x
  by_cases e : x = n'
  · subst e
    exact .inr ⟨a, a', by simp, by simp, ha⟩
  · simp only [List.lookup_cons, beq_eq_false_iff_ne.2 e]
    exact h x

/-! ### Structures -/

/-- The size of the number that holds a field. -/
theorem fixedTy_wire {info : Model.FieldTy} {t : FixedTy} (h : FixedTy.fromModel info = .ok t) :
    ∃ n, info.wire = .inl n ∧ info.bytes = t.byteSize ∧ info.bitSize? = some n := by
  cases info with
  | struct s => cases h
  | boolean n =>
    obtain rfl : FixedTy.bool = t := Res.ok.inj h
    exact ⟨n, rfl, rfl, rfl⟩
  | _ n =>
    refine ⟨n, rfl, ?_, rfl⟩
    simp only [FixedTy.fromModel, Model.FieldTy.simple, Model.FieldTy.bitSize?, Res.ofOption_some, Res.bind_ok,
      FixedTy.mapNumeric, reduceCtorEq, false_and, true_and, if_false] at h
    simp only [Model.FieldTy.bytes]
    repeat' split at h
    all_goals first | cases h | skip
    all_goals simp only [FixedTy.byteSize]
    all_goals repeat' split
    all_goals first | rfl | omega

/-- Fields without a view, or with one that does not change the number. -/
theorem view_plain {p : Profile} {enums : List (Name × Enum)} {v : Model.SField} {n : Nat}
    (hb : v.info.bitSize? = some n) {w : View} (h : View.fromModel p enums v.info.simple n v.view = .ok w) :
    w.isTransmute = v.plain := by
  obtain ⟨nm, info, view, len⟩ := v
  simp only [Model.SField.plain] at h hb ⊢
  rcases view with _ | ⟨e⟩ | ⟨a, b⟩ | a
  · simp only [View.fromModel] at h
    cases info with
    | struct _ => cases hb
    | signed k =>
      obtain rfl : k = n := Option.some.inj hb
      simp only [Model.FieldTy.simple, reduceCtorEq, false_and, true_and, if_false] at h
      split at h
      · next hk =>
        obtain ⟨_, _, h⟩ := Res.bind_eq_ok.1 h
        obtain ⟨_, _, h⟩ := Res.bind_eq_ok.1 h
        obtain ⟨_, _, h⟩ := Res.bind_eq_ok.1 h
        cases h
        simp [View.isTransmute, hk]
      · next hk =>
        cases h
        simp only [View.isTransmute, Option.isNone_none, Bool.true_and]
        have : k = 8 ∨ k = 16 ∨ k = 32 ∨ k = 64 := by omega
        rcases this with rfl | rfl | rfl | rfl <;> rfl
    | unsigned k =>
      simp only [Model.FieldTy.simple, reduceCtorEq, false_and, if_false, if_true] at h
      cases h
      rfl
    | float k =>
      simp only [Model.FieldTy.simple, reduceCtorEq, false_and, true_and, if_false] at h
      split at h
      · cases h
      · cases h; rfl
    | boolean k =>
      simp only [Model.FieldTy.simple, reduceCtorEq, false_and, if_false] at h
      cases h
      rfl
  · simp only [View.fromModel] at h
    split at h
    · cases h
    · obtain ⟨_, _, h⟩ := Res.bind_eq_ok.1 h
      cases h
      rfl
  · simp only [View.fromModel] at h
    split at h
    · cases h
    · obtain ⟨_, _, h⟩ := Res.bind_eq_ok.1 h
      obtain ⟨_, _, h⟩ := Res.bind_eq_ok.1 h
      cases h
      rfl
  · simp only [View.fromModel] at h
    split at h
    · cases h
    · cases h
      rfl

/-- What a compiled field is, when it does not nest a structure. -/
theorem sfield_number {p : Profile} {structs : List (Name × Structure)} {enums : List (Name × Enum)} {e : Endian}
    {last next : Nat} {v : Model.SField} {f : SField} (hv : ∀ t, v.info ≠ .struct t)
    (h : SField.fromModel p structs enums e last v = .ok (f, next)) :
    ∃ n bits ty view, (v.info.wire = .inl n ∧ v.info.bytes = ty.byteSize) ∧
      mulU p usizeBits n (v.arrayLen.getD 1) = (.ok bits : C Nat) ∧
      addU p usizeBits last bits = (.ok next : C Nat) ∧ view.isTransmute = v.plain ∧
      ((v.arrayLen.getD 1 > 1 ∧ f = .array ⟨v.name, ty, v.arrayLen.getD 1, Loc.fromModel bits last, e⟩) ∨
        (¬ v.arrayLen.getD 1 > 1 ∧ f = .fixed ⟨v.name, ty, Loc.fromModel bits last, view, e⟩)) := by
  have h : (do
      let bits ← Res.ofOption .missingBitSize v.info.bitSize?
      let view ← View.fromModel p enums v.info.simple bits v.view
      let bitSize ← mulU p usizeBits bits (v.arrayLen.getD 1)
      let ty ← FixedTy.fromModel v.info
      let loc := Loc.fromModel bitSize last
      if v.arrayLen.getD 1 > 1 then
        if bitSize % 8 ≠ 0 then .err .unalignedArrayCodec
        else do
          let next ← addU p usizeBits last bitSize
          pure (.array { name := v.name, endian := e, arrayLen := v.arrayLen.getD 1, ty, loc }, next)
      else do
        let next ← addU p usizeBits last bitSize
        pure (.fixed { name := v.name, endian := e, ty, loc, view }, next) : C (SField × Nat)) = .ok (f, next) := by
    obtain ⟨nm, info, view, len⟩ := v
    cases info with
    | struct t => exact absurd rfl (hv t)
    | _ => exact h
  obtain ⟨n, h1, h⟩ := Res.bind_eq_ok.1 h
  obtain ⟨w, h2, h⟩ := Res.bind_eq_ok.1 h
  obtain ⟨bits, h3, h⟩ := Res.bind_eq_ok.1 h
  obtain ⟨ty, h4, h⟩ := Res.bind_eq_ok.1 h
  obtain ⟨k, h5, hby, h6⟩ := fixedTy_wire h4
  have h0 := ofOption_ok h1
  rw [show k = n by rw [h0] at h6; exact (Option.some.inj h6).symm] at h5
  by_cases h7 : v.arrayLen.getD 1 > 1
  · rw [if_pos h7] at h
    by_cases h8 : bits % 8 ≠ 0
    · rw [if_pos h8] at h
      cases h
    · rw [if_neg h8] at h
      obtain ⟨x, h9, h⟩ := Res.bind_eq_ok.1 h
      obtain ⟨rfl, rfl⟩ := Prod.mk.inj (Res.ok.inj h)
      exact ⟨n, bits, ty, w, ⟨h5, hby⟩, h3, h9, view_plain h0 h2, .inl ⟨h7, rfl⟩⟩
  · rw [if_neg h7] at h
    obtain ⟨x, h9, h⟩ := Res.bind_eq_ok.1 h
    obtain ⟨rfl, rfl⟩ := Prod.mk.inj (Res.ok.inj h)
    exact ⟨n, bits, ty, w, ⟨h5, hby⟩, h3, h9, view_plain h0 h2, .inr ⟨h7, rfl⟩⟩

section Structures

variable {p : Profile} {structs structs' : List (Name × Structure)} {enums enums' : List (Name × Enum)}
  (hs : MapLike Structure.Like structs structs')

include hs in
theorem sfield_like {e : Endian} {last next next' : Nat} {v v' : Model.SField} (hv : v.Like v') {f f' : SField}
    (h : SField.fromModel p structs enums e last v = .ok (f, next))
    (h' : SField.fromModel p structs' enums' e last v' = .ok (f', next')) :
    next' = next ∧ SField.Like f f' ∧ (v'.plain = v.plain ∧ (v.plain = true → v'.info.bytes = v.info.bytes) →
      ∀ id n bytes bits,
      (Structure.mk id n [f'] bytes bits).asScalar.map FixedTy.byteSize =
        (Structure.mk id n [f] bytes bits).asScalar.map FixedTy.byteSize) := by
  by_cases hst : ∃ t, v.info = .struct t
  · obtain ⟨t, ht⟩ := hst
    obtain ⟨nm, info, view, len⟩ := v
    obtain ⟨nm', info', view', len'⟩ := v'
    obtain ⟨hw, hl, _⟩ := hv
    simp only at ht hw hl
    subst ht hl
    obtain rfl : info' = .struct t := by
      cases info' <;> simp [Model.FieldTy.wire] at hw
      rw [hw]
    simp only [SField.fromModel] at h h'
    obtain ⟨r, h1, h⟩ := Res.bind_eq_ok.1 h
    obtain ⟨x, h2, h⟩ := Res.bind_eq_ok.1 h
    obtain ⟨rfl, rfl⟩ := Prod.mk.inj (Res.ok.inj h)
    obtain ⟨r', h1', h'⟩ := Res.bind_eq_ok.1 h'
    obtain ⟨x', h2', h'⟩ := Res.bind_eq_ok.1 h'
    obtain ⟨rfl, rfl⟩ := Prod.mk.inj (Res.ok.inj h')
    have hr := hs.both (ofOption_ok h1) (ofOption_ok h1')
    rw [hr.bitSize] at h2' ⊢
    rw [h2] at h2'
    obtain rfl := Res.ok.inj h2'
    exact ⟨rfl, .struct hr .nil, fun _ _ _ _ _ => rfl⟩
  · have hn : ∀ t, v.info ≠ .struct t := fun t ht => hst ⟨t, ht⟩
    have hn' : ∀ t, v'.info ≠ .struct t := by
      intro t ht
      have := hv.wire
      rw [ht] at this
      cases hi : v.info with
      | struct t => exact hn t hi
      | _ => rw [hi] at this; simp [Model.FieldTy.wire] at this
    obtain ⟨n, bits, ty, view, a1, a2, a3, a4, a5⟩ := sfield_number hn h
    obtain ⟨n', bits', ty', view', b1, b2, b3, b4, b5⟩ := sfield_number hn' h'
    obtain ⟨a1, ha⟩ := a1
    obtain ⟨b1, hb⟩ := b1
    rw [hv.wire, a1, Sum.inl.injEq] at b1
    obtain rfl := b1
    rw [hv.arrayLen] at b2 b5
    obtain rfl := Res.ok.inj (a2.symm.trans b2)
    obtain rfl := Res.ok.inj (a3.symm.trans b3)
    refine ⟨rfl, ?_⟩
    rcases a5 with ⟨c1, rfl⟩ | ⟨c1, rfl⟩
    · rcases b5 with ⟨d1, rfl⟩ | ⟨d1, rfl⟩
      · exact ⟨.array (by rw [← ha, ← hb, hv.items c1]) .nil, fun _ _ _ _ _ => rfl⟩
      · exact absurd c1 d1
    · rcases b5 with ⟨d1, rfl⟩ | ⟨d1, rfl⟩
      · exact absurd d1 c1
      · refine ⟨.fixed .nil, fun hp _ _ _ _ => ?_⟩
        simp only [Structure.asScalar, Structure.fields, a4, b4, hp.1]
        split
        · next hc => simp only [Option.map_some, ← ha, ← hb, hp.2 hc.1]
        · rfl

include hs in
theorem sfields_like {e : Endian} {vs vs' : List Model.SField} (hv : List.Forall₂ Model.SField.Like vs vs')
    {last final final' : Nat} {fs fs' : List SField}
    (h : SField.fromModels p structs enums e last vs = .ok (fs, final))
    (h' : SField.fromModels p structs' enums' e last vs' = .ok (fs', final')) :
    final' = final ∧ SField.AllLike fs fs' := by
  induction hv generalizing last fs fs' final final' with
  | nil =>
    obtain ⟨rfl, rfl⟩ := Prod.mk.inj (Res.ok.inj h)
    obtain ⟨rfl, rfl⟩ := Prod.mk.inj (Res.ok.inj h')
    exact ⟨rfl, .nil⟩
  | cons hv _ ih =>
    obtain ⟨⟨f, next⟩, h1, h⟩ := Res.bind_eq_ok.1 h
    obtain ⟨⟨gs, x⟩, h2, h⟩ := Res.bind_eq_ok.1 h
    obtain ⟨rfl, rfl⟩ := Prod.mk.inj (Res.ok.inj h)
    obtain ⟨⟨f', next'⟩, h1', h'⟩ := Res.bind_eq_ok.1 h'
    obtain ⟨⟨gs', x'⟩, h2', h'⟩ := Res.bind_eq_ok.1 h'
    obtain ⟨rfl, rfl⟩ := Prod.mk.inj (Res.ok.inj h')
    obtain ⟨rfl, h3, _⟩ := sfield_like hs hv h1 h1'
    obtain ⟨rfl, h4⟩ := ih h2 h2'
    exact ⟨rfl, .cons h3 h4⟩

include hs in
theorem structure_like {e : Endian} {id : Nat} {v v' : Model.Structure} (hv : v.Like v') {s s' : Structure}
    (h : Structure.fromModel p structs enums e id v = .ok s)
    (h' : Structure.fromModel p structs' enums' e id v' = .ok s') : s.Like s' := by
  obtain ⟨⟨fs, last⟩, h1, h⟩ := Res.bind_eq_ok.1 h
  obtain rfl := Res.ok.inj h
  obtain ⟨⟨fs', last'⟩, h1', h'⟩ := Res.bind_eq_ok.1 h'
  obtain rfl := Res.ok.inj h'
  obtain ⟨rfl, h3⟩ := sfields_like hs hv.fields h1 h1'
  rw [hv.name]
  refine .mk h3 ?_
  obtain ⟨nm, ms⟩ := v
  obtain ⟨nm', ms'⟩ := v'
  have hms := hv.fields
  have hsg := hv.single
  simp only at hms hsg h1 h1'
  have many : ∀ {x : SField} {y : SField} {zs : List SField} {id n bytes bits},
      (Structure.mk id n (x :: y :: zs) bytes bits).asScalar = none := by
    intro x y zs id n bytes bits
    cases x <;> rfl
  cases hms with
  | nil =>
    obtain ⟨rfl, rfl⟩ := Prod.mk.inj (Res.ok.inj h1)
    obtain ⟨rfl, _⟩ := Prod.mk.inj (Res.ok.inj h1')
    rfl
  | cons ha hb =>
    obtain ⟨⟨f, next⟩, k1, h1⟩ := Res.bind_eq_ok.1 h1
    obtain ⟨⟨gs, x⟩, k2, h1⟩ := Res.bind_eq_ok.1 h1
    obtain ⟨rfl, rfl⟩ := Prod.mk.inj (Res.ok.inj h1)
    obtain ⟨⟨f', next'⟩, k1', h1'⟩ := Res.bind_eq_ok.1 h1'
    obtain ⟨⟨gs', x'⟩, k2', h1'⟩ := Res.bind_eq_ok.1 h1'
    obtain ⟨rfl, _⟩ := Prod.mk.inj (Res.ok.inj h1')
    cases hb with
    | nil =>
      obtain ⟨rfl, _⟩ := Prod.mk.inj (Res.ok.inj k2)
      obtain ⟨rfl, _⟩ := Prod.mk.inj (Res.ok.inj k2')
      exact (sfield_like hs ha k1 k1').2.2 (hsg _ _ rfl rfl) _ _ _ _
    | cons hc hd =>
      obtain ⟨⟨g, _⟩, _, k2⟩ := Res.bind_eq_ok.1 k2
      obtain ⟨⟨_, _⟩, _, k2⟩ := Res.bind_eq_ok.1 k2
      obtain ⟨rfl, _⟩ := Prod.mk.inj (Res.ok.inj k2)
      obtain ⟨⟨g', _⟩, _, k2'⟩ := Res.bind_eq_ok.1 k2'
      obtain ⟨⟨_, _⟩, _, k2'⟩ := Res.bind_eq_ok.1 k2'
      obtain ⟨rfl, _⟩ := Prod.mk.inj (Res.ok.inj k2')
      rw [many, many]

end Structures

/-! ### Unions -/

/-- Compiled protocols that know types that are alike under the same names. -/
structure Protocol.KnownLike (q q' : Protocol) : Prop where
  name : q'.name = q.name
  endianness : q'.endianness = q.endianness
  structsByName : MapLike Structure.Like q.structsByName q'.structsByName
  messagesByName : MapLike Message.Like q.messagesByName q'.messagesByName
  enumsByName : MapLike (fun _ _ => True) q.enumsByName q'.enumsByName
  unionsByName : MapLike Union.Like q.unionsByName q'.unionsByName

/-- Compiled protocols that also declare types that are alike. -/
structure Protocol.Like (q q' : Protocol) : Prop extends q.KnownLike q' where
  structs : List.Forall₂ Structure.Like q.structs q'.structs
  messages : List.Forall₂ Message.Like q.messages q'.messages
  unions : List.Forall₂ Union.Like q.unions q'.unions

theorem Message.Like.size {m m' : Message} (h : m.Like m') : m'.size = m.size := by cases h; rfl

theorem Message.Like.id {m m' : Message} (h : m.Like m') : m'.id = m.id := by cases h; rfl

theorem Message.Like.name {m m' : Message} (h : m.Like m') : m'.name = m.name := by cases h; rfl

theorem Referenced.Like.size {r r' : Referenced} (h : r.Like r') : r'.size = r.size := by
  cases h with
  | struct _ => rfl
  | message h => exact h.size

theorem Union.Like.size {u u' : Union} (h : u.Like u') : u'.size = u.size := by cases h; rfl

theorem Union.Like.name {u u' : Union} (h : u.Like u') : u'.name = u.name := by cases h; rfl

theorem Union.Like.discriminant {u u' : Union} (h : u.Like u') : u.discriminant.Like u'.discriminant := by
  cases h with
  | mk hd _ => exact hd

theorem discriminant_root {q : Protocol} {d : Name} {di : Discriminant} (h : Discriminant.fromModel q d = .ok di) :
    q.structsByName.lookup (d.takeWhile (· ≠ '.')) = some di.root := by
  unfold Discriminant.fromModel at h
  rw [splitDot_eq] at h
  simp only at h
  obtain ⟨root, h1, h⟩ := Res.bind_eq_ok.1 h
  obtain ⟨⟨l, is⟩, h2, h⟩ := Res.bind_eq_ok.1 h
  simp only at h
  split at h
  · obtain rfl := Res.ok.inj h
    exact ofOption_ok h1
  · cases h

section Protocols

variable {q q' : Protocol} (hq : q.KnownLike q')

include hq in
theorem referenced_like {n : Name} {r r' : Referenced} (h : Referenced.lookup q n = some r)
    (h' : Referenced.lookup q' n = some r') : r.Like r' := by
  unfold Referenced.lookup at h h'
  rcases hq.structsByName n with ⟨h1, h2⟩ | ⟨s, s', h1, h2, h3⟩
  · rw [h1] at h
    rw [h2] at h'
    obtain ⟨m, h3, rfl⟩ := Option.map_eq_some_iff.1 h
    obtain ⟨m', h4, rfl⟩ := Option.map_eq_some_iff.1 h'
    exact .message (hq.messagesByName.both h3 h4)
  · rw [h1] at h
    rw [h2] at h'
    obtain rfl := Option.some.inj h
    obtain rfl := Option.some.inj h'
    exact .struct h3

include hq in
theorem cases_like {d d' : Discriminant} {vs vs' : List Model.UCase}
    (hv : vs'.map Model.UCase.itemType = vs.map Model.UCase.itemType) {ks ks' : List UCase}
    (h : Union.casesFromModel q d vs = .ok ks) (h' : Union.casesFromModel q' d' vs' = .ok ks')
    (hk : ks'.map UCase.case = ks.map UCase.case) : UCase.AllLike ks ks' := by
  induction vs generalizing vs' ks ks' with
  | nil =>
    obtain rfl : vs' = [] := by simpa using hv
    obtain rfl := Res.ok.inj h
    obtain rfl := Res.ok.inj h'
    exact .nil
  | cons v vs ih =>
    cases vs' with
    | nil => simp at hv
    | cons v' vs' =>
      simp only [List.map_cons, List.cons.injEq] at hv
      obtain ⟨leaf, h1, h⟩ := Res.bind_eq_ok.1 h
      obtain ⟨k, h2, h⟩ := Res.bind_eq_ok.1 h
      obtain ⟨ks1, h3, h⟩ := Res.bind_eq_ok.1 h
      obtain rfl := Res.ok.inj h
      obtain ⟨leaf', h1', h'⟩ := Res.bind_eq_ok.1 h'
      obtain ⟨k', h2', h'⟩ := Res.bind_eq_ok.1 h'
      obtain ⟨ks1', h3', h'⟩ := Res.bind_eq_ok.1 h'
      obtain rfl := Res.ok.inj h'
      simp only [List.map_cons, List.cons.injEq] at hk
      have hs := ih hv.2 h3 h3' hk.2
      obtain ⟨x, _, h2⟩ := Res.bind_eq_ok.1 h2
      obtain ⟨t, h4, h2⟩ := Res.bind_eq_ok.1 h2
      obtain rfl := Res.ok.inj h2
      obtain ⟨x', _, h2'⟩ := Res.bind_eq_ok.1 h2'
      obtain ⟨t', h4', h2'⟩ := Res.bind_eq_ok.1 h2'
      obtain rfl := Res.ok.inj h2'
      obtain rfl : x' = x := hk.1
      rw [hv.1] at h4'
      cases hi : v.itemType with
      | none =>
        rw [hi] at h4 h4'
        obtain rfl := Res.ok.inj h4
        obtain rfl := Res.ok.inj h4'
        exact .bare hs
      | some n =>
        rw [hi] at h4 h4'
        obtain ⟨r, h5, h4⟩ := Res.bind_eq_ok.1 h4
        obtain rfl := Res.ok.inj h4
        obtain ⟨r', h5', h4'⟩ := Res.bind_eq_ok.1 h4'
        obtain rfl := Res.ok.inj h4'
        exact .content (referenced_like hq (ofOption_ok h5) (ofOption_ok h5')) hs

theorem anySize_like (flag : SizeInfo → Bool) {ks ks' : List UCase} (h : UCase.AllLike ks ks') :
    Union.anySize flag ks' = Union.anySize flag ks := by
  induction ks generalizing ks' with
  | nil => cases h; rfl
  | cons k ks ih =>
    unfold Union.anySize at ih ⊢
    cases h with
    | bare h => rw [List.any_cons, List.any_cons, ih h]; rfl
    | content hr h =>
      rw [List.any_cons, List.any_cons, ih h]
      simp only [UCase.itemType, hr.size]

include hq in
theorem union_like {v v' : Model.Union} (hv : v.Like v') {u u' : Union} (h : Union.fromModel q v = .ok u)
    (h' : Union.fromModel q' v' = .ok u') (hu : u.SameChoices u') : u.Like u' := by
  obtain ⟨d, h1, h⟩ := Res.bind_eq_ok.1 h
  obtain ⟨ks, h2, h⟩ := Res.bind_eq_ok.1 h
  obtain rfl := Res.ok.inj h
  obtain ⟨d', h1', h'⟩ := Res.bind_eq_ok.1 h'
  obtain ⟨ks', h2', h'⟩ := Res.bind_eq_ok.1 h'
  obtain rfl := Res.ok.inj h'
  have hroot := discriminant_root h1'
  rw [hv.root] at hroot
  have hd : d.Like d' := ⟨hq.structsByName.both (discriminant_root h1) hroot, hu.path⟩
  have hc := cases_like hq hv.cases h2 h2' hu.values
  rw [hv.name, anySize_like _ hc, anySize_like _ hc]
  exact .mk hd hc

/-! ### Messages -/

theorem allLike_find {fs fs' : List MField} (h : MField.AllLike fs fs') (n : Name) :
    fs'.findIdx? (fun f => f.name == n) = fs.findIdx? (fun f => f.name == n) := by
  induction fs generalizing fs' with
  | nil => cases h; rfl
  | cons f fs ih =>
    cases h with
    | cons _ h =>
      rw [List.findIdx?_cons, List.findIdx?_cons, ih h]
      rfl

theorem allLike_get {fs fs' : List MField} (h : MField.AllLike fs fs') {i : Nat} {f : MField} (hi : fs[i]? = some f) :
    ∃ t', fs'[i]? = some (.mk f.name t' f.optional f.size f.endian) ∧ f.ty.Like t' := by
  induction fs generalizing fs' i with
  | nil => cases hi
  | cons g fs ih =>
    cases h with
    | cons ht h =>
      cases i with
      | zero =>
        obtain rfl := Option.some.inj hi
        exact ⟨_, rfl, ht⟩
      | succ i => exact ih h (by simpa using hi)

theorem allLike_append {fs fs' : List MField} (h : MField.AllLike fs fs') {f : MField} {t' : MFieldTy}
    (ht : f.ty.Like t') :
    MField.AllLike (fs ++ [f]) (fs' ++ [.mk f.name t' f.optional f.size f.endian]) := by
  induction fs generalizing fs' with
  | nil =>
    cases h
    obtain ⟨n, t, o, sz, e⟩ := f
    exact .cons ht .nil
  | cons g fs ih =>
    cases h with
    | cons hg h => exact .cons hg (ih h)

/-- Limits of the same width give the same prefix. -/
theorem limit_like {n n' : Nat} (h : Model.limitBytes n' = Model.limitBytes n) :
    FixedTy.fromMaxValue n' = FixedTy.fromMaxValue n := by
  have key : ∀ n, FixedTy.fromMaxValue n = .ok (match Model.limitBytes n with
      | 1 => .u8
      | 2 => .u16
      | 4 => .u32
      | _ => .u64) := by
    intro n
    unfold FixedTy.fromMaxValue Model.limitBytes
    by_cases h1 : n < 2 ^ 8
    · rw [if_neg (by omega), if_neg (by omega), if_neg (by omega), if_pos h1]; rfl
    · rw [if_neg h1]
      by_cases h2 : n < 2 ^ 16
      · rw [if_neg (by omega), if_neg (by omega), if_pos (by omega), if_pos h2]; rfl
      · rw [if_neg h2]
        by_cases h3 : n < 2 ^ 32
        · rw [if_neg (by omega), if_pos (by omega), if_pos h3]; rfl
        · rw [if_pos (by omega), if_neg h3]; rfl
  rw [key, key, h]

include hq in
theorem mfield_like {emb emb1 emb1' : List Nat} {fs fs' : List MField} (hfs : MField.AllLike fs fs')
    {v v' : Model.MField} (hv : v.Like v') {f f' : MField}
    (h : MField.fromModel q emb fs v = .ok (f, emb1)) (h' : MField.fromModel q' emb fs' v' = .ok (f', emb1')) :
    emb1' = emb1 ∧ ∃ t', f' = .mk f.name t' f.optional f.size f.endian ∧ f.ty.Like t' := by
  obtain ⟨n, info, o⟩ := v
  obtain ⟨n', info', o'⟩ := v'
  obtain ⟨hn, hi, ho⟩ := hv
  simp only at hn hi ho
  subst hn
  cases hi with
  | item =>
    simp only [MField.fromModel, hq.endianness, ho] at h h'
    obtain ⟨r, h1, h⟩ := Res.bind_eq_ok.1 h
    obtain ⟨r', h1', h'⟩ := Res.bind_eq_ok.1 h'
    cases referenced_like hq (ofOption_ok h1) (ofOption_ok h1') with
    | @struct s s' hs =>
      simp only at h h'
      have hsc := hs.scalar
      cases ha : s.asScalar with
      | some ty =>
        cases hb : s'.asScalar with
        | none => rw [ha, hb] at hsc; cases hsc
        | some ty' =>
          rw [ha, hb] at hsc
          simp only [ha] at h
          simp only [hb] at h'
          obtain ⟨rfl, rfl⟩ := Prod.mk.inj (Res.ok.inj h)
          obtain ⟨rfl, rfl⟩ := Prod.mk.inj (Res.ok.inj h')
          exact ⟨rfl, _, rfl, .fixed (Option.some.inj hsc)⟩
      | none =>
        cases hb : s'.asScalar with
        | some _ => rw [ha, hb] at hsc; cases hsc
        | none =>
          simp only [ha] at h
          simp only [hb] at h'
          obtain ⟨rfl, rfl⟩ := Prod.mk.inj (Res.ok.inj h)
          obtain ⟨rfl, rfl⟩ := Prod.mk.inj (Res.ok.inj h')
          exact ⟨rfl, _, rfl, .ref (.struct hs)⟩
    | message hm =>
      simp only [hm.size] at h h'
      obtain ⟨rfl, rfl⟩ := Prod.mk.inj (Res.ok.inj h)
      obtain ⟨rfl, rfl⟩ := Prod.mk.inj (Res.ok.inj h')
      exact ⟨rfl, _, rfl, .ref (.message hm)⟩
  | list hl =>
    simp only [MField.fromModel, hq.endianness, ho, limit_like hl] at h h'
    obtain ⟨r, h1, h⟩ := Res.bind_eq_ok.1 h
    obtain ⟨ty, h2, h⟩ := Res.bind_eq_ok.1 h
    obtain ⟨r', h1', h'⟩ := Res.bind_eq_ok.1 h'
    obtain ⟨ty', h2', h'⟩ := Res.bind_eq_ok.1 h'
    obtain rfl := Res.ok.inj (h2.symm.trans h2')
    cases referenced_like hq (ofOption_ok h1) (ofOption_ok h1') with
    | struct hs =>
      obtain ⟨rfl, rfl⟩ := Prod.mk.inj (Res.ok.inj h)
      obtain ⟨rfl, rfl⟩ := Prod.mk.inj (Res.ok.inj h')
      exact ⟨rfl, _, rfl, .array hs⟩
    | message hm =>
      obtain ⟨rfl, rfl⟩ := Prod.mk.inj (Res.ok.inj h)
      obtain ⟨rfl, rfl⟩ := Prod.mk.inj (Res.ok.inj h')
      exact ⟨by rw [hm.id], _, rfl, .list hm⟩
  | cstring =>
    simp only [MField.fromModel, hq.endianness, ho] at h h'
    obtain ⟨rfl, rfl⟩ := Prod.mk.inj (Res.ok.inj h)
    obtain ⟨rfl, rfl⟩ := Prod.mk.inj (Res.ok.inj h')
    exact ⟨rfl, _, rfl, .nul⟩
  | string hl =>
    simp only [MField.fromModel, hq.endianness, ho, limit_like hl] at h h'
    obtain ⟨ty, h2, h⟩ := Res.bind_eq_ok.1 h
    obtain ⟨ty', h2', h'⟩ := Res.bind_eq_ok.1 h'
    obtain rfl := Res.ok.inj (h2.symm.trans h2')
    obtain ⟨rfl, rfl⟩ := Prod.mk.inj (Res.ok.inj h)
    obtain ⟨rfl, rfl⟩ := Prod.mk.inj (Res.ok.inj h')
    exact ⟨rfl, _, rfl, .varchar⟩
  | payload =>
    simp only [MField.fromModel, hq.endianness, ho] at h h'
    obtain ⟨rfl, rfl⟩ := Prod.mk.inj (Res.ok.inj h)
    obtain ⟨rfl, rfl⟩ := Prod.mk.inj (Res.ok.inj h')
    exact ⟨rfl, _, rfl, .payload⟩
  | union =>
    simp only [MField.fromModel, hq.endianness, allLike_find hfs] at h h'
    obtain ⟨i, h1, h⟩ := Res.bind_eq_ok.1 h
    obtain ⟨g, h2, h⟩ := Res.bind_eq_ok.1 h
    obtain ⟨u, h3, h⟩ := Res.bind_eq_ok.1 h
    rw [h1, Res.bind_ok] at h'
    obtain ⟨g', h2', h'⟩ := Res.bind_eq_ok.1 h'
    obtain ⟨u', h3', h'⟩ := Res.bind_eq_ok.1 h'
    have hu := hq.unionsByName.both (ofOption_ok h3) (ofOption_ok h3')
    obtain ⟨t', h6, h7⟩ := allLike_get hfs (ofOption_ok h2)
    rw [ofOption_ok h2'] at h6
    rw [Option.some.inj h6] at h'
    obtain ⟨gn, gt, go, gs, ge⟩ := g
    simp only [MField.ty, MField.name] at h h' h7
    cases h7 with
    | ref hr =>
      cases hr with
      | struct hs =>
        simp only [hu.discriminant.root.id, hs.id] at h h'
        split at h
        · next hid =>
          rw [if_pos hid] at h'
          obtain ⟨rfl, rfl⟩ := Prod.mk.inj (Res.ok.inj h)
          obtain ⟨rfl, rfl⟩ := Prod.mk.inj (Res.ok.inj h')
          rw [hu.size]
          exact ⟨rfl, _, rfl, .union hu⟩
        · cases h
      | message _ => cases h
    | _ => cases h

include hq in
theorem mfields_like {vs vs' : List Model.MField} (hv : List.Forall₂ Model.MField.Like vs vs')
    {emb emb1 emb1' : List Nat} {fs fs' gs gs' : List MField} {n n1 n1' : Nat} {d d1 d1' : Bool}
    (hfs : MField.AllLike fs fs')
    (h : Message.fieldsFromModel q emb fs n d vs = .ok (gs, n1, d1, emb1))
    (h' : Message.fieldsFromModel q' emb fs' n d vs' = .ok (gs', n1', d1', emb1')) :
    n1' = n1 ∧ d1' = d1 ∧ emb1' = emb1 ∧ MField.AllLike gs gs' := by
  induction hv generalizing emb fs fs' n d with
  | nil =>
    simp only [Message.fieldsFromModel, Res.pure_eq, Res.ok.injEq, Prod.mk.injEq] at h h'
    obtain ⟨rfl, rfl, rfl, rfl⟩ := h
    obtain ⟨rfl, rfl, rfl, rfl⟩ := h'
    exact ⟨rfl, rfl, rfl, hfs⟩
  | cons hv _ ih =>
    simp only [Message.fieldsFromModel] at h h'
    obtain ⟨⟨f, emb2⟩, h1, h⟩ := Res.bind_eq_ok.1 h
    obtain ⟨⟨f', emb2'⟩, h1', h'⟩ := Res.bind_eq_ok.1 h'
    obtain ⟨rfl, t', rfl, ht⟩ := mfield_like hq hfs hv h1 h1'
    have hsz : (MField.mk f.name t' f.optional f.size f.endian).size = f.size := rfl
    simp only [hsz] at h'
    simp only at h
    generalize (if f.size.isElementDynSized = true then n + 1 else n) = k at h h'
    by_cases h4 : n > 0 ∧ (f.size.isDynSized = true ∨ f.size.isElementDynSized = true)
    · rw [if_pos h4] at h
      cases h
    · rw [if_neg h4] at h h'
      by_cases h5 : k > 1
      · rw [if_pos h5] at h
        cases h
      · rw [if_neg h5] at h h'
        exact ih (allLike_append hfs ht) h h'

include hq in
theorem message_like {emb emb1 emb1' : List Nat} {id : Nat} {v v' : Model.Message} (hv : v.Like v') {m m' : Message}
    (h : Message.fromModel q emb id v = .ok (m, emb1)) (h' : Message.fromModel q' emb id v' = .ok (m', emb1')) :
    emb1' = emb1 ∧ m.Like m' := by
  obtain ⟨⟨fs, n, d, emb2⟩, h1, h⟩ := Res.bind_eq_ok.1 h
  obtain ⟨rfl, rfl⟩ := Prod.mk.inj (Res.ok.inj h)
  obtain ⟨⟨fs', n', d', emb2'⟩, h1', h'⟩ := Res.bind_eq_ok.1 h'
  obtain ⟨rfl, rfl⟩ := Prod.mk.inj (Res.ok.inj h')
  obtain ⟨rfl, rfl, rfl, h3⟩ := mfields_like hq hv.fields .nil h1 h1'
  rw [hv.name]
  exact ⟨rfl, .mk h3⟩

/-! ### Protocols -/

/-- The solvers know protocols that are alike under the same names. -/
def Resolver.Like (r r' : Resolver) : Prop :=
  ∀ n x x', r.protocolByName n = some x → r'.protocolByName n = some x' → x.KnownLike x'

include hq in
theorem import_like {r r' : Resolver} (hr : r.Like r') {v : Model.Import} {q1 q1' : Protocol}
    (h : Protocol.addImport r q v = .ok q1) (h' : Protocol.addImport r' q' v = .ok q1') : q1.KnownLike q1' := by
  unfold Protocol.addImport at h h'
  obtain ⟨x, h1, h⟩ := Res.bind_eq_ok.1 h
  obtain ⟨x', h1', h'⟩ := Res.bind_eq_ok.1 h'
  have hx := hr _ _ _ (ofOption_ok h1) (ofOption_ok h1')
  rcases hx.structsByName v.typeName with ⟨e1, e2⟩ | ⟨s, s', e1, e2, e3⟩
  · simp only [e1] at h
    simp only [e2] at h'
    rcases hx.enumsByName v.typeName with ⟨e1, e2⟩ | ⟨s, s', e1, e2, e3⟩
    · simp only [e1] at h
      simp only [e2] at h'
      rcases hx.unionsByName v.typeName with ⟨e1, e2⟩ | ⟨s, s', e1, e2, e3⟩
      · simp only [e1] at h
        simp only [e2] at h'
        obtain ⟨s, hm, h⟩ := Res.bind_eq_ok.1 h
        obtain ⟨pa, h3, h⟩ := Res.bind_eq_ok.1 h
        obtain rfl := Res.ok.inj h
        obtain ⟨s', hm', h'⟩ := Res.bind_eq_ok.1 h'
        obtain ⟨pa', h3', h'⟩ := Res.bind_eq_ok.1 h'
        obtain rfl := Res.ok.inj h'
        exact { hq with
          messagesByName := hq.messagesByName.cons rfl (hx.messagesByName.both (ofOption_ok hm) (ofOption_ok hm')) }
      · simp only [e1] at h
        simp only [e2] at h'
        obtain ⟨pa, h3, h⟩ := Res.bind_eq_ok.1 h
        obtain rfl := Res.ok.inj h
        obtain ⟨pa', h3', h'⟩ := Res.bind_eq_ok.1 h'
        obtain rfl := Res.ok.inj h'
        exact { hq with unionsByName := hq.unionsByName.cons rfl e3 }
    · simp only [e1] at h
      simp only [e2] at h'
      obtain ⟨pa, h3, h⟩ := Res.bind_eq_ok.1 h
      obtain rfl := Res.ok.inj h
      obtain ⟨pa', h3', h'⟩ := Res.bind_eq_ok.1 h'
      obtain rfl := Res.ok.inj h'
      exact { hq with enumsByName := hq.enumsByName.cons rfl e3 }
  · simp only [e1] at h
    simp only [e2] at h'
    obtain ⟨pa, h3, h⟩ := Res.bind_eq_ok.1 h
    obtain rfl := Res.ok.inj h
    obtain ⟨pa', h3', h'⟩ := Res.bind_eq_ok.1 h'
    obtain rfl := Res.ok.inj h'
    exact { hq with structsByName := hq.structsByName.cons rfl e3 }

end Protocols

theorem imports_like {r r' : Resolver} (hr : r.Like r') {vs : List Model.Import} {q q' q1 q1' : Protocol}
    (hq : q.Like q') (h : Protocol.addImports r q vs = .ok q1) (h' : Protocol.addImports r' q' vs = .ok q1') :
    q1.Like q1' := by
  induction vs generalizing q q' with
  | nil =>
    obtain rfl := Res.ok.inj h
    obtain rfl := Res.ok.inj h'
    exact hq
  | cons v vs ih =>
    obtain ⟨q2, h1, h⟩ := Res.bind_eq_ok.1 h
    obtain ⟨q2', h1', h'⟩ := Res.bind_eq_ok.1 h'
    obtain ⟨d1, d2, d3, d4⟩ := addImport_declares h1
    obtain ⟨e1, e2, e3, e4⟩ := addImport_declares h1'
    exact ih ⟨import_like hq.toKnownLike hr h1 h1', d1 ▸ e1 ▸ hq.structs, d2 ▸ e2 ▸ hq.messages, d4 ▸ e4 ▸ hq.unions⟩
      h h'

theorem enums_like {vs vs' : List Model.Enum} (hv : vs'.map Model.Enum.name = vs.map Model.Enum.name)
    {q q' q1 q1' : Protocol} (hq : q.Like q') (h : Protocol.addEnums q vs = .ok q1)
    (h' : Protocol.addEnums q' vs' = .ok q1') : q1.Like q1' := by
  induction vs generalizing vs' q q' with
  | nil =>
    obtain rfl : vs' = [] := by simpa using hv
    obtain rfl := Res.ok.inj h
    obtain rfl := Res.ok.inj h'
    exact hq
  | cons v vs ih =>
    cases vs' with
    | nil => simp at hv
    | cons v' vs' =>
      simp only [List.map_cons, List.cons.injEq] at hv
      obtain ⟨e, h1, h⟩ := Res.bind_eq_ok.1 h
      obtain ⟨e', h1', h'⟩ := Res.bind_eq_ok.1 h'
      refine ih hv.2 ?_ h h'
      have hn : e'.name = e.name := by rw [(Props.C46_enum h1).1, (Props.C46_enum h1').1, hv.1]
      exact { hq with enumsByName := hq.enumsByName.cons hn trivial }

theorem structs_like {p : Profile} {vs vs' : List Model.Structure} (hv : List.Forall₂ Model.Structure.Like vs vs')
    {q q' q1 q1' : Protocol} {n n1 n1' : Nat} (hq : q.Like q')
    (h : Protocol.addStructs p n q vs = .ok (q1, n1)) (h' : Protocol.addStructs p n q' vs' = .ok (q1', n1')) :
    n1' = n1 ∧ q1.Like q1' := by
  induction hv generalizing q q' n with
  | nil =>
    obtain ⟨rfl, rfl⟩ := Prod.mk.inj (Res.ok.inj h)
    obtain ⟨rfl, rfl⟩ := Prod.mk.inj (Res.ok.inj h')
    exact ⟨rfl, hq⟩
  | cons hv _ ih =>
    obtain ⟨s, h1, h⟩ := Res.bind_eq_ok.1 h
    obtain ⟨s', h1', h'⟩ := Res.bind_eq_ok.1 h'
    rw [hq.endianness] at h1'
    have hs := structure_like hq.structsByName hv h1 h1'
    refine ih ?_ h h'
    exact { hq with
      structsByName := hq.structsByName.cons hs.name hs
      structs := forall₂_append hq.structs hs }

theorem addUnions_unions {vs : List Model.Union} {q q1 : Protocol} (h : Protocol.addUnions q vs = .ok q1) :
    ∃ us, q1.unions = q.unions ++ us := by
  induction vs generalizing q with
  | nil =>
    obtain rfl := Res.ok.inj h
    exact ⟨[], by simp⟩
  | cons v vs ih =>
    obtain ⟨u, h1, h⟩ := Res.bind_eq_ok.1 h
    obtain ⟨us, h2⟩ := ih h
    exact ⟨u :: us, by rw [h2]; simp⟩

theorem addMessages_unions {vs : List Model.Message} {q q1 : Protocol} {w w1 : World}
    (h : Protocol.addMessages w q vs = .ok (q1, w1)) : q1.unions = q.unions := by
  induction vs generalizing q w with
  | nil =>
    obtain ⟨rfl, rfl⟩ := Prod.mk.inj (Res.ok.inj h)
    rfl
  | cons v vs ih =>
    obtain ⟨⟨m, emb⟩, h1, h⟩ := Res.bind_eq_ok.1 h
    rw [ih h]

theorem unions_like {vs vs' : List Model.Union} (hv : List.Forall₂ Model.Union.Like vs vs')
    {q q' q1 q1' : Protocol} (hq : q.Like q') (h : Protocol.addUnions q vs = .ok q1)
    (h' : Protocol.addUnions q' vs' = .ok q1') (hu : q1.SameChoices q1') : q1.Like q1' := by
  induction hv generalizing q q' with
  | nil =>
    obtain rfl := Res.ok.inj h
    obtain rfl := Res.ok.inj h'
    exact hq
  | cons hv _ ih =>
    obtain ⟨u, h1, h⟩ := Res.bind_eq_ok.1 h
    obtain ⟨u', h1', h'⟩ := Res.bind_eq_ok.1 h'
    have hc : u.SameChoices u' := by
      obtain ⟨us, h2⟩ := addUnions_unions h
      obtain ⟨us', h2'⟩ := addUnions_unions h'
      unfold Protocol.SameChoices at hu
      rw [h2, h2'] at hu
      have hl := hq.unions.length_eq
      rcases forall₂_get hu q.unions.length with ⟨e, _⟩ | ⟨a, b, e1, e2, e3⟩
      · simp at e
      · simp only [List.append_assoc] at e1 e2
        rw [List.getElem?_append_right (Nat.le_refl _)] at e1
        rw [hl, List.getElem?_append_right (Nat.le_refl _)] at e2
        simp at e1 e2
        rw [e1, e2]
        exact e3
    have hl := union_like hq.toKnownLike hv h1 h1' hc
    refine ih ?_ h h'
    exact { hq with
      unionsByName := hq.unionsByName.cons hl.name hl
      unions := forall₂_append hq.unions hl }

theorem messages_like {vs vs' : List Model.Message} (hv : List.Forall₂ Model.Message.Like vs vs')
    {q q' q1 q1' : Protocol} {w w1 w1' : World} (hq : q.Like q')
    (h : Protocol.addMessages w q vs = .ok (q1, w1)) (h' : Protocol.addMessages w q' vs' = .ok (q1', w1')) :
    w1' = w1 ∧ q1.Like q1' := by
  induction hv generalizing q q' w with
  | nil =>
    obtain ⟨rfl, rfl⟩ := Prod.mk.inj (Res.ok.inj h)
    obtain ⟨rfl, rfl⟩ := Prod.mk.inj (Res.ok.inj h')
    exact ⟨rfl, hq⟩
  | cons hv _ ih =>
    obtain ⟨⟨m, emb⟩, h1, h⟩ := Res.bind_eq_ok.1 h
    obtain ⟨⟨m', emb'⟩, h1', h'⟩ := Res.bind_eq_ok.1 h'
    obtain ⟨rfl, hm⟩ := message_like hq.toKnownLike hv h1 h1'
    refine ih ?_ h h'
    exact { hq with
      messagesByName := hq.messagesByName.cons hm.name hm
      messages := forall₂_append hq.messages hm }

theorem protocol_like {p : Profile} {r r' : Resolver} (hr : r.Like r') {v v' : Model.Protocol} (hv : v.Like v')
    {w w1 w1' : World} {q q' : Protocol} (h : Protocol.fromModel p r w v = .ok (q, w1))
    (h' : Protocol.fromModel p r' w v' = .ok (q', w1')) (hu : q.SameChoices q') : w1' = w1 ∧ q.Like q' := by
  obtain ⟨q1, h1, h⟩ := Res.bind_eq_ok.1 h
  obtain ⟨q2, h2, h⟩ := Res.bind_eq_ok.1 h
  obtain ⟨⟨q3, n3⟩, h3, h⟩ := Res.bind_eq_ok.1 h
  obtain ⟨q4, h4, h⟩ := Res.bind_eq_ok.1 h
  obtain ⟨q1', h1', h'⟩ := Res.bind_eq_ok.1 h'
  obtain ⟨q2', h2', h'⟩ := Res.bind_eq_ok.1 h'
  obtain ⟨⟨q3', n3'⟩, h3', h'⟩ := Res.bind_eq_ok.1 h'
  obtain ⟨q4', h4', h'⟩ := Res.bind_eq_ok.1 h'
  rw [hv.imports] at h1'
  have h0 : (Protocol.empty v).Like (Protocol.empty v') := ⟨⟨hv.name, rfl, .nil, .nil, .nil, .nil⟩, .nil, .nil, .nil⟩
  have a2 := enums_like hv.enums (imports_like hr h0 h1 h1') h2 h2'
  obtain ⟨rfl, a3⟩ := structs_like hv.structs a2 h3 h3'
  have hu4 : q4.SameChoices q4' := by
    unfold Protocol.SameChoices at hu ⊢
    rwa [addMessages_unions h, addMessages_unions h'] at hu
  exact messages_like hv.messages (unions_like hv.unions a3 h4 h4' hu4) h h'

/-- The solvers have registered protocols that are alike, under the same names. -/
def SimpleImportSolver.Like (s s' : SimpleImportSolver) : Prop :=
  List.Forall₂ (fun a b => b.1 = a.1 ∧ Protocol.KnownLike a.2.2 b.2.2) s.importMap s'.importMap

theorem SimpleImportSolver.Like.resolver {s s' : SimpleImportSolver} (h : s.Like s') :
    s.resolver.Like s'.resolver := by
  have key : ∀ n x x', s.importMap.lookup n = some x → s'.importMap.lookup n = some x' → x.2.KnownLike x'.2 := by
    intro n x x' hx hx'
    unfold SimpleImportSolver.Like at h
    revert hx hx'
    generalize s.importMap = l at h
    generalize s'.importMap = l' at h
    induction h with
    | nil => intro hx; cases hx
    | @cons a b l l' hab _ ih =>
      intro hx hx'
      obtain ⟨k, v⟩ := a
      obtain ⟨k', v'⟩ := b
      obtain ⟨hk, hv⟩ := hab
      simp only at hk hv
      subst hk
      by_cases e : n = k'
      · subst e
        simp only [List.lookup_cons_self, Option.some.injEq] at hx hx'
        subst hx hx'
        exact hv
      · simp only [List.lookup_cons, beq_eq_false_iff_ne.2 e] at hx hx'
        exact ih hx hx'
  intro n x x' hx hx'
  obtain ⟨y, hy, rfl⟩ := Option.map_eq_some_iff.1 hx
  obtain ⟨y', hy', rfl⟩ := Option.map_eq_some_iff.1 hx'
  exact key _ _ _ hy hy'

theorem compileImports_prefix {p : Profile} {vs : List (Name × Model.Protocol)} {s s1 : SimpleImportSolver}
    {w w1 : World} (h : Loader.compileImports p s w vs = .ok (s1, w1)) :
    ∃ l, s1.importMap = l ++ s.importMap ∧ l.length = vs.length := by
  induction vs generalizing s w with
  | nil =>
    obtain ⟨rfl, rfl⟩ := Prod.mk.inj (Res.ok.inj h)
    exact ⟨[], rfl, rfl⟩
  | cons v vs ih =>
    obtain ⟨path, v⟩ := v
    obtain ⟨⟨q, w2⟩, h1, h⟩ := Res.bind_eq_ok.1 h
    obtain ⟨l, h2, h3⟩ := ih h
    exact ⟨l ++ [(q.name, path, q)], by rw [h2]; simp [SimpleImportSolver.register], by simp [h3]⟩

theorem compileImports_like {p : Profile} {vs vs' : List (Name × Model.Protocol)}
    (hv : List.Forall₂ (fun a b => b.1 = a.1 ∧ Model.Protocol.Like a.2 b.2) vs vs')
    {s s' s1 s1' : SimpleImportSolver} (hs : s.Like s') {w w1 w1' : World}
    (h : Loader.compileImports p s w vs = .ok (s1, w1)) (h' : Loader.compileImports p s' w vs' = .ok (s1', w1'))
    (hu : List.Forall₂ (fun a b => Protocol.SameChoices a.2.2 b.2.2) s1.importMap s1'.importMap) :
    w1' = w1 ∧ s1.Like s1' := by
  induction hv generalizing s s' w with
  | nil =>
    obtain ⟨rfl, rfl⟩ := Prod.mk.inj (Res.ok.inj h)
    obtain ⟨rfl, rfl⟩ := Prod.mk.inj (Res.ok.inj h')
    exact ⟨rfl, hs⟩
  | @cons a b vs vs' hv hvs ih =>
    obtain ⟨pa, va⟩ := a
    obtain ⟨pb, vb⟩ := b
    obtain ⟨e, hv⟩ := hv
    simp only at e hv
    subst e
    obtain ⟨⟨q, w2⟩, h1, h⟩ := Res.bind_eq_ok.1 h
    obtain ⟨⟨q', w2'⟩, h1', h'⟩ := Res.bind_eq_ok.1 h'
    have hc : q.SameChoices q' := by
      obtain ⟨l, h2, h3⟩ := compileImports_prefix h
      obtain ⟨l', h2', h3'⟩ := compileImports_prefix h'
      have hl : l'.length = l.length := by rw [h3, h3', hvs.length_eq]
      rw [h2, h2'] at hu
      rcases forall₂_get hu l.length with ⟨e, _⟩ | ⟨a, b, e1, e2, e3⟩
      · simp [SimpleImportSolver.register] at e
      · rw [List.getElem?_append_right (Nat.le_refl _)] at e1
        rw [← hl, List.getElem?_append_right (Nat.le_refl _)] at e2
        simp [SimpleImportSolver.register] at e1 e2
        rw [← e1, ← e2] at e3
        exact e3
    obtain ⟨rfl, hq⟩ := protocol_like hs.resolver hv h1 h1' hc
    refine ih ?_ h h'
    exact List.Forall₂.cons ⟨hq.name, hq.toKnownLike⟩ hs

theorem compileModels_like {p : Profile} {vs vs' : List Model.Protocol}
    (hv : List.Forall₂ Model.Protocol.Like vs vs') {r r' : Resolver} (hr : r.Like r') {w w1 w1' : World}
    {ps ps' : List Protocol} (h : Loader.compileModels p r w vs = .ok (ps, w1))
    (h' : Loader.compileModels p r' w vs' = .ok (ps', w1')) (hu : List.Forall₂ Protocol.SameChoices ps ps') :
    w1' = w1 ∧ List.Forall₂ Protocol.Like ps ps' := by
  induction hv generalizing w ps ps' with
  | nil =>
    obtain ⟨rfl, rfl⟩ := Prod.mk.inj (Res.ok.inj h)
    obtain ⟨rfl, rfl⟩ := Prod.mk.inj (Res.ok.inj h')
    exact ⟨rfl, .nil⟩
  | cons hv _ ih =>
    obtain ⟨⟨q, w2⟩, h1, h⟩ := Res.bind_eq_ok.1 h
    obtain ⟨⟨qs, w3⟩, h4, h⟩ := Res.bind_eq_ok.1 h
    obtain ⟨rfl, rfl⟩ := Prod.mk.inj (Res.ok.inj h)
    obtain ⟨⟨q', w2'⟩, h1', h'⟩ := Res.bind_eq_ok.1 h'
    obtain ⟨⟨qs', w3'⟩, h4', h'⟩ := Res.bind_eq_ok.1 h'
    obtain ⟨rfl, rfl⟩ := Prod.mk.inj (Res.ok.inj h')
    cases hu with
    | cons hu hus =>
      obtain ⟨rfl, hq⟩ := protocol_like hr hv h1 h1' hu
      obtain ⟨rfl, hqs⟩ := ih h4 h4' hus
      exact ⟨rfl, .cons hq hqs⟩

/-! ### Builds -/

/-- The choices of all unions of imported files. -/
def Loader.SameImportedChoices (p : Profile) (sep : Name) (w : World) (l l' : Loader) : Prop :=
  ∀ s s' w1 w1', Loader.compileImports p (SimpleImportSolver.new sep) w l.importedModels = .ok (s, w1) →
    Loader.compileImports p (SimpleImportSolver.new sep) w l'.importedModels = .ok (s', w1') →
    List.Forall₂ (fun a b => Protocol.SameChoices a.2.2 b.2.2) s.importMap s'.importMap

theorem loader_like {l l' : Loader} (hl : l.Like l') {p : Profile} {sep : Name} {w w1 w1' : World}
    {qs qs' : List Protocol} (h : Loader.compile p l (SimpleImportSolver.new sep) w = .ok (qs, w1))
    (h' : Loader.compile p l' (SimpleImportSolver.new sep) w = .ok (qs', w1'))
    (hi : Loader.SameImportedChoices p sep w l l') (hu : List.Forall₂ Protocol.SameChoices qs qs') :
    w1' = w1 ∧ List.Forall₂ Protocol.Like qs qs' := by
  obtain ⟨⟨s1, w2⟩, h1, h⟩ := Res.bind_eq_ok.1 h
  obtain ⟨⟨s1', w2'⟩, h1', h'⟩ := Res.bind_eq_ok.1 h'
  obtain ⟨rfl, hs⟩ := compileImports_like hl.imported (s := SimpleImportSolver.new sep)
    (s' := SimpleImportSolver.new sep) .nil h1 h1' (hi _ _ _ _ h1 h1')
  exact compileModels_like hl.models hs.resolver h h' hu

theorem addEnums_unions {vs : List Model.Enum} {q q1 : Protocol} (h : Protocol.addEnums q vs = .ok q1) :
    q1.unions = q.unions := by
  induction vs generalizing q with
  | nil =>
    obtain rfl := Res.ok.inj h
    rfl
  | cons v vs ih =>
    obtain ⟨u, h1, h⟩ := Res.bind_eq_ok.1 h
    rw [ih h]

theorem addStructs_unions {p : Profile} {vs : List Model.Structure} {q q1 : Protocol} {n n1 : Nat}
    (h : Protocol.addStructs p n q vs = .ok (q1, n1)) : q1.unions = q.unions := by
  induction vs generalizing q n with
  | nil =>
    obtain ⟨rfl, rfl⟩ := Prod.mk.inj (Res.ok.inj h)
    rfl
  | cons v vs ih =>
    obtain ⟨u, h1, h⟩ := Res.bind_eq_ok.1 h
    rw [ih h]

theorem addImports_unions {r : Resolver} {vs : List Model.Import} {q q1 : Protocol}
    (h : Protocol.addImports r q vs = .ok q1) : q1.unions = q.unions := by
  induction vs generalizing q with
  | nil =>
    obtain rfl := Res.ok.inj h
    rfl
  | cons v vs ih =>
    obtain ⟨u, h1, h⟩ := Res.bind_eq_ok.1 h
    rw [ih h, (addImport_declares h1).2.2.2]

theorem fromModel_unions {p : Profile} {r : Resolver} {v : Model.Protocol} {w w1 : World} {q : Protocol}
    (h : Protocol.fromModel p r w v = .ok (q, w1)) (hv : v.unions = []) : q.unions = [] := by
  obtain ⟨q1, h1, h⟩ := Res.bind_eq_ok.1 h
  obtain ⟨q2, h2, h⟩ := Res.bind_eq_ok.1 h
  obtain ⟨⟨q3, n3⟩, h3, h⟩ := Res.bind_eq_ok.1 h
  obtain ⟨q4, h4, h⟩ := Res.bind_eq_ok.1 h
  rw [hv] at h4
  obtain rfl := Res.ok.inj h4
  rw [addMessages_unions h, addStructs_unions h3, addEnums_unions h2, addImports_unions h1]
  rfl

theorem compileModels_unions {p : Profile} {r : Resolver} {vs : List Model.Protocol} {w w1 : World}
    {qs : List Protocol} (h : Loader.compileModels p r w vs = .ok (qs, w1)) (hv : ∀ v ∈ vs, v.unions = []) :
    qs.length = vs.length ∧ ∀ q ∈ qs, q.unions = [] := by
  induction vs generalizing w qs with
  | nil =>
    obtain ⟨rfl, rfl⟩ := Prod.mk.inj (Res.ok.inj h)
    exact ⟨rfl, fun q hq => by cases hq⟩
  | cons v vs ih =>
    obtain ⟨⟨q, w2⟩, h1, h⟩ := Res.bind_eq_ok.1 h
    obtain ⟨⟨qs, w3⟩, h4, h⟩ := Res.bind_eq_ok.1 h
    obtain ⟨rfl, rfl⟩ := Prod.mk.inj (Res.ok.inj h)
    obtain ⟨h5, h6⟩ := ih h4 fun v hx => hv v (List.mem_cons_of_mem _ hx)
    refine ⟨by simp [h5], fun x hx => ?_⟩
    rcases List.mem_cons.1 hx with rfl | hx
    · exact fromModel_unions h1 (hv v List.mem_cons_self)
    · exact h6 x hx

theorem compileImports_unions {p : Profile} {vs : List (Name × Model.Protocol)} {s s1 : SimpleImportSolver}
    {w w1 : World} (h : Loader.compileImports p s w vs = .ok (s1, w1)) (hv : ∀ v ∈ vs, v.2.unions = [])
    (hs : ∀ a ∈ s.importMap, a.2.2.unions = []) : ∀ a ∈ s1.importMap, a.2.2.unions = [] := by
  induction vs generalizing s w with
  | nil =>
    obtain ⟨rfl, rfl⟩ := Prod.mk.inj (Res.ok.inj h)
    exact hs
  | cons v vs ih =>
    obtain ⟨path, v⟩ := v
    obtain ⟨⟨q, w2⟩, h1, h⟩ := Res.bind_eq_ok.1 h
    refine ih h (fun v hx => hv v (List.mem_cons_of_mem _ hx)) fun a ha => ?_
    simp only [SimpleImportSolver.register] at ha
    rcases List.mem_cons.1 ha with rfl | ha
    · exact fromModel_unions h1 (hv _ List.mem_cons_self)
    · exact hs a ha

theorem forall₂_of_all {α β : Type} {R : α → β → Prop} {l : List α} {l' : List β} (hl : l.length = l'.length)
    (h : ∀ a ∈ l, ∀ b ∈ l', R a b) : List.Forall₂ R l l' := by
  induction l generalizing l' with
  | nil =>
    cases l' with
    | nil => exact .nil
    | cons => cases hl
  | cons a l ih =>
    cases l' with
    | nil => cases hl
    | cons b l' =>
      exact .cons (h a List.mem_cons_self b List.mem_cons_self)
        (ih (Nat.succ.inj hl) fun a ha b hb => h a (List.mem_cons_of_mem _ ha) b (List.mem_cons_of_mem _ hb))

/-- What two revisions of a message have in common. -/
structure Message.SameWire (m m' : Message) : Prop where
  name : m'.name = m.name
  id : m'.id = m.id
  size : m'.size = m.size
  decoder : ∀ (c : Ctx) (b : Bytes), m'.parse c b = m.parse c b
  encoder : ∀ (c : Ctx) (v : Value), m'.write c v = m.write c v

/-- What two revisions of a structure have in common: every path of field numbers leads to an accessor of the
same bits, and arrays have the same items. -/
structure Structure.SameBits (s s' : Structure) : Prop where
  name : s'.name = s.name
  byteSize : s'.byteSize = s.byteSize
  locs : s'.fields.map SField.loc = s.fields.map SField.loc
  accessors : ∀ is a, s.walk is = some a → ∃ a', s'.walk is = some a' ∧ (∀ p b, a'.get p b = a.get p b) ∧
    ∀ p b v, a'.set p b v = a.set p b v
  arrays : ∀ (i : Nat) (f : ArrayField), s.fields[i]? = some (.array f) → ∃ f' : ArrayField,
    s'.fields[i]? = some (.array f') ∧ (∀ b, f'.getLen b = f.getLen b) ∧ (∀ b, f'.getIter b = f.getIter b) ∧
      (∀ p b k, f'.getItem p b k = f.getItem p b k) ∧ ∀ p b k x, f'.setItem p b k x = f.setItem p b k x

theorem Message.Like.sameWire {m m' : Message} (h : m.Like m') : m.SameWire m' :=
  ⟨h.name, h.id, h.size, fun _ b => by rw [h.parse], fun _ v => h.write v⟩

theorem Structure.Like.sameBits {s s' : Structure} (h : s.Like s') : s.SameBits s' := by
  refine ⟨h.name, h.byteSize, ?_, fun is a ha => ?_, fun i f hf => ?_⟩
  · have := h.fields
    generalize s.fields = fs at this
    generalize s'.fields = fs' at this
    induction fs generalizing fs' with
    | nil => cases this; rfl
    | cons f fs ih =>
      cases this <;> (rw [List.map_cons, List.map_cons, ih _ (by assumption)]; rfl)
  · rcases h.walk is with ⟨e, _⟩ | ⟨b, b', e, hb', h6⟩
    · rw [ha] at e
      cases e
    · rw [ha] at e
      obtain rfl := Option.some.inj e
      exact ⟨b', hb', h6⟩
  · rcases forall₂_get h.fields.forall₂ i with ⟨e, _⟩ | ⟨a, b, e, h2, h3⟩
    · rw [hf] at e
      cases e
    · rw [hf] at e
      obtain rfl := Option.some.inj e
      cases h3 with
      | array ht _ =>
        refine ⟨_, h2, fun b => rfl, fun b => ?_, fun p b k => ?_, fun p b k x => ?_⟩ <;>
          simp only [ArrayField.getIter, ArrayField.getItem, ArrayField.setItem, ArrayField.itemBitSize, ht]

theorem forall₂_imp {α β : Type} {R S : α → β → Prop} {l : List α} {l' : List β} (h : List.Forall₂ R l l')
    (hrs : ∀ a b, R a b → S a b) : List.Forall₂ S l l' := by
  induction h with
  | nil => exact .nil
  | cons h _ ih => exact .cons (hrs _ _ h) ih

namespace Props

/-- C107: two builds whose declarations are alike in what reaches the wire both compile, and the discriminants
of their unions are found at the same numbers with the same values of cases.  Then file by file, message by
message: the same names and identities, the same result of decoding for every input and the same bytes for
every value. -/
theorem C107_messages {l l' : Loader} (hl : l.Like l') {p : Profile} {sep : Name} {w w1 w1' : World}
    {qs qs' : List Protocol} (h : Loader.compile p l (SimpleImportSolver.new sep) w = .ok (qs, w1))
    (h' : Loader.compile p l' (SimpleImportSolver.new sep) w = .ok (qs', w1'))
    (hi : Loader.SameImportedChoices p sep w l l') (hu : List.Forall₂ Protocol.SameChoices qs qs') :
    w1' = w1 ∧ List.Forall₂ (fun q q' => q'.name = q.name ∧ List.Forall₂ Message.SameWire q.messages q'.messages)
      qs qs' := by
  obtain ⟨h1, h2⟩ := loader_like hl h h' hi hu
  exact ⟨h1, forall₂_imp h2 fun q q' hq => ⟨hq.name, forall₂_imp hq.messages fun _ _ hm => hm.sameWire⟩⟩

/-- C107: and structure by structure, the same bits for every path of field numbers. -/
theorem C107_structures {l l' : Loader} (hl : l.Like l') {p : Profile} {sep : Name} {w w1 w1' : World}
    {qs qs' : List Protocol} (h : Loader.compile p l (SimpleImportSolver.new sep) w = .ok (qs, w1))
    (h' : Loader.compile p l' (SimpleImportSolver.new sep) w = .ok (qs', w1'))
    (hi : Loader.SameImportedChoices p sep w l l') (hu : List.Forall₂ Protocol.SameChoices qs qs') :
    List.Forall₂ (fun q q' => q'.name = q.name ∧ List.Forall₂ Structure.SameBits q.structs q'.structs) qs qs' :=
  forall₂_imp (loader_like hl h h' hi hu).2 fun q q' hq =>
    ⟨hq.name, forall₂_imp hq.structs fun _ _ hs => hs.sameBits⟩

/-- C107: without unions nothing else is needed. -/
theorem C107_without_unions {l l' : Loader} (hl : l.Like l')
    (hn : (∀ v ∈ l.models, v.unions = []) ∧ ∀ v ∈ l.importedModels, v.2.unions = [])
    {p : Profile} {sep : Name} {w w1 w1' : World}
    {qs qs' : List Protocol} (h : Loader.compile p l (SimpleImportSolver.new sep) w = .ok (qs, w1))
    (h' : Loader.compile p l' (SimpleImportSolver.new sep) w = .ok (qs', w1')) :
    w1' = w1 ∧ List.Forall₂ (fun q q' => q'.name = q.name ∧ List.Forall₂ Message.SameWire q.messages q'.messages ∧
      List.Forall₂ Structure.SameBits q.structs q'.structs) qs qs' := by
  have hu : ∀ v v', Model.Protocol.Like v v' → v.unions = [] → v'.unions = [] := by
    intro v v' hv e
    have := hv.unions
    rw [e] at this
    exact List.forall₂_nil_left_iff.1 this
  have hn1 : ∀ v ∈ l'.models, v.unions = [] := by
    have := hl.models
    have hm := hn.1
    revert hm
    generalize l.models = xs at this
    generalize l'.models = ys at this
    induction this with
    | nil => intro _ v hv; cases hv
    | @cons a b xs ys hab _ ih =>
      intro hm v hv
      rcases List.mem_cons.1 hv with rfl | hv
      · exact hu _ _ hab (hm _ List.mem_cons_self)
      · exact ih (fun v hx => hm v (List.mem_cons_of_mem _ hx)) v hv
  have hn2 : ∀ v ∈ l'.importedModels, v.2.unions = [] := by
    have := hl.imported
    have hm := hn.2
    revert hm
    generalize l.importedModels = xs at this
    generalize l'.importedModels = ys at this
    induction this with
    | nil => intro _ v hv; cases hv
    | @cons a b xs ys hab _ ih =>
      intro hm v hv
      rcases List.mem_cons.1 hv with rfl | hv
      · exact hu _ _ hab.2 (hm _ List.mem_cons_self)
      · exact ih (fun v hx => hm v (List.mem_cons_of_mem _ hx)) v hv
  have hi : Loader.SameImportedChoices p sep w l l' := by
    intro s s' w2 w2' h1 h1'
    obtain ⟨x, e1, e2⟩ := compileImports_prefix h1
    obtain ⟨x', e1', e2'⟩ := compileImports_prefix h1'
    refine forall₂_of_all ?_ fun a ha b hb => ?_
    · rw [e1, e1']
      simp [e2, e2', hl.imported.length_eq]
    · unfold Protocol.SameChoices
      rw [compileImports_unions h1 hn.2 (by simp [SimpleImportSolver.new]) a ha,
        compileImports_unions h1' hn2 (by simp [SimpleImportSolver.new]) b hb]
      exact .nil
  have hq : List.Forall₂ Protocol.SameChoices qs qs' := by
    obtain ⟨⟨s1, w2⟩, _, h⟩ := Res.bind_eq_ok.1 h
    obtain ⟨⟨s1', w2'⟩, _, h'⟩ := Res.bind_eq_ok.1 h'
    obtain ⟨e1, e2⟩ := compileModels_unions h hn.1
    obtain ⟨e1', e2'⟩ := compileModels_unions h' hn1
    refine forall₂_of_all ?_ fun a ha b hb => ?_
    · rw [e1, e1', hl.models.length_eq]
    · unfold Protocol.SameChoices
      rw [e2 a ha, e2' b hb]
      exact .nil
  obtain ⟨h1, h2⟩ := loader_like hl h h' hi hq
  exact ⟨h1, forall₂_imp h2 fun q q' hq => ⟨hq.name, forall₂_imp hq.messages fun _ _ hm => hm.sameWire,
    forall₂_imp hq.structs fun _ _ hs => hs.sameBits⟩⟩

/-- The declared byte order, limits of the same width and fields that say they are not optional. -/
structure SameButLimits (v v' : Model.Protocol) : Prop where
  name : v'.name = v.name
  imports : v'.imports = v.imports
  enums : v'.enums = v.enums
  structs : v'.structs = v.structs
  unions : v'.unions = v.unions
  messages : List.Forall₂ Model.Message.Like v.messages v'.messages

theorem mfield_limits {v v' : Model.MField} (hv : v.Like v') (q : Protocol) (emb : List Nat) (fs : List MField) :
    MField.fromModel q emb fs v' = MField.fromModel q emb fs v := by
  obtain ⟨n, info, o⟩ := v
  obtain ⟨n', info', o'⟩ := v'
  obtain ⟨hn, hi, ho⟩ := hv
  simp only at hn hi ho
  subst hn
  cases hi with
  | item => simp only [MField.fromModel, ho]
  | list hl => simp only [MField.fromModel, ho, limit_like hl]
  | cstring => simp only [MField.fromModel, ho]
  | string hl => simp only [MField.fromModel, ho, limit_like hl]
  | payload => simp only [MField.fromModel, ho]
  | union => simp only [MField.fromModel]

theorem mfields_limits {vs vs' : List Model.MField} (hv : List.Forall₂ Model.MField.Like vs vs') (q : Protocol)
    (emb : List Nat) (fs : List MField) (n : Nat) (d : Bool) :
    Message.fieldsFromModel q emb fs n d vs' = Message.fieldsFromModel q emb fs n d vs := by
  induction hv generalizing emb fs n d with
  | nil => rfl
  | cons hv _ ih => simp only [Message.fieldsFromModel, mfield_limits hv, ih]

theorem messages_limits {vs vs' : List Model.Message} (hv : List.Forall₂ Model.Message.Like vs vs') (q : Protocol)
    (w : World) : Protocol.addMessages w q vs' = Protocol.addMessages w q vs := by
  induction hv generalizing q w with
  | nil => rfl
  | cons hv _ ih =>
    simp only [Protocol.addMessages, Message.fromModel, mfields_limits hv.fields, hv.name, ih]

theorem fromModel_limits {v v' : Model.Protocol} (hv : SameButLimits v v') (p : Profile) (r : Resolver) (w : World) :
    Protocol.fromModel p r w v' = Protocol.fromModel p r w v := by
  have h0 : Protocol.empty v' = Protocol.empty v := by simp only [Protocol.empty, hv.name]
  simp only [Protocol.fromModel, h0, hv.imports, hv.enums, hv.structs, hv.unions, messages_limits hv.messages]

/-- C107: when only the declared byte order, limits of strings and lists within the same width, and whether a
field says that it is not optional differ, the result of compiling is the same, whether it fails or not. -/
theorem C107_limits {l l' : Loader} (hm : List.Forall₂ SameButLimits l.models l'.models)
    (hi : List.Forall₂ (fun a b => b.1 = a.1 ∧ SameButLimits a.2 b.2) l.importedModels l'.importedModels)
    (p : Profile) (s : SimpleImportSolver) (w : World) : Loader.compile p l' s w = Loader.compile p l s w := by
  have h1 : ∀ s w, Loader.compileImports p s w l'.importedModels = Loader.compileImports p s w l.importedModels := by
    generalize l.importedModels = xs at hi
    generalize l'.importedModels = ys at hi
    induction hi with
    | nil => intro s w; rfl
    | @cons a b xs ys hab _ ih =>
      intro s w
      obtain ⟨pa, va⟩ := a
      obtain ⟨pb, vb⟩ := b
      obtain ⟨e, hv⟩ := hab
      simp only at e hv
      subst e
      simp only [Loader.compileImports, fromModel_limits hv, ih]
  have h2 : ∀ r w, Loader.compileModels p r w l'.models = Loader.compileModels p r w l.models := by
    generalize l.models = xs at hm
    generalize l'.models = ys at hm
    induction hm with
    | nil => intro s w; rfl
    | cons hv _ ih =>
      intro s w
      simp only [Loader.compileModels, fromModel_limits hv, ih]
  simp only [Loader.compile, h1, h2]

theorem sameChoices_of {qs qs' : List Protocol}
    (h : qs'.map (fun q => q.unions.map fun u => (u.discriminant.indexList, u.cases.map UCase.case)) =
      qs.map (fun q => q.unions.map fun u => (u.discriminant.indexList, u.cases.map UCase.case))) :
    List.Forall₂ Protocol.SameChoices qs qs' := by
  induction qs generalizing qs' with
  | nil =>
    obtain rfl : qs' = [] := by simpa using h
    exact .nil
  | cons q qs ih =>
    cases qs' with
    | nil => simp at h
    | cons q' qs' =>
      rw [List.map_cons, List.map_cons, List.cons.injEq] at h
      refine .cons ?_ (ih h.2)
      have h1 := h.1
      unfold Protocol.SameChoices
      generalize q.unions = us at h1
      generalize q'.unions = us' at h1
      induction us generalizing us' with
      | nil =>
        obtain rfl : us' = [] := by simpa using h1
        exact .nil
      | cons u us ih =>
        cases us' with
        | nil => simp at h1
        | cons u' us' =>
          rw [List.map_cons, List.map_cons, List.cons.injEq, Prod.mk.injEq] at h1
          exact .cons ⟨h1.1.1, h1.1.2⟩ (ih _ h1.2)

namespace Ex

/-- A choice between a structure and nothing, after a name. -/
def skeleton : Model.Protocol :=
  { name := ['F']
    structs := [⟨['K'], [⟨['k'], .unsigned 8, none, none⟩, ⟨['l'], .unsigned 24, none, none⟩]⟩,
      ⟨['A'], [⟨['x'], .float 32, none, some 2⟩]⟩]
    unions := [⟨['U'], ['K', '.', 'k'], [⟨['a'], ['1'], some ['A']⟩, ⟨['b'], ['2'], none⟩]⟩]
    messages := [⟨['M'], [⟨['k'], .item ['K'], none⟩, ⟨['s'], .string (some 200), none⟩,
      ⟨['u'], .union ['k'] ['U'], none⟩]⟩] }

/-- With other kinds, names of fields and of cases, limits and byte order. -/
def reskinned : Model.Protocol :=
  { name := ['F'], endianness := some .big
    structs := [⟨['K'], [⟨['w'], .signed 8, none, none⟩, ⟨['v'], .float 24, some (.floatMultiplier 2), none⟩]⟩,
      ⟨['A'], [⟨['y'], .unsigned 32, none, some 2⟩]⟩]
    unions := [⟨['U'], ['K', '.', 'w'], [⟨['c'], ['+', '1'], some ['A']⟩, ⟨['d'], ['0', '2'], none⟩]⟩]
    messages := [⟨['M'], [⟨['k'], .item ['K'], some false⟩, ⟨['s'], .string (some 7), none⟩,
      ⟨['u'], .union ['k'] ['U'], none⟩]⟩] }

theorem reskinned_like : (Loader.mk [skeleton] []).Like ⟨[reskinned], []⟩ := by
  refine ⟨.cons ⟨rfl, rfl, rfl, .cons ⟨rfl, .cons ⟨rfl, rfl, fun _ => rfl⟩
    (.cons ⟨rfl, rfl, by decide⟩ .nil), ?_⟩ (.cons ⟨rfl, .cons ⟨rfl, rfl, fun _ => rfl⟩ .nil, ?_⟩ .nil), .cons ⟨rfl, by decide, rfl⟩ .nil,
    .cons ⟨rfl, .cons ⟨rfl, .item, rfl⟩ (.cons ⟨rfl, .string (by decide), rfl⟩ (.cons ⟨rfl, .union, rfl⟩ .nil))⟩ .nil⟩
    .nil, .nil⟩
  · rintro f f' h -
    cases h
  · rintro f f' h h'
    cases h
    cases h'
    exact ⟨rfl, fun _ => rfl⟩

/-- A structure of one field of three bytes, a number in a message. -/
def oneNumber : Model.Protocol :=
  { name := ['F'], structs := [⟨['K'], [⟨['k'], .unsigned 24, none, none⟩]⟩]
    messages := [⟨['M'], [⟨['k'], .item ['K'], none⟩]⟩] }

/-- The same as a scaled float, which stays a structure in the message. -/
def oneViewed : Model.Protocol :=
  { name := ['F'], structs := [⟨['K'], [⟨['k'], .float 24, some (.floatMultiplier 2), none⟩]⟩]
    messages := [⟨['M'], [⟨['k'], .item ['K'], none⟩]⟩] }

end Ex

/-- The two descriptions have the same wire. -/
example : List.Forall₂ (fun q q' => q'.name = q.name ∧ List.Forall₂ Message.SameWire q.messages q'.messages)
    (Ex.compiled Ex.skeleton []).1 (Ex.compiled Ex.reskinned []).1 := by
  refine (C107_messages Ex.reskinned_like (p := .checked) (sep := "::".toList) (w := ⟨0, []⟩)
    (w1 := (Ex.compiled Ex.skeleton []).2) (w1' := (Ex.compiled Ex.reskinned []).2) ?_ ?_ ?_ ?_).2
  · krfl
  · krfl
  · intro s s' w1 w1' h h'
    obtain ⟨rfl, rfl⟩ := Prod.mk.inj (Res.ok.inj h)
    obtain ⟨rfl, rfl⟩ := Prod.mk.inj (Res.ok.inj h')
    exact .nil
  · exact sameChoices_of (by krfl)

example : List.Forall₂ (fun q q' => q'.name = q.name ∧ List.Forall₂ Structure.SameBits q.structs q'.structs)
    (Ex.compiled Ex.skeleton []).1 (Ex.compiled Ex.reskinned []).1 := by
  refine C107_structures Ex.reskinned_like (p := .checked) (sep := "::".toList) (w := ⟨0, []⟩)
    (w1 := (Ex.compiled Ex.skeleton []).2) (w1' := (Ex.compiled Ex.reskinned []).2) ?_ ?_ ?_ ?_
  · krfl
  · krfl
  · intro s s' w1 w1' h h'
    obtain ⟨rfl, rfl⟩ := Prod.mk.inj (Res.ok.inj h)
    obtain ⟨rfl, rfl⟩ := Prod.mk.inj (Res.ok.inj h')
    exact .nil
  · exact sameChoices_of (by krfl)

/-- Making the only field of a structure a scaled one changes the encoding: what was three bytes and a padding
byte is three bytes. -/
example : (match (Ex.theM Ex.oneNumber []).parse ⟨.checked, fun _ => false⟩ [1, 2, 3, 4] with
      | .ok m => m.size
      | _ => 0) = 4 ∧
    (match (Ex.theM Ex.oneViewed []).parse ⟨.checked, fun _ => false⟩ [1, 2, 3, 4] with
      | .ok m => m.size
      | _ => 0) = 3 := by
  constructor <;> krfl

example (p : Profile) (s : SimpleImportSolver) (w : World) :
    Loader.compile p ⟨[{ Ex.skeleton with endianness := some .big }], []⟩ s w =
      Loader.compile p ⟨[Ex.skeleton], []⟩ s w :=
  C107_limits (.cons ⟨rfl, rfl, rfl, rfl, rfl, .cons ⟨rfl, .cons ⟨rfl, .item, rfl⟩
    (.cons ⟨rfl, .string rfl, rfl⟩ (.cons ⟨rfl, .union, rfl⟩ .nil))⟩ .nil⟩ .nil) .nil p s w

/-- A number of two bytes and its signed counterpart. -/
example : ∃ qs qs' w, Loader.compile .checked ⟨[{ Ex.oneNumber with
        structs := [⟨['K'], [⟨['k'], .unsigned 16, none, none⟩]⟩] }], []⟩ SimpleImportSolver.default ⟨0, []⟩ =
      .ok (qs, w) ∧
    Loader.compile .checked ⟨[{ Ex.oneNumber with
        structs := [⟨['K'], [⟨['n'], .signed 16, none, none⟩]⟩] }], []⟩ SimpleImportSolver.default ⟨0, []⟩ =
      .ok (qs', w) ∧
    List.Forall₂ (fun q q' => q'.name = q.name ∧ List.Forall₂ Message.SameWire q.messages q'.messages ∧
      List.Forall₂ Structure.SameBits q.structs q'.structs) qs qs' := by
  obtain ⟨⟨qs, w⟩, h⟩ : ∃ r, Loader.compile .checked ⟨[{ Ex.oneNumber with
      structs := [⟨['K'], [⟨['k'], .unsigned 16, none, none⟩]⟩] }], []⟩ SimpleImportSolver.default ⟨0, []⟩ =
    .ok r := ⟨_, rfl⟩
  obtain ⟨⟨qs', w'⟩, h'⟩ : ∃ r, Loader.compile .checked ⟨[{ Ex.oneNumber with
      structs := [⟨['K'], [⟨['n'], .signed 16, none, none⟩]⟩] }], []⟩ SimpleImportSolver.default ⟨0, []⟩ =
    .ok r := ⟨_, rfl⟩
  obtain ⟨rfl, hq⟩ := C107_without_unions ⟨.cons ⟨rfl, rfl, rfl, .cons ⟨rfl, .cons ⟨rfl, rfl, fun _ => rfl⟩ .nil, by
    rintro f f' e e'
    cases e
    cases e'
    exact ⟨rfl, fun _ => rfl⟩⟩ .nil, .nil, .cons ⟨rfl, .cons ⟨rfl, .item, rfl⟩ .nil⟩ .nil⟩ .nil, .nil⟩
    ⟨by simp [Ex.oneNumber], by simp⟩ h h'
  exact ⟨qs, qs', w', h, h', hq⟩

end Props

end Proto
