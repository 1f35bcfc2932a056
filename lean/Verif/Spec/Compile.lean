import Verif.Compiler.Protocol
import Verif.Spec.Message

/-!
# Vocabulary for the compiler of messages, unions and protocols
-/

namespace Proto

/-- What a compiled message field must be, given the declaration `v`, the names known to the protocol
and the fields before it: name, byte order, optional flag, type and size flags. -/
def FieldOf (proto : Protocol) (before : List MField) (v : Model.MField) (f : MField) : Prop :=
  f.name = v.name ∧ f.endian = proto.endianness ∧
  match v.info with
  | .item t => f.optional = v.optional.getD false ∧
      ((∃ s ty, proto.structsByName.lookup t = some s ∧ s.asScalar = some ty ∧ f.ty = .fixed ty ∧
          f.size = ⟨false, false⟩) ∨
       (∃ s, proto.structsByName.lookup t = some s ∧ s.asScalar = none ∧ f.ty = .ref (.struct s) ∧
          f.size = ⟨false, false⟩) ∨
       (proto.structsByName.lookup t = none ∧
          ∃ m, proto.messagesByName.lookup t = some m ∧ f.ty = .ref (.message m) ∧ f.size = m.size))
  | .list maxLen t => f.optional = v.optional.getD false ∧
      ∃ ty, FixedTy.fromMaxValue maxLen = .ok ty ∧
      ((∃ s, proto.structsByName.lookup t = some s ∧ f.ty = .array ty s ∧ f.size = ⟨true, false⟩) ∨
       (proto.structsByName.lookup t = none ∧
          ∃ m, proto.messagesByName.lookup t = some m ∧ f.ty = .list ty m ∧ f.size = ⟨true, true⟩))
  | .string none => f.optional = v.optional.getD false ∧ f.ty = .nullTerminatedString ∧
      f.size = ⟨true, false⟩
  | .string (some maxLen) => f.optional = v.optional.getD false ∧
      ∃ ty, FixedTy.fromMaxValue maxLen = .ok ty ∧ f.ty = .varcharString ty ∧ f.size = ⟨true, false⟩
  | .union on t => f.optional = false ∧
      ∃ u i g s, proto.unionsByName.lookup t = some u ∧ before.findIdx? (fun g => g.name == on) = some i ∧
        before[i]? = some g ∧ g.ty = .ref (.struct s) ∧ u.discriminant.root.id = s.id ∧
        f.ty = .union u on i ∧ f.size = u.size
  | .payload => f.optional = v.optional.getD false ∧ f.ty = .payload ∧ f.size = ⟨true, true⟩

/-- The message whose items a list field holds. -/
def MField.listItem? (f : MField) : Option Message :=
  match f.ty with
  | .list _ m => some m
  | _ => none

/-- The declared fields compile, in order, each one seeing the ones before it. -/
inductive Fields (proto : Protocol) : List Nat → List MField → List Model.MField → List MField →
    List Nat → Prop where
  | nil {emb : List Nat} {before : List MField} : Fields proto emb before [] [] emb
  | cons {emb emb1 emb2 : List Nat} {before fs : List MField} {v : Model.MField} {vs : List Model.MField}
      {f : MField} : MField.fromModel proto emb before v = .ok (f, emb1) →
      Fields proto emb1 (before ++ [f]) vs fs emb2 → Fields proto emb before (v :: vs) (f :: fs) emb2

/-- Nothing of variable size follows an element-dynamic field. -/
def Legal (fs : List MField) : Prop :=
  ∀ pre f post, fs = pre ++ f :: post → f.size.isElementDynSized = true →
    ∀ g ∈ post, g.size.isDynSized = false ∧ g.size.isElementDynSized = false

/-- The size flags of a field are those of its type: strings and arrays are dynamically sized, lists
and payloads also element-dynamic, references and unions as their target. -/
def MField.Flagged (f : MField) : Prop :=
  match f.ty with
  | .fixed _ => f.size = ⟨false, false⟩
  | .ref r => f.size = r.size
  | .nullTerminatedString => f.size = ⟨true, false⟩
  | .varcharString _ => f.size = ⟨true, false⟩
  | .array _ _ => f.size = ⟨true, false⟩
  | .list _ _ => f.size = ⟨true, true⟩
  | .payload => f.size = ⟨true, true⟩
  | .union u _ _ => f.size = u.size ∧ ∀ k ∈ u.cases, ∀ r, k.itemType = some r →
      (r.size.isDynSized = true → u.size.isDynSized = true) ∧
      (r.size.isElementDynSized = true → u.size.isElementDynSized = true)

/-- The message's flags say whether some field has them, and the fields' flags are right. -/
def Message.Flagged (m : Message) : Prop :=
  m.size = ⟨m.fields.any (fun f => f.size.isDynSized), m.fields.any (fun f => f.size.isElementDynSized)⟩ ∧
    ∀ f ∈ m.fields, f.Flagged

/-- The field is not a union. -/
def MField.notUnion (f : MField) : Bool :=
  match f.ty with
  | .union _ _ _ => false
  | _ => true

mutual
/-- Wire size of a reference of constant size. -/
def Referenced.constSize : Referenced → Nat
  | .struct s => s.byteSize
  | .message m => m.constSize

/-- Wire size of a field type of constant size. -/
def MFieldTy.constSize : MFieldTy → Nat
  | .fixed ty => ty.byteSize
  | .ref r => r.constSize
  | _ => 0

/-- Sum of the wire sizes. -/
def MField.listConstSize : List MField → Nat
  | [] => 0
  | .mk _ ty _ _ _ :: fs => ty.constSize + MField.listConstSize fs

/-- Wire size of a message made of numbers, structures and such messages. -/
def Message.constSize : Message → Nat
  | .mk _ _ fields _ => MField.listConstSize fields
end

end Proto

namespace Proto

/-- Every type a protocol knows or declares satisfies the predicate of its kind. -/
structure Protocol.Types (S : Structure → Prop) (U : Union → Prop) (M : Message → Prop)
    (proto : Protocol) : Prop where
  structsByName : ∀ x ∈ proto.structsByName, S x.2
  unionsByName : ∀ x ∈ proto.unionsByName, U x.2
  messagesByName : ∀ x ∈ proto.messagesByName, M x.2
  structs : ∀ s ∈ proto.structs, S s
  unions : ∀ u ∈ proto.unions, U u
  messages : ∀ m ∈ proto.messages, M m
  little : proto.endianness = .little

/-- Every protocol the resolver provides has such types. -/
def Resolver.Types (S : Structure → Prop) (U : Union → Prop) (M : Message → Prop) (r : Resolver) : Prop :=
  ∀ n proto, r.protocolByName n = some proto → proto.Types S U M

/-- Every registered protocol has such types. -/
def SimpleImportSolver.Types (S : Structure → Prop) (U : Union → Prop) (M : Message → Prop)
    (s : SimpleImportSolver) : Prop := ∀ x ∈ s.importMap, x.2.2.Types S U M

/-- Union flags cover the flags of the contents. -/
def Union.Flagged (u : Union) : Prop :=
  ∀ k ∈ u.cases, ∀ r, k.itemType = some r →
    (r.size.isDynSized = true → u.size.isDynSized = true) ∧
    (r.size.isElementDynSized = true → u.size.isElementDynSized = true)

/-- Every union field is keyed on the first earlier field of the name it gives, and that field holds
the very structure the discriminant path starts from. -/
def Message.Linked (m : Message) : Prop :=
  ∀ before f after, m.fields = before ++ f :: after → ∀ u on i, f.ty = .union u on i →
    ∃ g, before.find? (fun g => g.name == on) = some g ∧ before[i]? = some g ∧
      g.ty = .ref (.struct u.discriminant.root)

/-- The structures a union refers to directly: the key and the contents. -/
def Union.Structs (good : Structure → Prop) (u : Union) : Prop :=
  good u.discriminant.root ∧ ∀ k ∈ u.cases, ∀ s, k.itemType = some (.struct s) → good s

/-- The structures a field type refers to directly. -/
def MFieldTy.Structs (good : Structure → Prop) : MFieldTy → Prop
  | .ref (.struct s) => good s
  | .array _ s => good s
  | .union u _ _ => u.Structs good
  | _ => True

/-- What the compiler guarantees of every message, when it guarantees `good` of every structure. -/
structure Message.Accepted (good : Structure → Prop) (m : Message) : Prop where
  flagged : m.Flagged
  legal : Legal m.fields
  linked : m.Linked
  little : ∀ f ∈ m.fields, f.endian = .little
  structs : ∀ f ∈ m.fields, f.ty.Structs good

end Proto

namespace Proto

/-- From `s`, the names lead through nested structures (each the first field of its name) to the
fixed-width field `f` of the structure `leaf`; `is` are the positions met.  Names after the field are
not looked at. -/
inductive Leads : Structure → List Name → Structure → FixedField → List Nat → Prop where
  | here {s : Structure} {n : Name} {rest : List Name} {i : Nat} {f : FixedField} :
      s.fields.findIdx? (fun f => f.name == n) = some i → s.fields[i]? = some (.fixed f) →
      Leads s (n :: rest) s f [i]
  | down {s r leaf : Structure} {n m : Name} {rest : List Name} {loc : Loc} {i : Nat} {f : FixedField}
      {is : List Nat} :
      s.fields.findIdx? (fun f => f.name == n) = some i → s.fields[i]? = some (.struct m r loc) →
      Leads r rest leaf f is → Leads s (n :: rest) leaf f (i :: is)

/-- From `s`, the names lead through nested structures and stop on the structure `leaf`. -/
inductive Stops : Structure → List Name → Structure → List Nat → Prop where
  | here {s : Structure} : Stops s [] s []
  | down {s r leaf : Structure} {n m : Name} {rest : List Name} {loc : Loc} {i : Nat} {is : List Nat} :
      s.fields.findIdx? (fun f => f.name == n) = some i → s.fields[i]? = some (.struct m r loc) →
      Stops r rest leaf is → Stops s (n :: rest) leaf (i :: is)

/-- The character of a decimal digit. -/
def digitChar (d : Fin 10) : Char := Char.ofNat ('0'.toNat + d.val)

/-- The number written by decimal digits. -/
def decimal (ds : List (Fin 10)) : Nat := ds.foldl (fun a d => 10 * a + d.val) 0

/-- The declarations of one kind in scope: the latest first, then those of the enclosing scope. -/
def scope {α : Type} (name : α → Name) (decls : List α) (outer : List (Name × α)) : List (Name × α) :=
  decls.reverse.map (fun x => (name x, x)) ++ outer

mutual
/-- The field, and every field nested in it, is in the given byte order. -/
def SField.Ordered (e : Endian) : SField → Prop
  | .fixed f => f.endian = e
  | .array f => f.endian = e
  | .struct _ r _ => r.Ordered e

/-- Every field of the list is in the given byte order, at any depth. -/
def SField.ListOrdered (e : Endian) : List SField → Prop
  | [] => True
  | f :: fs => f.Ordered e ∧ SField.ListOrdered e fs

/-- Every field of the structure is in the given byte order, at any depth. -/
def Structure.Ordered (e : Endian) : Structure → Prop
  | .mk _ _ fields _ _ => SField.ListOrdered e fields
end

/-- Every field of every structure, union and message the protocol declares is in the given byte
order, at any depth. -/
def Protocol.Ordered (e : Endian) (proto : Protocol) : Prop :=
  (∀ s ∈ proto.structs, s.Ordered e) ∧
  (∀ u ∈ proto.unions, u.Structs (Structure.Ordered e)) ∧
  ∀ m ∈ proto.messages, m.AllMessages fun m =>
    ∀ f ∈ m.fields, f.endian = e ∧ f.ty.Structs (Structure.Ordered e)

/-- Width in bits a declared field asks for, given the sizes of the structures in scope. -/
def declBits (sizes : List (Name × Nat)) (v : Model.SField) : Nat :=
  match v.info with
  | .struct t => (sizes.lookup t).getD 0
  | .signed b => b * v.arrayLen.getD 1
  | .unsigned b => b * v.arrayLen.getD 1
  | .float b => b * v.arrayLen.getD 1
  | .boolean b => b * v.arrayLen.getD 1

/-- Every declared structure has less than `2^64` bits, given the sizes of those in scope. -/
def DeclFits : List (Name × Nat) → List Model.Structure → Prop
  | _, [] => True
  | sizes, v :: vs =>
    (v.fields.map (declBits sizes)).sum < 2 ^ 64 ∧
      DeclFits ((v.name, (v.fields.map (declBits sizes)).sum) :: sizes) vs

/-- The widths for which view parameters are computed without overflow: a signed field without view
has 1 to 64 bits, a float field with a range view less than 64. -/
def NoShift (v : Model.SField) : Prop :=
  (∀ n, v.info = .signed n → v.view = none → 1 ≤ n ∧ n ≤ 64) ∧
  ∀ n lo hi, v.info = .float n → v.view = some (.floatRange lo hi) → n < 64

/-- A view the declared type can have: a known enum on an unsigned field, a range or a multiplier on a
float, and none except on floats that are not 32 or 64 bits wide. -/
def ViewFits (enums : List (Name × Enum)) (v : Model.SField) : Prop :=
  match v.view, v.info with
  | some (.enum n), .unsigned _ => ∃ e, enums.lookup n = some e
  | some (.floatRange _ _), .float _ => True
  | some (.floatMultiplier _), .float _ => True
  | none, .float n => n = 32 ∨ n = 64
  | none, .unsigned _ => True
  | none, .signed _ => True
  | none, .boolean _ => True
  | _, _ => False

/-- A width for which there is an element type. -/
def WidthSupported : Model.FieldTy → Prop
  | .boolean _ => True
  | .unsigned n => 1 ≤ n ∧ n ≤ 64
  | .signed n => 1 ≤ n ∧ n ≤ 64
  | .float n => 1 ≤ n ∧ n ≤ 64
  | .struct _ => False

/-- With overflow checks, the declared field at bit `last` overflows before anything else is wrong with
it: the parameters of its view, its width, or its end. -/
def FieldOverflows (structs : List (Name × Structure)) (enums : List (Name × Enum)) (last : Nat)
    (v : Model.SField) : Prop :=
  ¬ NoShift v ∨
  match v.info with
  | .struct t => ∃ r, structs.lookup t = some r ∧ 2 ^ 64 ≤ last + r.bitSize
  | _ => ViewFits enums v ∧ (2 ^ 64 ≤ declWidth structs v ∨
      WidthSupported v.info ∧ (1 < v.arrayLen.getD 1 → declWidth structs v % 8 = 0) ∧
        2 ^ 64 ≤ last + declWidth structs v)

end Proto
