import Verif.Spec.Message

/-!
# The language of a message

Which bytes a decoder should take for which value, as a grammar: concatenation of the parts, without
reference to decoding or encoding.  Unlike `Message.wire` it allows every flag byte a decoder takes for
"present", at any depth, also inside the items of lists.
-/

namespace Proto

mutual
/-- A structure is any byte string of its size. -/
def Referenced.Enc (c : Ctx) : Referenced → Value → Bytes → Prop
  | .struct s, v, w => v = .struct w ∧ w.length = s.byteSize
  | .message m, v, w => m.Enc c v w

/-- `w` is a form of the value `v` of the field type; `env` holds the fields before this one, `emb`
tells if the message is flagged embedded. -/
def MFieldTy.Enc (c : Ctx) (emb : Bool) (e : Endian) : MFieldTy → Env → Value → Bytes → Prop
  | .fixed ty, _, v, w => ∃ n, v = .num n ∧ n < 256 ^ ty.byteSize ∧ w = wireInt e ty.byteSize n
  | .ref r, _, v, w => r.Enc c v w
  | .nullTerminatedString, _, v, w => ∃ s, v = .str s ∧ IsUtf8 s ∧ 0 ∉ s ∧ w = s ++ [0]
  | .varcharString ty, _, v, w =>
    ∃ s, v = .str s ∧ IsUtf8 s ∧ s.length < 256 ^ ty.byteSize ∧ w = wireInt e ty.byteSize s.length ++ s
  | .array ty s, _, v, w =>
    ∃ n d, v = .seq ⟨d, n⟩ ∧ n < 256 ^ ty.byteSize ∧ d.length = n * s.byteSize ∧
      w = wireInt e ty.byteSize n ++ d
  | .union u on _, env, v, w => u.Enc c env on v w
  | .list ty m, _, v, w =>
    ∃ n d, v = .seq ⟨d, n⟩ ∧ n < 256 ^ ty.byteSize ∧ w = wireInt e ty.byteSize n ++ d ∧
      (emb = true → ∃ items : List Bytes, items.length = n ∧ d = items.flatten ∧
        ∀ x ∈ items, ∃ y, m.Enc c y x)
  | .payload, _, v, w => v = .buf w

/-- Case number `i` is the first one whose declared value is `d`, and `w` is a form of its content
`x`. -/
def UCase.EncCase (c : Ctx) : List UCase → Nat → Nat → Value → Bytes → Prop
  | [], _, _, _, _ => False
  | .mk _ case none :: cs, i, d, x, w =>
    if i = 0 then d = case ∧ x = .unit ∧ w = [] else d ≠ case ∧ UCase.EncCase c cs (i - 1) d x w
  | .mk _ case (some r) :: cs, i, d, x, w =>
    if i = 0 then d = case ∧ r.Enc c x w else d ≠ case ∧ UCase.EncCase c cs (i - 1) d x w

/-- The union value is of the case the key structure in `env` announces. -/
def Union.Enc (c : Ctx) : Union → Env → Name → Value → Bytes → Prop
  | .mk _ disc cases _, env, on, v, w =>
    ∃ i x d, v = .union i x ∧ disc.read c.p env on = .ok d ∧ UCase.EncCase c cases i d x w

/-- An optional field is a zero byte, or any other byte and a form of its value. -/
def MField.Enc (c : Ctx) (emb : Bool) : MField → Env → Value → Bytes → Prop
  | .mk _ ty optional _ e, env, v, w =>
    if optional then
      (v = .none ∧ w = [0]) ∨
        ∃ x flag w', v = .some x ∧ flag ≠ 0 ∧ w = flag :: w' ∧ ty.Enc c emb e env x w'
    else ty.Enc c emb e env v w

/-- The fields one after the other, each in the environment of the previous ones. -/
def MField.ListEnc (c : Ctx) (emb : Bool) : List MField → Env → Env → Bytes → Prop
  | [], _, vs, w => vs = [] ∧ w = []
  | f :: fs, env, vs, w =>
    ∃ v rest w1 w2, vs = (f.name, v) :: rest ∧ w = w1 ++ w2 ∧ f.Enc c emb env v w1 ∧
      MField.ListEnc c emb fs (env ++ [(f.name, v)]) rest w2

/-- `w` is a form of the message value `v`. -/
def Message.Enc (c : Ctx) : Message → Value → Bytes → Prop
  | .mk id _ fields _, v, w => ∃ vs, v = .msg vs ∧ MField.ListEnc c (c.emb id) fields [] vs w
end

end Proto
