import Verif.Gen.Message

/-!
# Replacing a part of an encoded message
-/

namespace Proto.Spec

/-- The bytes from `lo` to `hi` replaced by `x`. -/
def patch (b : Bytes) (lo hi : Nat) (x : Bytes) : Bytes := b.take lo ++ x ++ b.drop hi

/-- Following the offsets `o` of a value `v` of the message `m` leads to field number `i` of the message
`m'`, whose fields have the values `vs`; in the bytes of `m` the field begins at `lo` and ends at `hi`;
`put w` is `v` with `w` in the place of the field.  The offsets of a referenced message count from its
own beginning, which is one byte after that of the field when the field is optional. -/
inductive Leads : Message → Value → Offsets → Nat → Nat → Message → Env → Nat → (Value → Value) → Prop where
  | here {m : Message} {vs : Env} {offs : OffEnv} {i : Nat} {nm : Name} {r : FieldOffset} {o : Offsets} :
      offs[i]? = some (nm, r, o) →
      Leads m (.msg vs) (.msg offs) r.start r.stop m vs i fun w => .msg (vs.set i (nm, w))
  | inside {m m₁ m' : Message} {vs vs' : Env} {offs : OffEnv} {i j lo hi : Nat} {nm : Name} {r : FieldOffset}
      {o : Offsets} {v : Value} {put : Value → Value} {sz : SizeInfo} {e : Endian} :
      m.fields[i]? = some (.mk nm (.ref (.message m₁)) false sz e) → vs[i]? = some (nm, v) →
      offs[i]? = some (nm, r, o) → Leads m₁ v o lo hi m' vs' j put →
      Leads m (.msg vs) (.msg offs) (r.start + lo) (r.start + hi) m' vs' j fun w => .msg (vs.set i (nm, put w))
  | present {m m₁ m' : Message} {vs vs' : Env} {offs : OffEnv} {i j lo hi : Nat} {nm : Name} {r : FieldOffset}
      {o : Offsets} {v : Value} {put : Value → Value} {sz : SizeInfo} {e : Endian} :
      m.fields[i]? = some (.mk nm (.ref (.message m₁)) true sz e) → vs[i]? = some (nm, .some v) →
      offs[i]? = some (nm, r, .present o) → Leads m₁ v o lo hi m' vs' j put →
      Leads m (.msg vs) (.msg offs) (r.start + 1 + lo) (r.start + 1 + hi) m' vs' j
        fun w => .msg (vs.set i (nm, .some (put w)))

/-- The unions among the fields that are keyed by the field `nm` read the same key from `w` as from
`v`. -/
def SameKey (p : Profile) (fs : List MField) (nm : Name) (v w : Value) : Prop :=
  ∀ f ∈ fs, ∀ u i, f.ty = .union u nm i →
    u.discriminant.read p [(nm, w)] nm = u.discriminant.read p [(nm, v)] nm

end Proto.Spec
