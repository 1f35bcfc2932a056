import Verif.Runtime.Message

/-!
# Specification of wire formats

Laws a decoder may satisfy, stated without reference to how it works.
-/

namespace Proto

/-- The bytes of an unsigned integer of `sz` bytes: least significant first, or most significant
first. -/
def wireInt (e : Endian) (sz v : Nat) : Bytes :=
  match e with
  | .little => natLe sz v
  | .big => natBe sz v

/-- The integer written as the given bytes. -/
def intOfWire (e : Endian) (b : Bytes) : Nat :=
  match e with
  | .little => leNat b
  | .big => beNat b

/-- The byte string is the UTF-8 encoding of a sequence of Unicode scalar values. -/
def IsUtf8 (b : Bytes) : Prop := ∃ cs : List Char, b = cs.flatMap String.utf8EncodeChar

namespace Parser

/-- The reported size never exceeds the input, and bytes beyond it may be removed. -/
def Cut (f : Parser α) : Prop :=
  ∀ b n v, f b = .ok ⟨n, v⟩ → n ≤ b.length ∧ ∀ k, n ≤ k → f (b.take k) = .ok ⟨n, v⟩

/-- A decoder that stopped before the end of its input does not depend on what follows. -/
def Insensitive (f : Parser α) : Prop :=
  ∀ b n v, f b = .ok ⟨n, v⟩ → n < b.length → ∀ t, f (b.take n ++ t) = .ok ⟨n, v⟩

/-- Self-delimiting: an accepted input may be extended by anything. -/
def Delimits (f : Parser α) : Prop :=
  ∀ b n v, f b = .ok ⟨n, v⟩ → ∀ t, f (b ++ t) = .ok ⟨n, v⟩

/-- Cutting an accepted input below the reported size gives a truncation error (or, if `pan` holds,
possibly a panic). -/
def Truncates (pan : Prop) (f : Parser α) : Prop :=
  ∀ b n v, f b = .ok ⟨n, v⟩ → ∀ k, k < n →
    f (b.take k) = .err .truncated ∨ (pan ∧ f (b.take k) = .panic)

/-- No input makes the decoder panic. -/
def Total (f : Parser α) : Prop := ∀ b, f b ≠ .panic

/-- `data` is the concatenation of exactly `n` blocks, each of which the decoder accepts in full
whatever follows; `vs` are the decoded items. -/
inductive Blocks (f : Parser α) : List α → Bytes → Prop where
  | nil : Blocks f [] []
  | cons {v : α} {vs : List α} {b d : Bytes} :
      (∀ t, f (b ++ t) = .ok ⟨b.length, v⟩) → Blocks f vs d → Blocks f (v :: vs) (b ++ d)

end Parser

end Proto
