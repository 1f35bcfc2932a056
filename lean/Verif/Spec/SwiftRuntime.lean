import Verif.Swift.Lemmas
import Verif.Runtime.SeqLemmas

/-!
# Agreement between the two runtimes

Reading is compared outcome by outcome: the same value and the same number of bytes, or the same
failure.
-/

namespace Proto.Sw

open Proto

/-- The Rust and the Swift outcome are the same: equal results, errors of the same kind, or both
stop the program.  (Reading never fails with the Rust error `Io`.) -/
inductive Same : R α → S α → Prop where
  | ok (a : α) : Same (.ok a) (.ok a)
  | truncated : Same (.err .truncated) (.err .truncated)
  | utf8 : Same (.err .invalidUtf8) (.err .invalidUTF8)
  | discriminant (n : Nat) :
      Same (.err (.invalidUnionDiscriminant n)) (.err .invalidUnionDiscriminant)
  | panic : Same .panic .panic

theorem Same.of_ok {a : α} {s : S α} (h : Same (.ok a) s) : s = .ok a := by cases h; rfl

theorem Same.of_truncated {s : S α} (h : Same (.err .truncated) s) : s = .err .truncated := by
  cases h; rfl

theorem Same.of_panic {s : S α} (h : Same .panic s) : s = .panic := by cases h; rfl

/-- Two decoders agree on every buffer. -/
def Agree (rust : Parser α) (swift : FromSlice α) : Prop :=
  ∀ v : View, v.WF → Same (rust v.bytes) (swift v)

/-- The bytes written by a series of calls. -/
def written (ops : List Op) : Bytes := ops.flatMap Op.data

/-- A buffer of a program with heap `h`: it refers to an existing object and its positions lie
within it. -/
structure Valid (h : Heap) (b : DataBuffer) : Prop where
  object : ∀ r, b.dataMut = some r → r < h.length
  lower : b.start ≤ b.cursor
  upper : b.cursor ≤ (b.get h).length

end Proto.Sw
