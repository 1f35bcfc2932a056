import Verif.Runtime.Message

/-!
# Output through `std::io::Write::write`

`runtime/src/message/interface.rs` 96 takes any `W: std::io::Write`; the encoders call its `write_all`, which the
standard library defines by the method `write` that every implementation has.  `Runtime/Message.lean` starts from
`write_all`; here it is the loop of the standard library.
-/

namespace Proto

/-- What one call of `write` answers.  Rust (std), not in `/repo`; `runtime/src/message/util/size.rs` 36 has an
implementation. -/
inductive Written where
  /-- `Ok(n)` -/
  | wrote (n : Nat)
  /-- `Err` of kind `Interrupted` -/
  | interrupted
  /-- any other `Err` -/
  | failed
  /-- a panic -/
  | panic
deriving DecidableEq, Repr

/-- An implementation of `std::io::Write` that has the `write_all` of the standard library.  The parameter `W` of
`runtime/src/message/interface.rs` 96. -/
structure Writer (σ : Type) where
  write : Bytes → σ → Written × σ

/-- `write_all` of the standard library: `write` is called with what is left until nothing is left; a call that
takes nothing is an error, an interrupted one is repeated, a count beyond the length slices out of range.  `fuel`
bounds the number of calls of `write`; `none` means that more are needed.  Rust (std), not in `/repo`; called in
`runtime/src/message/util/common.rs` 79, 81, 154 and others. -/
def Writer.writeAll (W : Writer σ) : Nat → Bytes → σ → Option (R Unit × σ)
  | _, [], s => some (.ok (), s)
  | 0, _ :: _, _ => none
  | fuel + 1, b :: bs, s =>
    match W.write (b :: bs) s with
    | (.wrote n, s) =>
      if n = 0 then some (.err .io, s)
      else if n ≤ (b :: bs).length then W.writeAll fuel ((b :: bs).drop n) s
      else some (.panic, s)
    | (.interrupted, s) => W.writeAll fuel (b :: bs) s
    | (.failed, s) => some (.err .io, s)
    | (.panic, s) => some (.panic, s)

/-- Passing chunks to `write_all` until one fails; then `r`.  Each call may take `fuel` calls of `write`.
Rust, not in `/repo`. -/
def Writer.runChunks (W : Writer σ) (fuel : Nat) (r : R Unit) : List Bytes → σ → Option (R Unit × σ)
  | [], s => some (r, s)
  | c :: cs, s =>
    match W.writeAll fuel c s with
    | some (.ok (), s) => W.runChunks fuel r cs s
    | x => x

/-- Running an encoder on such an implementation.  `runtime/src/message/interface.rs` 96. -/
def Out.runOn (o : Out) (W : Writer σ) (fuel : Nat) (s : σ) : Option (R Unit × σ) :=
  W.runChunks fuel o.res o.chunks s

/-- `impl Write for Counter` (`runtime/src/message/util/size.rs` 35-44). -/
def Writer.counter (p : Profile) : Writer Nat :=
  ⟨fun b n =>
    match (addU p usizeBits n b.length : R Nat) with
    | .ok n => (.wrote b.length, n)
    | _ => (.panic, n)⟩

/-- Storage of fixed size behind a `&mut [u8]`: what has been written and what the slice still covers.
Rust (std); a buffer `B` of `runtime/src/message/util/list_base.rs` 60. -/
structure Fixed where
  filled : Bytes
  rest : Bytes
deriving DecidableEq, Repr

/-- `write` of `impl Write for &mut [u8]` (std): copies what fits to the front and moves the slice behind it.
`runtime/src/message/util/list_base.rs` 62. -/
def Writer.fixed : Writer Fixed :=
  ⟨fun b s =>
    (.wrote (min b.length s.rest.length),
      ⟨s.filled ++ b.take (min b.length s.rest.length), s.rest.drop (min b.length s.rest.length)⟩)⟩

/-- `write_all` of `impl Write for &mut [u8]` (std): one `write`, and an error if not everything was taken.
`runtime/src/message/util/list_base.rs` 62. -/
def Sink.fixed : Sink Fixed :=
  ⟨fun b s =>
    match Writer.fixed.write b s with
    | (.wrote n, s) => if n < b.length then (.err .io, s) else (.ok (), s)
    | (_, s) => (.err .io, s)⟩

/-- The list or array a builder in a fixed slice is afterwards: `as_ref` of a `&mut [u8]` is what the slice
covers now.  `runtime/src/message/util/list_base.rs` 55, 77 (`write_to`, `to_ref`). -/
def Seq.inFixed (l : Seq Fixed) : Seq Bytes := ⟨l.data.rest, l.len⟩

end Proto
