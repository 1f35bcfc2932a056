import Verif.Lang.Syntax
import Verif.Gen.Message

/-!
# The part of Rust the generated message and union code is written in: meaning

A program runs with local variables, newest first.  Running an expression passes chunks to the writer
`out` and ends with a value, by returning from the function, or in a panic.  A program that the Rust
compiler rejects (unknown variable, method or path, operand of the wrong type) is *stuck*; being stuck
is not being a panic.

Calling an associated function of a type of the runtime library does what `Runtime/Message.lean` says;
calling one of a generated type, found by its path, does what `Gen/Message.lean` says for it.
-/

namespace Proto.Rs

/-- What a path of the generated modules names.  Rust, not in `/repo`; needed for
`gen/rust/message.from_slice.template`, `gen/rust/message.write.template`,
`gen/rust/message.offsets.template` and `gen/rust/union.template`. -/
inductive Item where
  | struct (s : Structure)
  | message (m : Message)
  | union (u : Union)

/-- Values.  Rust, not in `/repo`; needed for `gen/rust/message.from_slice.template`,
`gen/rust/message.write.template`, `gen/rust/message.offsets.template` and `gen/rust/union.template`. -/
inductive Val where
  /-- `usize`, or an integer literal -/
  | usize (n : Nat)
  /-- an unsigned integer of `w` bytes -/
  | int (w n : Nat)
  | bool (b : Bool)
  /-- a value of the type of a field; `&[u8]` is `.buf` -/
  | data (v : Value)
  /-- a structure `s` over some bytes -/
  | view (s : Structure) (b : Bytes)
  /-- `&mut` of a structure behind the variable `x`, at `off` in its bytes -/
  | viewMut (x : Name) (off : Nat) (s : Structure) (b : Bytes)
  /-- `Message<T>` -/
  | sized (size : Nat) (v : Val)
  | ok (v : Val)
  | err (e : Error)
  | some (v : Val)
  | none
  | pair (a b : Val)
  | range (r : FieldOffset)
  /-- a struct of offsets -/
  | record (fields : List (Name × Val))
  /-- offsets of a nested message -/
  | nested (o : Offsets)
  | unit
  /-- the argument `out` -/
  | writer

/-- What a program can refer to.  Rust, not in `/repo`; needed for
`gen/rust/message.from_slice.template`, `gen/rust/message.write.template`,
`gen/rust/message.offsets.template` and `gen/rust/union.template`. -/
structure Globals where
  /-- the build profile, and which messages are embedded -/
  c : Ctx
  /-- what a path names -/
  items : Bytes → Option Item
  /-- the name of the message struct `Self` -/
  name : Name
  /-- the fields of the message struct `Self` -/
  fields : List Name
  /-- the fields of `Self::Offsets` and their default values -/
  offsets : List (Name × Val)
  /-- the cases of the enum `Self`, and whether they have content -/
  cases : List (Name × Bool)

/-- Local variables, newest first.  Rust, not in `/repo`; needed for
`gen/rust/message.from_slice.template`, `gen/rust/message.write.template`,
`gen/rust/message.offsets.template` and `gen/rust/union.template`. -/
abbrev Locals := List (Name × Val)

/-- Why a program stops before its end.  Rust, not in `/repo`; needed for
`gen/rust/message.from_slice.template`, `gen/rust/message.write.template`,
`gen/rust/message.offsets.template` and `gen/rust/union.template`. -/
inductive Stop where
  /-- `return v`, or `?` on an error -/
  | ret (v : Val)
  /-- not a Rust program -/
  | stuck

/-- A run: the chunks passed to `out`, and how it ended.  Rust, not in `/repo`; needed for
`gen/rust/message.from_slice.template`, `gen/rust/message.write.template`,
`gen/rust/message.offsets.template` and `gen/rust/union.template`. -/
structure Run (α : Type) where
  chunks : List Bytes
  res : Res Stop α

namespace Run

/-- Ending with a value.  Rust, not in `/repo`; needed for `gen/rust/message.from_slice.template`,
`gen/rust/message.write.template`, `gen/rust/message.offsets.template` and `gen/rust/union.template`. -/
def pure (a : α) : Run α := ⟨[], .ok a⟩

/-- Running one after the other.  Rust, not in `/repo`; needed for
`gen/rust/message.from_slice.template`, `gen/rust/message.write.template`,
`gen/rust/message.offsets.template` and `gen/rust/union.template`. -/
def bind (x : Run α) (f : α → Run β) : Run β :=
  match x.res with
  | .ok a => ⟨x.chunks ++ (f a).chunks, (f a).res⟩
  | .err s => ⟨x.chunks, .err s⟩
  | .panic => ⟨x.chunks, .panic⟩

instance : Monad Run where
  pure := pure
  bind := bind

/-- Not a Rust program.  Rust, not in `/repo`; needed for `gen/rust/message.from_slice.template`,
`gen/rust/message.write.template`, `gen/rust/message.offsets.template` and `gen/rust/union.template`. -/
def stuck : Run α := ⟨[], .err .stuck⟩

/-- A panic.  Rust, not in `/repo`; needed for `gen/rust/message.from_slice.template`,
`gen/rust/message.write.template`, `gen/rust/message.offsets.template` and `gen/rust/union.template`. -/
def panic : Run α := ⟨[], .panic⟩

/-- A value, if there is one.  Rust, not in `/repo`; needed for `gen/rust/message.from_slice.template`,
`gen/rust/message.write.template`, `gen/rust/message.offsets.template` and `gen/rust/union.template`. -/
def get : Option α → Run α
  | .some a => pure a
  | .none => stuck

end Run

/-- The `Result` returned by a decoder.  `gen/rust/message.from_slice.template` 9. -/
def decoded (f : α → Val) : R (Msg α) → Run Val
  | .ok m => .pure (.ok (.sized m.size (f m.data)))
  | .err e => .pure (.err e)
  | .panic => .panic

/-- The `Result` returned by an encoder.  `gen/rust/message.write.template` 8. -/
def encoded (o : Out) : Run Val :=
  match o.res with
  | .ok () => ⟨o.chunks, .ok (.ok .unit)⟩
  | .err e => ⟨o.chunks, .ok (.err e)⟩
  | .panic => ⟨o.chunks, .panic⟩

/-- A computation that panics or not.  Rust, not in `/repo`; needed for
`gen/rust/message.from_slice.template`, `gen/rust/message.write.template`,
`gen/rust/message.offsets.template` and `gen/rust/union.template`. -/
def lift : R α → Run α
  | .ok a => .pure a
  | .err _ => .stuck
  | .panic => .panic

section
variable (g : Globals)

/-- `T::from_slice` with one argument.  The implementations of `FromSlice` in
`runtime/src/message/util/*.rs` and in generated code. -/
def Ty.fromSlice : Ty → Option (Parser Value)
  | .value e ty => some ((Scalar.fromSlice e ty.byteSize).map .num)
  | .nullTerminated => some (NullTerminated.fromSlice.map .str)
  | .varchar e ty => some ((Varchar.fromSlice g.c.p e ty.byteSize).map .str)
  | .array e ty p =>
    match g.items p with
    | some (.struct s) => some ((Arr.fromSlice g.c.p e ty.byteSize s.byteSize).map .seq)
    | _ => none
  | .list e ty p =>
    match g.items p with
    | some (.message m) => some ((Lst.fromSlice e ty.byteSize (m.parse g.c)).map .seq)
    | _ => none
  | .unsized e ty p =>
    match g.items p with
    | some (.message _) => some ((Lst.unsizedFromSlice e ty.byteSize).map .seq)
    | _ => none
  | .buffer => some (Buffer.fromSlice.map .buf)
  | .path p =>
    match g.items p with
    | some (.struct s) => some s.parse
    | some (.message m) => some (m.parse g.c)
    | _ => none
  | .optional t => t.fromSlice.map fun f => (Optional.fromSlice f).map Value.ofOption

/-- `T::from_slice_with_offsets`: only messages and options of messages have it.
`runtime/src/message/util/common.rs` and `gen/rust/message.offsets.template` 17-57. -/
def Ty.fromSliceWithOffsets : Ty → Option (Parser (Value × Offsets))
  | .path p =>
    match g.items p with
    | some (.message m) => some (m.parseOff g.c)
    | _ => none
  | .optional t => t.fromSliceWithOffsets.map fun f =>
    (Optional.fromSliceWithOffsets f).map fun r => (.ofOption r.1, .ofOption r.2)
  | _ => none

/-- `T::write_to(value, out)`.  The implementations of `WriteTo` in `runtime/src/message/util/*.rs` and
in generated code. -/
def Ty.writeTo : Ty → Option (Value → Out)
  | .value e ty => some fun
    | .num n => Scalar.writeTo e ty.byteSize n
    | _ => .stop .panic
  | .nullTerminated => some fun
    | .str s => NullTerminated.writeTo s
    | _ => .stop .panic
  | .varchar e ty => some fun
    | .str s => Varchar.writeTo e ty.byteSize s
    | _ => .stop .panic
  | .array e ty p =>
    match g.items p with
    | some (.struct _) => some fun
      | .seq l => l.writeTo e ty.byteSize
      | _ => .stop .panic
    | _ => none
  | .list e ty p =>
    match g.items p with
    | some (.message _) => some fun
      | .seq l => l.writeTo e ty.byteSize
      | _ => .stop .panic
    | _ => none
  | .unsized _ _ _ => none
  | .buffer => some fun
    | .buf b => Buffer.writeTo b
    | _ => .stop .panic
  | .path p =>
    match g.items p with
    | some (.struct s) => some fun
      | .struct b => s.write b
      | _ => .stop .panic
    | some (.message m) => some (m.write g.c)
    | _ => none
  | .optional t => t.writeTo.map fun w => fun
    | .none => Optional.writeTo w none
    | .some x => Optional.writeTo w (some x)
    | _ => .stop .panic

/-- `T::f(a)`.  Rust, not in `/repo`; needed for `gen/rust/message.from_slice.template`,
`gen/rust/message.write.template`, `gen/rust/message.offsets.template` and `gen/rust/union.template`. -/
def callOne (t : Ty) (f : Fun) (a : Val) : Run Val :=
  match f, a with
  | .fromSlice, .data (.buf b) => do
    let f ← Run.get (t.fromSlice g)
    decoded .data (f b)
  | .fromSliceWithOffsets, .data (.buf b) => do
    let f ← Run.get (t.fromSliceWithOffsets g)
    decoded (fun r => .pair (.data r.1) (.nested r.2)) (f b)
  | _, _ => .stuck

/-- `T::f(a, b)`: decoding a union, or encoding anything else.  Rust, not in `/repo`; needed for
`gen/rust/message.from_slice.template`, `gen/rust/message.write.template`,
`gen/rust/message.offsets.template` and `gen/rust/union.template`. -/
def callTwo (t : Ty) (f : Fun) (a b : Val) : Run Val :=
  match f, t, a, b with
  | .fromSlice, .path p, .data (.buf s), .data (.struct k) =>
    match g.items p with
    | some (.union u) => decoded .data (u.parse g.c [([], .struct k)] [] s)
    | _ => .stuck
  | .writeTo, t, .data v, .writer => do
    let w ← Run.get (t.writeTo g)
    encoded (w v)
  | _, _, _, _ => .stuck

/-- `T::f(a, b, c)`: encoding a union.  Rust, not in `/repo`; needed for
`gen/rust/message.from_slice.template`, `gen/rust/message.write.template`,
`gen/rust/message.offsets.template` and `gen/rust/union.template`. -/
def callThree (t : Ty) (f : Fun) (a b c : Val) : Run Val :=
  match f, t, a, b, c with
  | .writeTo, .path p, .data v, .data (.struct k), .writer =>
    match g.items p with
    | some (.union u) => encoded (u.write g.c [([], .struct k)] [] v)
    | _ => .stuck
  | _, _, _, _, _ => .stuck

/-- The accessors generated for a structure: what each method is called, and the field it is for. Two
with the same name are an error.  `gen/rust/structure.field.template`. -/
inductive Accessor where
  | raw (f : FixedField)
  | nested (r : Structure) (loc : Loc)
  | other

/-- The methods taking `&self` (`structure.field.template`, fragments `getters`).  Lines 1-72. -/
def getters : SField → List (Name × Accessor)
  | .fixed f => [("get_raw_".toList ++ f.name, .raw f), ("get_".toList ++ f.name, .other)]
  | .array f => [("get_".toList ++ f.name, .other)]
  | .struct n r loc => [("get_".toList ++ n, .nested r loc)]

/-- The methods taking `&mut self` (`structure.field.template`, fragments `setters`).  Lines 74-134. -/
def setters : SField → List (Name × Accessor)
  | .fixed f => [("set_raw_".toList ++ f.name, .raw f), ("set_".toList ++ f.name, .other)]
  | .array f => [("get_".toList ++ f.name ++ "_mut".toList, .other)]
  | .struct n r loc => [("get_".toList ++ n ++ "_mut".toList, .nested r loc)]

/-- All methods of a structure.  `gen/rust/structure.field.template`. -/
def methods (s : Structure) : List (Name × Accessor) :=
  s.fields.flatMap getters ++ s.fields.flatMap setters

/-- The method called `m`, if there is exactly one.  Rust; `gen/rust/structure.field.template`. -/
def method (s : Structure) (m : Name) : Option Accessor :=
  match (methods s).filter (fun x => x.1 = m) with
  | [x] => some x.2
  | _ => none

/-- `e.m()`.  `gen/rust/union.rs` 45-59. -/
def callMethod (v : Val) (m : Name) : Run Val :=
  match v with
  | .sized size x =>
    if m = "size".toList then .pure (.usize size)
    else if m = "into_inner".toList then .pure x
    else .stuck
  | .view s b =>
    match method s m with
    | some (.raw f) => do
      let n ← lift (f.getRaw g.c.p b)
      .pure (.int f.loc.rawSize n)
    | some (.nested r loc) => do
      let b ← lift (slice b loc.byteOffset loc.stop)
      .pure (.view r b)
    | _ => .stuck
  | .viewMut x off s b =>
    match method s m with
    | some (.nested r loc) => do
      let b ← lift (slice b loc.byteOffset loc.stop)
      .pure (.viewMut x (off + loc.byteOffset) r b)
    | _ => .stuck
  | _ => .stuck

/-- The number of the case called `n`, if there is exactly one and it has content (`full`) or not.
`gen/rust/union.template` 2-14. -/
def caseNumber (n : Name) (full : Bool) : Option Nat :=
  match (g.cases.zipIdx).filter (fun x => x.1.1 = n) with
  | [x] => if x.1.2 = full then some x.2 else none
  | _ => none

/-- The variable `x`, if it holds a field's value.  Rust, not in `/repo`; needed for
`gen/rust/message.from_slice.template`, `gen/rust/message.write.template`,
`gen/rust/message.offsets.template` and `gen/rust/union.template`. -/
def held (ρ : Locals) (x : Name) : Option (Name × Value) :=
  match ρ.lookup x with
  | some (.data v) => some (x, v)
  | _ => none

/-- Expressions.  Calls of `e.m(a)` are statements, see `Stmt.run`.  Rust, not in `/repo`; needed for
`gen/rust/message.from_slice.template`, `gen/rust/message.write.template`,
`gen/rust/message.offsets.template` and `gen/rust/union.template`. -/
def Expr.eval (ρ : Locals) : Expr → Run Val
  | .var x => Run.get (ρ.lookup x)
  | .nat n => .pure (.usize n)
  | .unit => .pure .unit
  | .bool b => .pure (.bool b)
  | .some e => do
    let v ← e.eval ρ
    .pure (.some v)
  | .none => .pure .none
  | .ref e => e.eval ρ
  | .refMut e => e.eval ρ
  | .tail e i => do
    let v ← e.eval ρ
    let n ← i.eval ρ
    match v, n with
    | .data (.buf b), .usize n => do
      let b ← lift (dropFrom b n)
      .pure (.data (.buf b))
    | _, _ => .stuck
  | .field e f => do
    let v ← e.eval ρ
    match v with
    | .data (.msg fields) => do
      let x ← Run.get (fields.lookup f)
      .pure (.data x)
    | _ => .stuck
  | .method e m => do
    let v ← e.eval ρ
    callMethod g v m
  | .method1 _ _ _ => .stuck
  | .call1 t f a => do
    let x ← a.eval ρ
    callOne g t f x
  | .call2 t f a b => do
    let x ← a.eval ρ
    let y ← b.eval ρ
    callTwo g t f x y
  | .call3 t f a b c => do
    let x ← a.eval ρ
    let y ← b.eval ρ
    let z ← c.eval ρ
    callThree g t f x y z
  | .try e => do
    let v ← e.eval ρ
    match v with
    | .ok x => .pure x
    | .err e => ⟨[], .err (.ret (.err e))⟩
    | _ => .stuck
  | .pair a b => do
    let x ← a.eval ρ
    let y ← b.eval ρ
    .pure (.pair x y)
  | .record n fields =>
    if n = g.name ∧ fields = g.fields ∧ fields.Nodup then do
      let vs ← Run.get (fields.mapM (held ρ))
      .pure (.data (.msg vs))
    else .stuck
  | .offsets => if (g.offsets.map Prod.fst).Nodup then .pure (.record g.offsets) else .stuck
  | .message a b => do
    let n ← a.eval ρ
    let x ← b.eval ρ
    match n with
    | .usize n => .pure (.sized n x)
    | _ => .stuck
  | .unitCase n => do
    let i ← Run.get (caseNumber g n false)
    .pure (.data (.union i .unit))
  | .mapCase e n => do
    let v ← e.eval ρ
    let i ← Run.get (caseNumber g n true)
    match v with
    | .ok (.sized k (.data x)) => .pure (.ok (.sized k (.data (.union i x))))
    | .err e => .pure (.err e)
    | _ => .stuck
  | .ok e => do
    let v ← e.eval ρ
    .pure (.ok v)
  | .errUnion e => do
    let v ← e.eval ρ
    match v with
    | .int _ n => .pure (.err (.invalidUnionDiscriminant n))
    | _ => .stuck
  | .ret e => do
    let v ← e.eval ρ
    ⟨[], .err (.ret v)⟩
  | .ifEq a b x y => do
    let v ← a.eval ρ
    let w ← b.eval ρ
    match v, w with
    | .int w n, .usize m =>
      if m < 256 ^ w then
        if n = m then x.eval ρ else y.eval ρ
      else .stuck
    | _, _ => .stuck

/-- Whether a pattern can be compared with a value: a literal fits the integer's type, a variant exists.
Rust, not in `/repo`; needed for `gen/rust/message.from_slice.template`,
`gen/rust/message.write.template`, `gen/rust/message.offsets.template` and `gen/rust/union.template`. -/
def Pat.fits (v : Val) : Pat → Bool
  | .nat n =>
    match v with
    | .int w _ => n < 256 ^ w
    | _ => false
  | .unit n =>
    match v with
    | .data (.union _ _) => (caseNumber g n false).isSome
    | _ => false
  | .bind n _ | .any n =>
    match v with
    | .data (.union _ _) => (caseNumber g n true).isSome
    | _ => false
  | .wild => true

/-- Matching a value with a pattern: the variables it binds.  Rust, not in `/repo`; needed for
`gen/rust/message.from_slice.template`, `gen/rust/message.write.template`,
`gen/rust/message.offsets.template` and `gen/rust/union.template`. -/
def Pat.match (v : Val) : Pat → Option Locals
  | .nat n =>
    match v with
    | .int _ m => if n = m then .some [] else .none
    | _ => .none
  | .unit n =>
    match v with
    | .data (.union i _) => if caseNumber g n false = .some i then .some [] else .none
    | _ => .none
  | .bind n x =>
    match v with
    | .data (.union i y) => if caseNumber g n true = .some i then .some [(x, .data y)] else .none
    | _ => .none
  | .any n =>
    match v with
    | .data (.union i _) => if caseNumber g n true = .some i then .some [] else .none
    | _ => .none
  | .wild => .some []

/-- The first arm that matches.  Rust, not in `/repo`; needed for
`gen/rust/message.from_slice.template`, `gen/rust/message.write.template`,
`gen/rust/message.offsets.template` and `gen/rust/union.template`. -/
def arms (ρ : Locals) (v : Val) : List Arm → Run Val
  | [] => .stuck
  | a :: as =>
    match a.pat.match g v with
    | .some bound => a.body.eval g (bound ++ ρ)
    | .none => arms ρ v as

/-- `match e { as }`.  Rust, not in `/repo`; needed for `gen/rust/message.from_slice.template`,
`gen/rust/message.write.template`, `gen/rust/message.offsets.template` and `gen/rust/union.template`. -/
def matchOn (ρ : Locals) (e : Expr) (as : List Arm) : Run Val := do
  let v ← e.eval g ρ
  if as.all fun a => a.pat.fits g v then arms g ρ v as else .stuck

/-- Assigning to a variable: the newest binding.  Rust, not in `/repo`; needed for
`gen/rust/message.from_slice.template`, `gen/rust/message.write.template`,
`gen/rust/message.offsets.template` and `gen/rust/union.template`. -/
def assign (x : Name) (v : Val) : Locals → Locals
  | [] => []
  | (y, w) :: ρ => if x = y then (y, v) :: ρ else (y, w) :: assign x v ρ

/-- Changing a field of a record that has it.  Rust, not in `/repo`; needed for
`gen/rust/message.from_slice.template`, `gen/rust/message.write.template`,
`gen/rust/message.offsets.template` and `gen/rust/union.template`. -/
def update (f : Name) (h : Val → Option Val) : List (Name × Val) → Option (List (Name × Val))
  | [] => .none
  | (y, w) :: r =>
    if f = y then (h w).map fun w => (y, w) :: r
    else (update f h r).map ((y, w) :: ·)

/-- `x.f = v`, and the same below `f`.  Rust, not in `/repo`; needed for
`gen/rust/message.from_slice.template`, `gen/rust/message.write.template`,
`gen/rust/message.offsets.template` and `gen/rust/union.template`. -/
def store (ρ : Locals) (x f : Name) (h : Val → Option Val) : Run Locals :=
  match ρ.lookup x with
  | .some (.record r) => do
    let r ← Run.get (update f h r)
    .pure (assign x (.record r) ρ)
  | _ => .stuck

/-- `e.m(a)` where `m` stores an integer.  `gen/rust/union.template` 59. -/
def callStore (ρ : Locals) (v : Val) (m : Name) (a : Val) : Run Locals :=
  match v, a with
  | .viewMut x off s b, .usize n =>
    match method s m with
    | .some (.raw f) =>
      if n < 256 ^ f.loc.rawSize then
        match ρ.lookup x with
        | .some (.viewMut y o t whole) => do
          let b ← lift (f.setRaw g.c.p b n)
          .pure (assign x (.viewMut y o t (splice whole off b)) ρ)
        | _ => .stuck
      else .stuck
    | _ => .stuck
  | _, _ => .stuck

/-- Statements.  Rust, not in `/repo`; needed for `gen/rust/message.from_slice.template`,
`gen/rust/message.write.template`, `gen/rust/message.offsets.template` and `gen/rust/union.template`. -/
def Stmt.run (ρ : Locals) : Stmt → Run Locals
  | .blank => .pure ρ
  | .use _ => .pure ρ
  | .letUsize x e => do
    let v ← e.eval g ρ
    match v with
    | .usize n => .pure ((x, .usize n) :: ρ)
    | _ => .stuck
  | .letMut x e => do
    let v ← e.eval g ρ
    .pure ((x, v) :: ρ)
  | .let x e => do
    let v ← e.eval g ρ
    .pure ((x, v) :: ρ)
  | .letPair x y e => do
    let v ← e.eval g ρ
    match v with
    | .pair a b => if x = y then .stuck else .pure ((y, b) :: (x, a) :: ρ)
    | _ => .stuck
  | .add x e => do
    let v ← e.eval g ρ
    match ρ.lookup x, v with
    | .some (.usize a), .usize b => do
      let n ← lift (addU g.c.p usizeBits a b)
      .pure (assign x (.usize n) ρ)
    | _, _ => .stuck
  | .set x f e => do
    let v ← e.eval g ρ
    store ρ x f fun _ => .some v
  | .setRange x f first e => do
    let v ← e.eval g ρ
    match v with
    | .usize n => store ρ x f fun
      | .range r => .some (.range (if first then ⟨n, r.stop⟩ else ⟨r.start, n⟩))
      | _ => .none
    | _ => .stuck
  | .expr (.method1 e m a) => do
    let v ← e.eval g ρ
    let x ← a.eval g ρ
    callStore g ρ v m x
  | .expr e => do
    let _ ← e.eval g ρ
    .pure ρ
  | .match e as last => do
    let _ ← matchOn g ρ e (as ++ [last])
    .pure ρ
  | .letMatch x e as => do
    let v ← matchOn g ρ e as
    .pure ((x, v) :: ρ)

/-- Statements in order.  Rust, not in `/repo`; needed for `gen/rust/message.from_slice.template`,
`gen/rust/message.write.template`, `gen/rust/message.offsets.template` and `gen/rust/union.template`. -/
def runAll : Locals → List Stmt → Run Locals
  | ρ, [] => .pure ρ
  | ρ, s :: ss => do
    let ρ ← s.run g ρ
    runAll ρ ss

/-- The end of a body.  Rust, not in `/repo`; needed for `gen/rust/message.from_slice.template`,
`gen/rust/message.write.template`, `gen/rust/message.offsets.template` and `gen/rust/union.template`. -/
def Tail.run (ρ : Locals) : Tail → Run Val
  | .none => .pure .unit
  | .expr e => e.eval g ρ
  | .match e as last => matchOn g ρ e (as ++ [last])
  | .match2 e a last => matchOn g ρ e [a, last]

/-- Leaving a function.  Rust, not in `/repo`; needed for `gen/rust/message.from_slice.template`,
`gen/rust/message.write.template`, `gen/rust/message.offsets.template` and `gen/rust/union.template`. -/
def Run.leave (x : Run Val) : Run Val :=
  match x.res with
  | .err (.ret v) => ⟨x.chunks, .ok v⟩
  | _ => x

/-- Calling a function with the given arguments.  Rust, not in `/repo`; needed for
`gen/rust/message.from_slice.template`, `gen/rust/message.write.template`,
`gen/rust/message.offsets.template` and `gen/rust/union.template`. -/
def Body.call (ρ : Locals) (b : Body) : Run Val := (do
  let ρ ← runAll g ρ b.stmts
  b.tail.run g ρ).leave

/-- Calling a function that returns nothing: the arguments afterwards.  Rust, not in `/repo`; needed for
`gen/rust/message.from_slice.template`, `gen/rust/message.write.template`,
`gen/rust/message.offsets.template` and `gen/rust/union.template`. -/
def Body.effect (ρ : Locals) (b : Body) : Run Locals := runAll g ρ b.stmts

end

end Proto.Rs
