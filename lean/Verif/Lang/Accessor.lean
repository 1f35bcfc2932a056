import Verif.Lang.Eval
import Verif.Lang.Print
import Verif.Gen.Struct
import Verif.Float.Ieee

/-!
# The generated structure accessors as programs

The bodies of `get_raw_x`, `set_raw_x`, `get_x`, `set_x` and of the accessors of array and nested
fields, in the part of Rust they are written in.  An integer literal whose value is not one of the
type it is used at, an operand of the wrong type, a call to a method declared twice and a
`transmute` between types of different sizes are what the Rust compiler rejects: such a program is
stuck.  A `transmute` that produces a value its type does not have is undefined behaviour.
-/

namespace Proto.Rs.Acc

open Text

/-- Why a program has no value.  Rust, not in `/repo`; needed for `gen/rust/structure.field.template`.
-/
inductive Halt where
  | stuck
  | undefined
deriving DecidableEq

/-- What the primitive types are.  Rust, not in `/repo`; needed for `gen/rust/structure.field.template`.
-/
inductive Kind where
  | unsigned (bytes : Nat)
  | signed (bytes : Nat)
  | float (bytes : Nat)
  | bool
deriving DecidableEq

/-- The primitive types.  Rust, not in `/repo`; needed for `gen/rust/structure.field.template`. -/
def kind : FixedTy → Kind
  | .u8 => .unsigned 1 | .u16 => .unsigned 2 | .u32 => .unsigned 4 | .u64 => .unsigned 8
  | .i8 => .signed 1 | .i16 => .signed 2 | .i32 => .signed 4 | .i64 => .signed 8
  | .f32 => .float 4 | .f64 => .float 8
  | .bool => .bool

/-- The types of parameters and results.  Rust, not in `/repo`; needed for
`gen/rust/structure.field.template`. -/
inductive Ty where
  | prim (t : FixedTy)
  | enum (path : Bytes)
  | option (path : Bytes)
  | unit
  | selfMut
  | view (path : Bytes) (mutable : Bool)
  | array (t : FixedTy) (e : Endian) (bits : Nat) (mutable : Bool)
deriving DecidableEq

/-- Types, printed.  Rust, not in `/repo`; needed for `gen/rust/structure.field.template`. -/
def Ty.print : Ty → Bytes
  | .prim t => typeName t
  | .enum p => p
  | .option p => t!"Option<{p}>"
  | .unit => []
  | .selfMut => b!"&mut Self"
  | .view p m => t!"{p}<{if m then b!"&mut [u8]" else b!"&[u8]"}>"
  | .array t e n m =>
    t!"bp3d_proto::codec::ArrayCodec<{if m then b!"&mut [u8]" else b!"&[u8]"}, {typeName t}, bp3d_proto::codec::ByteCodec{suffix e}, {display n}>"

/-- Values.  A float obtained from bits is kept as bits, one obtained by arithmetic as the number it
denotes.
Rust, not in `/repo`; needed for `gen/rust/structure.field.template`. -/
inductive Val where
  | uint (bytes : Nat) (n : Nat)
  | int (bytes : Nat) (i : Int)
  | real (bytes : Nat) (x : Ieee.Fl)
  | bits (bytes : Nat) (n : Nat)
  | bool (b : Bool)
  | enum (path : Bytes) (n : Nat)
  | none
  | some (v : Val)
  | part (path : Bytes) (b : Bytes)
deriving DecidableEq

/-- The value has the type.  `None` has every option type.  Rust, not in `/repo`; needed for
`gen/rust/structure.field.template`. -/
def Val.hasTy : Val → Ty → Bool
  | .uint w _, .prim t => kind t = .unsigned w
  | .int w _, .prim t => kind t = .signed w
  | .real w _, .prim t => kind t = .float w
  | .bits w _, .prim t => kind t = .float w
  | .bool _, .prim t => kind t = .bool
  | .enum p _, .enum q => p = q
  | .none, .option _ => true
  | .some (.enum p _), .option q => p = q
  | .part p _, .view q _ => p = q
  | .part p _, .array _ _ _ _ => p = b!"bp3d_proto::codec::ArrayCodec"
  | _, _ => false

/-- A call to a codec on a range of the buffer.  `bits` is the bit offset and bit size given to the bit
codec; the byte codec has none.  `gen/rust/structure.field.template` 8, 11, 81, 84. -/
structure Codec where
  endian : Endian
  aligned : Bool
  raw : FixedTy
  bits : Option (Nat × Nat)
  start : Nat
  stop : Nat

/-- The codec's path and function, printed.  `gen/rust/structure.field.template` 8, 11, 81, 84. -/
def Codec.print (c : Codec) (f : Bytes) : Bytes :=
  (match c.bits with
    | none => byteCodec c.endian
    | some _ => bitCodec c.endian) ++
  b!"::" ++ f ++ (if c.aligned then b!"_aligned" else b!"_unaligned") ++ b!"::<" ++ typeName c.raw ++
  (match c.bits with
    | none => []
    | some (o, s) => t!", {display o}, {display s}") ++ b!">"

/-- Expressions.  Rust, not in `/repo`; needed for `gen/rust/structure.field.template`. -/
inductive Expr where
  | var (x : Name)
  | lit (n : Nat)
  | true
  | false
  | raw (n : Name)
  | none
  | some (e : Expr)
  | gt (e : Expr) (n : Nat)
  | ne (e : Expr) (n : Nat)
  | not (e : Expr)
  | and (e : Expr) (n : Nat)
  | add (e : Expr) (n : Nat)
  | neg (e : Expr)
  | cast (e : Expr) (t : FixedTy)
  | affine (e : Expr) (a b : Rat)
  | transmute (s d : Ty) (e : Expr)
  | read (c : Codec)
  | new (path : Bytes) (mutable : Bool) (start stop : Nat)

/-- Whether an operand is written in parentheses.  Rust, not in `/repo`; needed for
`gen/rust/structure.field.template`. -/
def Expr.bracketed : Expr → Bool
  | .not _ => Bool.true
  | .and _ _ => Bool.true
  | .add _ _ => Bool.true
  | .cast _ _ => Bool.true
  | _ => Bool.false

/-- Expressions, printed.  Rust, not in `/repo`; needed for `gen/rust/structure.field.template`. -/
def Expr.print (lib : Lib) : Expr → Bytes
  | .var x => x.utf8
  | .lit n => display n
  | .true => b!"true"
  | .false => b!"false"
  | .raw n => t!"self.get_raw_{n.utf8}()"
  | .none => b!"None"
  | .some e => t!"Some({e.print lib})"
  | .gt e n => t!"{e.print lib} > {display n}"
  | .ne e n => t!"{e.print lib} != {display n}"
  | .not e => t!"!{e.print lib}"
  | .and e n =>
    if e.bracketed then t!"({e.print lib}) & {display n}" else t!"{e.print lib} & {display n}"
  | .add e n =>
    if e.bracketed then t!"({e.print lib}) + {display n}" else t!"{e.print lib} + {display n}"
  | .neg e => if e.bracketed then t!"-({e.print lib})" else t!"-{e.print lib}"
  | .cast e t =>
    if e.bracketed then t!"({e.print lib}) as {typeName t}" else t!"{e.print lib} as {typeName t}"
  | .affine e a b => t!"{e.print lib} * {lib.debugF64 a} + {lib.debugF64 b}"
  | .transmute s d e => t!"unsafe \{ std::mem::transmute::<{s.print}, {d.print}>({e.print lib}) }"
  | .read c => t!"unsafe \{ {c.print b!"read"}(&self.data.as_ref()[{display c.start}..{display c.stop}]) }"
  | .new p m i j =>
    if m then t!"{p}::new(&mut self.data.as_mut()[{display i}..{display j}])"
    else t!"{p}::new(&self.data.as_ref()[{display i}..{display j}])"

/-- Statements.  Rust, not in `/repo`; needed for `gen/rust/structure.field.template`. -/
inductive Stmt where
  | let (x : Name) (e : Expr)
  | set (n : Name) (e : Expr)
  | setIf (c : Expr) (n : Name) (a b : Expr)
  | write (c : Codec) (e : Expr)

/-- Statements, printed.  Rust, not in `/repo`; needed for `gen/rust/structure.field.template`. -/
def Stmt.print (lib : Lib) : Stmt → Bytes
  | .let x e => t!"        let {x.utf8} = {e.print lib};
"
  | .set n e => t!"        self.set_raw_{n.utf8}({e.print lib});
"
  | .setIf c n a b => t!"        if {c.print lib} \{
            self.set_raw_{n.utf8}({a.print lib});
        } else \{
            self.set_raw_{n.utf8}({b.print lib});
        }
"
  | .write c e => t!"        unsafe \{ {c.print b!"write"}(&mut self.data.as_mut()[{display c.start}..{display c.stop}], {e.print lib}) }
"

/-- What a body ends with.  Rust, not in `/repo`; needed for `gen/rust/structure.field.template`. -/
inductive Tail where
  | value (e : Expr)
  | ite (c a b : Expr)
  | self
  | nothing

/-- The end of a body, printed.  Rust, not in `/repo`; needed for `gen/rust/structure.field.template`.
-/
def Tail.print (lib : Lib) : Tail → Bytes
  | .value e => t!"        {e.print lib}
"
  | .ite c a b => t!"        if {c.print lib} \{
            {a.print lib}
        } else \{
            {b.print lib}
        }
"
  | .self => b!"        self\n"
  | .nothing => []

/-- A function: its name, its parameters, its result, its body.  `gap` says where the template leaves an
empty line: after the statements, or after the whole body.  Rust, not in `/repo`; needed for
`gen/rust/structure.field.template`. -/
structure Fn where
  name : Name
  mutable : Bool
  param : Option (Name × Ty)
  result : Ty
  body : List Stmt
  tail : Tail
  gap : Bool × Bool

/-- Functions, printed.  Rust, not in `/repo`; needed for `gen/rust/structure.field.template`. -/
def Fn.print (lib : Lib) (f : Fn) : Bytes :=
  b!"    pub fn " ++ f.name.utf8 ++ (if f.mutable then b!"(&mut self" else b!"(&self") ++
  (match f.param with
    | none => []
    | some (x, t) => t!", {x.utf8}: {t.print}") ++ b!")" ++
  (match f.result with
    | .unit => []
    | t => t!" -> {t.print}") ++ b!" {\n" ++
  all (Stmt.print lib) f.body ++ (if f.gap.1 then b!"\n" else []) ++
  f.tail.print lib ++ (if f.gap.2 then b!"\n" else []) ++ b!"    }\n"

/-! ## What they do -/

/-- How the programs compute with floats: exactly, or as Rust does.  A literal is the text of a constant;
`decimal` gives the number the text of a constant denotes.  Rust, not in `/repo`; needed for
`gen/rust/structure.field.template` 27-28, 100-101. -/
inductive Arith where
  | exact
  | ieee (decimal : Rat → Rat)

/-- The format of a float type of so many bytes.  Rust, not in `/repo`; needed for
`gen/rust/structure.field.template` 27-28, 100-101. -/
def format (bytes : Nat) : Ieee.Fmt := if bytes = 4 then Ieee.binary32 else Ieee.binary64

/-- An integer as a float.  Rust; `gen/rust/structure.field.template` 27. -/
def Arith.ofNat (m : Arith) (bytes n : Nat) : Ieee.Fl :=
  match m with
  | .exact => .fin n
  | .ieee _ => (format bytes).round n

/-- `x * a + b` of a float and two literals, which are rounded to its type.  Exact arithmetic is of finite
numbers only.  Rust; `gen/rust/structure.field.template` 28, 100. -/
def Arith.affine (m : Arith) (bytes : Nat) (x : Ieee.Fl) (a b : Rat) : Ieee.Fl :=
  match m with
  | .exact =>
    match x with
    | .fin q => .fin (q * a + b)
    | x => x
  | .ieee decimal =>
    let f := format bytes
    f.add (f.mul x (f.round (decimal a))) (f.round (decimal b))

/-- What a program refers to.  Rust, not in `/repo`; needed for `gen/rust/structure.field.template`. -/
structure Globals where
  p : Profile
  /-- the structure the accessors belong to -/
  structure_ : Structure
  /-- the enums paths lead to -/
  enums : Bytes → Option Enum
  /-- the arithmetic of floats -/
  num : Arith

/-- Bytes a Rust enum without fields takes: none when it has at most one variant, otherwise the smallest
integer that holds every discriminant.  Rust, not in `/repo`; needed for
`gen/rust/structure.field.template` 37. -/
def enumBytes (e : Enum) : Nat :=
  if e.variants.length ≤ 1 then 0
  else if e.variants.all (fun v => v.2 < 2 ^ 8) then 1
  else if e.variants.all (fun v => v.2 < 2 ^ 16) then 2
  else if e.variants.all (fun v => v.2 < 2 ^ 32) then 4
  else 8

/-- Local variables, the latest first.  Rust, not in `/repo`; needed for
`gen/rust/structure.field.template`. -/
abbrev Locals := List (Name × Val)

/-- A failure of the model's functions as a failure of the program; their errors cannot occur.  Rust,
not in `/repo`; needed for `gen/rust/structure.field.template`. -/
def lift : R α → Res Halt α
  | .ok a => .ok a
  | .err _ => .err .stuck
  | .panic => .panic

/-- `T as U` on values.  Rust; `gen/rust/structure.field.template` 27, 60, 62, 101, 107. -/
def cast (m : Arith) (v : Val) (t : FixedTy) : Res Halt Val :=
  match v, kind t with
  | .uint _ n, .unsigned w => .ok (.uint w (n % 2 ^ (8 * w)))
  | .uint _ n, .signed w => .ok (.int w (toSigned (8 * w) (n % 2 ^ (8 * w))))
  | .uint _ n, .float w => .ok (.real w (m.ofNat w n))
  | .real _ x, .unsigned w => .ok (.uint w (x.toUInt (8 * w)))
  | .enum _ n, .unsigned w => .ok (.uint w (n % 2 ^ (8 * w)))
  | _, _ => .err .stuck

/-- `transmute::<s, d>(v)`.  Rust; `gen/rust/structure.field.template` 37, 52, 122. -/
def transmute (g : Globals) (s d : Ty) (v : Val) : Res Halt Val :=
  if v.hasTy s = false then .err .stuck
  else match v, d with
    | .uint w n, .prim t =>
      match kind t with
      | .signed w' => if w = w' then .ok (.int w (toSigned (8 * w) n)) else .err .stuck
      | .float w' => if w = w' then .ok (.bits w n) else .err .stuck
      | _ => .err .stuck
    | .int w i, .prim t =>
      match kind t with
      | .unsigned w' => if w = w' then .ok (.uint w (ofSigned (8 * w) i)) else .err .stuck
      | _ => .err .stuck
    | .bits w n, .prim t =>
      match kind t with
      | .unsigned w' => if w = w' then .ok (.uint w n) else .err .stuck
      | _ => .err .stuck
    | .uint w n, .enum p =>
      match g.enums p with
      | some e =>
        if enumBytes e ≠ w then .err .stuck
        else if n ∈ e.variants.map Prod.snd then .ok (.enum p n)
        else .err .undefined
      | none => .err .stuck
    | _, _ => .err .stuck

/-- A codec's reading function on a slice.  `gen/rust/structure.field.template` 8, 11. -/
def Codec.readFn (p : Profile) (c : Codec) (w : Nat) (s : Bytes) : R Nat :=
  match c.bits, c.aligned with
  | none, true => ByteCodec.readAligned c.endian w s
  | none, false => ByteCodec.readUnaligned c.endian w s
  | some (o, n), true => BitCodec.readAligned p c.endian w o n s
  | some (o, n), false => BitCodec.readUnaligned p c.endian w o n s

/-- A codec's writing function on a slice.  `gen/rust/structure.field.template` 81, 84. -/
def Codec.writeFn (p : Profile) (c : Codec) (w : Nat) (s : Bytes) (v : Nat) : R Bytes :=
  match c.bits, c.aligned with
  | none, true => ByteCodec.writeAligned c.endian w s v
  | none, false => ByteCodec.writeUnaligned c.endian w s v
  | some (o, n), true => BitCodec.writeAligned p c.endian w o n s v
  | some (o, n), false => BitCodec.writeUnaligned p c.endian w o n s v

/-- The condition of an `if`.  Rust, not in `/repo`; needed for `gen/rust/structure.field.template`. -/
def Val.cond : Val → Res Halt Bool
  | .bool b => .ok b
  | _ => .err .stuck

/-- The operand of an integer operation with a literal: the literal has to be a value of its type.
Rust; `gen/rust/structure.field.template` 34, 59-62. -/
def operand (v : Val) (n : Nat) : Res Halt (Nat × Nat) :=
  match v with
  | .uint w x => if n < 2 ^ (8 * w) then .ok (w, x) else .err .stuck
  | _ => .err .stuck

/-- Expressions, on a buffer.  Rust, not in `/repo`; needed for `gen/rust/structure.field.template`. -/
def Expr.eval (g : Globals) (b : Bytes) (ρ : Locals) : Expr → Res Halt Val
  | .var x => Res.ofOption .stuck (ρ.lookup x)
  | .lit _ => .err .stuck
  | .true => .ok (.bool Bool.true)
  | .false => .ok (.bool Bool.false)
  | .raw n =>
    match method g.structure_ ("get_raw_".toList ++ n) with
    | Option.some (.raw f) => do
      let x ← lift (f.getRaw g.p b)
      .ok (.uint f.loc.rawSize x)
    | _ => .err .stuck
  | .none => .ok .none
  | .some e => do
    let v ← e.eval g b ρ
    .ok (.some v)
  | .gt e n => do
    let v ← e.eval g b ρ
    let (_, x) ← operand v n
    .ok (.bool (decide (x > n)))
  | .ne e n => do
    let v ← e.eval g b ρ
    let (_, x) ← operand v n
    .ok (.bool (decide (x ≠ n)))
  | .not e => do
    let v ← e.eval g b ρ
    let (w, x) ← operand v 0
    .ok (.uint w (notU (8 * w) x))
  | .and e n => do
    let v ← e.eval g b ρ
    let (w, x) ← operand v n
    .ok (.uint w (x &&& n))
  | .add e n => do
    let v ← e.eval g b ρ
    let (w, x) ← operand v n
    let y ← addU g.p (8 * w) x n
    .ok (.uint w y)
  | .neg e => do
    let v ← e.eval g b ρ
    match v with
    | .int w i => do
      let y ← lift (negS g.p (8 * w) i)
      .ok (.int w y)
    | _ => .err .stuck
  | .cast e t => do
    let v ← e.eval g b ρ
    Acc.cast g.num v t
  | .affine e x y => do
    let v ← e.eval g b ρ
    match v with
    | .real w z => .ok (.real w (g.num.affine w z x y))
    | _ => .err .stuck
  | .transmute s d e => do
    let v ← e.eval g b ρ
    Acc.transmute g s d v
  | .read c =>
    match kind c.raw with
    | .unsigned w => do
      let x ← lift (slice b c.start c.stop)
      let y ← lift (c.readFn g.p w x)
      .ok (.uint w y)
    | _ => .err .stuck
  | .new p _ i j => do
    let x ← lift (slice b i j)
    .ok (.part p x)

/-- An argument of `set_raw_x`, whose parameter has `w` bytes.  `gen/rust/structure.field.template` 78.
-/
def argument (g : Globals) (b : Bytes) (ρ : Locals) (w : Nat) (e : Expr) : Res Halt Nat :=
  match e with
  | .lit n => if n < 2 ^ (8 * w) then .ok n else .err .stuck
  | e => do
    let v ← e.eval g b ρ
    match v with
    | .uint w' x => if w' = w then .ok x else .err .stuck
    | _ => .err .stuck

/-- `self.set_raw_n(e);`.  `gen/rust/structure.field.template` 101, 107, 116, 118, 122, 129. -/
def store (g : Globals) (b : Bytes) (ρ : Locals) (n : Name) (e : Expr) : Res Halt Bytes :=
  match method g.structure_ ("set_raw_".toList ++ n) with
  | some (.raw f) => do
    let x ← argument g b ρ f.loc.rawSize e
    lift (f.setRaw g.p b x)
  | _ => .err .stuck

/-- Statements: the buffer and the variables afterwards.  Rust, not in `/repo`; needed for
`gen/rust/structure.field.template`. -/
def Stmt.run (g : Globals) (b : Bytes) (ρ : Locals) : Stmt → Res Halt (Bytes × Locals)
  | .let x e => do
    let v ← e.eval g b ρ
    .ok (b, (x, v) :: ρ)
  | .set n e => do
    let b ← store g b ρ n e
    .ok (b, ρ)
  | .setIf c n x y => do
    let v ← c.eval g b ρ
    let t ← v.cond
    let b ← if t then store g b ρ n x else store g b ρ n y
    .ok (b, ρ)
  | .write c e =>
    match kind c.raw with
    | .unsigned w => do
      let v ← argument g b ρ w e
      let s ← lift (slice b c.start c.stop)
      let s ← lift (c.writeFn g.p w s v)
      .ok (splice b c.start s, ρ)
    | _ => .err .stuck

/-- Statements in order.  Rust, not in `/repo`; needed for `gen/rust/structure.field.template`. -/
def runAll (g : Globals) : Bytes → Locals → List Stmt → Res Halt (Bytes × Locals)
  | b, ρ, [] => .ok (b, ρ)
  | b, ρ, s :: ss => do
    let (b, ρ) ← s.run g b ρ
    runAll g b ρ ss

/-- A result of the declared type.  Rust, not in `/repo`; needed for
`gen/rust/structure.field.template`. -/
def checked (t : Ty) (v : Val) : Res Halt (Option Val) :=
  if v.hasTy t then .ok (some v) else .err .stuck

/-- The end of a body: the value returned, if any.  Rust, not in `/repo`; needed for
`gen/rust/structure.field.template`. -/
def Tail.run (g : Globals) (b : Bytes) (ρ : Locals) (t : Ty) : Tail → Res Halt (Option Val)
  | .value e => do
    let v ← e.eval g b ρ
    checked t v
  | .ite c x y => do
    let v ← c.eval g b ρ
    let k ← v.cond
    let v ← if k then x.eval g b ρ else y.eval g b ρ
    checked t v
  | .self => if t = .selfMut then .ok none else .err .stuck
  | .nothing => if t = .unit then .ok none else .err .stuck

/-- The variables a call begins with, provided the argument has the parameter's type.  Rust, not in
`/repo`; needed for `gen/rust/structure.field.template`. -/
def bindParam : Option (Name × Ty) → Option Val → Res Halt Locals
  | none, none => .ok []
  | some (x, t), some v => if v.hasTy t then .ok [(x, v)] else .err .stuck
  | _, _ => .err .stuck

/-- A call: the buffer afterwards and the value returned.  Rust, not in `/repo`; needed for
`gen/rust/structure.field.template`. -/
def Fn.call (g : Globals) (f : Fn) (b : Bytes) (arg : Option Val) : Res Halt (Bytes × Option Val) := do
  let ρ ← bindParam f.param arg
  let (b, ρ) ← runAll g b ρ f.body
  let v ← f.tail.run g b ρ f.result
  .ok (b, v)

/-! ## The generated functions -/

/-- The unsigned integer type of a location.  `gen/base/structure.rs`. -/
def rawTy (l : Loc) : FixedTy :=
  if l.bitSize ≤ 8 then .u8 else if l.bitSize ≤ 16 then .u16 else if l.bitSize ≤ 32 then .u32 else .u64

/-- The codec call of a scalar field.  `gen/rust/structure.field.template` 8, 11. -/
def codec (f : FixedField) : Codec where
  endian := f.endian
  aligned := decide (Exact f.loc)
  raw := rawTy f.loc
  bits := if f.loc.bitSize % 8 = 0 then none else some (f.loc.bitOffset, f.loc.bitSize)
  start := f.loc.byteOffset
  stop := f.loc.byteOffset + f.loc.byteSize

/-- `get_raw_x` (`structure.field.template`, fragments `getters.fixed.bit`, `getters.fixed.byte`).
`gen/rust/structure.field.template` 4-14. -/
def rawGet (f : FixedField) : Fn where
  name := id "get_raw_" ++ f.name
  mutable := false
  param := none
  result := .prim (rawTy f.loc)
  body := []
  tail := .value (.read (codec f))
  gap := (false, true)

/-- `set_raw_x` (fragments `setters.fixed.bit`, `setters.fixed.byte`).
`gen/rust/structure.field.template` 77-87. -/
def rawSet (f : FixedField) : Fn where
  name := id "set_raw_" ++ f.name
  mutable := true
  param := some (id "value", .prim (rawTy f.loc))
  result := .unit
  body := [.write (codec f) (.var (id "value"))]
  tail := .nothing
  gap := (false, true)

/-- `get_x` (fragments `getters.view_none`, …).  `gen/rust/structure.field.template` 25-70. -/
def viewGet (paths : List (Name × Name)) (f : FixedField) : Fn :=
  let get (t : Ty) (ss : List Stmt) (e : Tail) (blank : Bool) : Fn :=
    { name := id "get_" ++ f.name, mutable := false, param := none, result := t, body := ss, tail := e
      gap := (false, blank) }
  match f.view with
  | .none => get (.prim f.ty) [] (.value (.raw f.name)) false
  | .transmute =>
    if f.ty = .bool then get (.prim f.ty) [] (.ite (.ne (.raw f.name) 0) .true .false) true
    else get (.prim f.ty) [] (.value (.transmute (.prim (rawTy f.loc)) (.prim f.ty) (.raw f.name))) true
  | .signedCast m =>
    get (.prim f.ty) [.let (id "raw_value") (.raw f.name)]
      (.ite (.gt (.var (id "raw_value")) m)
        (.neg (.cast (.add (.and (.not (.var (id "raw_value"))) m) 1) f.ty))
        (.cast (.and (.var (id "raw_value")) m) f.ty)) false
  | .enum e =>
    get (.option (pathOf paths e.name)) [.let (id "raw_value") (.raw f.name)]
      (.ite (.gt (.var (id "raw_value")) e.largest) .none
        (.some (.transmute (.prim (rawTy f.loc)) (.enum (pathOf paths e.name)) (.var (id "raw_value")))))
      false
  | .float a b _ _ =>
    get (.prim f.ty) [.let (id "raw_value") (.cast (.raw f.name) f.ty)]
      (.value (.affine (.var (id "raw_value")) a b)) false

/-- `set_x` (fragments `setters.view_none`, …).  `gen/rust/structure.field.template` 98-132. -/
def viewSet (paths : List (Name × Name)) (f : FixedField) : Fn :=
  let value := Expr.var (id "value")
  let set (t : Ty) (ss : List Stmt) (blank : Bool) : Fn :=
    { name := id "set_" ++ f.name, mutable := true, param := some (id "value", t), result := .selfMut
      body := ss, tail := .self, gap := (blank, false) }
  let bits : Fn := set (.prim f.ty)
    (if f.ty = .bool then [.setIf value f.name (.lit 1) (.lit 0)]
      else [.set f.name (.transmute (.prim f.ty) (.prim (rawTy f.loc)) value)]) true
  match f.view with
  | .none => set (.prim f.ty) [.set f.name value] false
  | .transmute => bits
  | .signedCast _ => bits
  | .enum e => set (.enum (pathOf paths e.name)) [.set f.name (.cast value (rawTy f.loc))] false
  | .float _ _ a b =>
    set (.prim f.ty) [.let (id "raw_value") (.affine value a b),
      .set f.name (.cast (.var (id "raw_value")) (rawTy f.loc))] false

/-- The accessors of an array field and of a nested structure (fragments `getters.array`,
`getters.struct`, `setters.array`, `setters.struct`).  `gen/rust/structure.field.template` 15-24, 88-97.
-/
def partGet (paths : List (Name × Name)) (mutable : Bool) : SField → Option Fn
  | .fixed _ => none
  | .array f => some
    { name := id "get_" ++ f.name ++ (if mutable then id "_mut" else [])
      mutable, param := none
      result := .array f.ty f.endian (f.loc.bitSize / f.arrayLen) mutable
      body := []
      tail := .value (.new b!"bp3d_proto::codec::ArrayCodec" mutable f.loc.byteOffset
        (f.loc.byteOffset + f.loc.byteSize))
      gap := (false, false) }
  | .struct n r l => some
    { name := id "get_" ++ n ++ (if mutable then id "_mut" else [])
      mutable, param := none
      result := .view (pathOf paths r.name) mutable
      body := []
      tail := .value (.new (pathOf paths r.name) mutable l.byteOffset (l.byteOffset + l.byteSize))
      gap := (false, false) }

end Proto.Rs.Acc
