import Verif.Base.Lit
import Verif.Gen.Code
import Verif.Spec.Rust

/-!
# The part of Rust the generated message and union code is written in: syntax

The functions the generator emits are sequences of statements in a small part of Rust.  This file
gives that part an abstract syntax and prints it; `Lang/Eval.lean` says what it does.  The layout
(indentation, the line break after some types, empty lines) is that of the generated files.
Identifiers are `Name`s.
-/

namespace Proto.Rs

/-- `x` followed by a suffix, as in `x_msg`.  `gen/rust/message.from_slice.template` 9,
`gen/rust/message.offsets.template` 38. -/
def suffixed (x : Name) (s : String) : Name := x ++ s.toList

/-- The types whose associated functions are called.  `item` is the path of a generated type.  Rust, not
in `/repo`; needed for `gen/rust/message.from_slice.template`, `gen/rust/message.write.template`,
`gen/rust/message.offsets.template` and `gen/rust/union.template`. -/
inductive Ty where
  | value (e : Endian) (ty : FixedTy)
  | nullTerminated
  | varchar (e : Endian) (ty : FixedTy)
  | array (e : Endian) (ty : FixedTy) (item : Bytes)
  | list (e : Endian) (ty : FixedTy) (item : Bytes)
  | unsized (e : Endian) (ty : FixedTy) (item : Bytes)
  | buffer
  | path (p : Bytes)
  | optional (t : Ty)

/-- Types, printed.  Rust, not in `/repo`; needed for `gen/rust/message.from_slice.template`,
`gen/rust/message.write.template`, `gen/rust/message.offsets.template` and `gen/rust/union.template`. -/
def Ty.print : Ty → Bytes
  | .value e ty => t!"bp3d_proto::message::util::Value{Text.suffix e}::<{Text.typeName ty}>"
  | .nullTerminated => b!"bp3d_proto::message::util::NullTerminatedString"
  | .varchar e ty => t!"bp3d_proto::message::util::VarcharString::<{Text.value e ty}>
"
  | .array e ty p =>
    t!"bp3d_proto::message::util::Array::<&'a [u8], {Text.value e ty}, {p}<&'a [u8]>>
"
  | .list e ty p => t!"bp3d_proto::message::util::List::<&'a [u8], {Text.value e ty}, {p}>
"
  | .unsized e ty p => t!"bp3d_proto::message::util::list::Unsized::<{Text.value e ty}, {p}>
"
  | .buffer => b!"bp3d_proto::message::util::Buffer"
  | .path p => p
  | .optional t => t!"bp3d_proto::message::util::Optional::<{t.print}>"

/-- Associated functions.  `gen/rust/message.from_slice.template` 9, `gen/rust/message.write.template`
8, `gen/rust/message.offsets.template` 34. -/
inductive Fun where
  | fromSlice
  | fromSliceWithOffsets
  | writeTo
deriving DecidableEq

/-- Associated functions, printed.  `gen/rust/message.from_slice.template` 9,
`gen/rust/message.write.template` 8, `gen/rust/message.offsets.template` 34. -/
def Fun.print : Fun → Bytes
  | .fromSlice => b!"from_slice"
  | .fromSliceWithOffsets => b!"from_slice_with_offsets"
  | .writeTo => b!"write_to"

/-- Patterns of `match`.  Rust, not in `/repo`; needed for `gen/rust/message.from_slice.template`,
`gen/rust/message.write.template`, `gen/rust/message.offsets.template` and `gen/rust/union.template`. -/
inductive Pat where
  /-- an integer -/
  | nat (n : Nat)
  /-- `Self::N` -/
  | unit (n : Name)
  /-- `Self::N(v)` -/
  | bind (n v : Name)
  /-- `Self::N(_)` -/
  | any (n : Name)
  /-- `_` -/
  | wild

/-- Patterns, printed.  Rust, not in `/repo`; needed for `gen/rust/message.from_slice.template`,
`gen/rust/message.write.template`, `gen/rust/message.offsets.template` and `gen/rust/union.template`. -/
def Pat.print : Pat → Bytes
  | .nat n => display n
  | .unit n => t!"Self::{Name.utf8 n}"
  | .bind n v => t!"Self::{Name.utf8 n}({Name.utf8 v})"
  | .any n => t!"Self::{Name.utf8 n}(_)"
  | .wild => b!"_"

/-- Expressions.  Rust, not in `/repo`; needed for `gen/rust/message.from_slice.template`,
`gen/rust/message.write.template`, `gen/rust/message.offsets.template` and `gen/rust/union.template`. -/
inductive Expr where
  | var (x : Name)
  | nat (n : Nat)
  /-- `()` -/
  | unit
  /-- `true`, `false` -/
  | bool (b : Bool)
  /-- `Some(e)` -/
  | some (e : Expr)
  /-- `None` -/
  | none
  /-- `&e` -/
  | ref (e : Expr)
  /-- `&mut e` -/
  | refMut (e : Expr)
  /-- `&e[i..]` -/
  | tail (e i : Expr)
  /-- `e.f` -/
  | field (e : Expr) (f : Name)
  /-- `e.m()` -/
  | method (e : Expr) (m : Name)
  /-- `e.m(a)` -/
  | method1 (e : Expr) (m : Name) (a : Expr)
  /-- `T::f(a)` -/
  | call1 (t : Ty) (f : Fun) (a : Expr)
  /-- `T::f(a, b)` -/
  | call2 (t : Ty) (f : Fun) (a b : Expr)
  /-- `T::f(a, b, c)` -/
  | call3 (t : Ty) (f : Fun) (a b c : Expr)
  /-- `e?` -/
  | try (e : Expr)
  /-- `(a, b)` -/
  | pair (a b : Expr)
  /-- `N { x, y, }`, one field per line -/
  | record (n : Name) (fields : List Name)
  /-- `Self::Offsets::default()` -/
  | offsets
  /-- `bp3d_proto::message::Message::new(size, data)` -/
  | message (size data : Expr)
  /-- `Self::N` -/
  | unitCase (n : Name)
  /-- `e.map(|v| v.map(Self::N))` -/
  | mapCase (e : Expr) (n : Name)
  /-- `Ok(e)` -/
  | ok (e : Expr)
  /-- `Err(bp3d_proto::message::Error::InvalidUnionDiscriminant(e as _))` -/
  | errUnion (e : Expr)
  /-- `return e` -/
  | ret (e : Expr)
  /-- `if a == b { x } else { y }`, the branches on lines of their own -/
  | ifEq (a b x y : Expr)

/-- `n` spaces.  Rust, not in `/repo`; needed for `gen/rust/message.from_slice.template`,
`gen/rust/message.write.template`, `gen/rust/message.offsets.template` and `gen/rust/union.template`. -/
def spaces (n : Nat) : Bytes := List.replicate n 0x20

/-- Expressions, printed; `ind` is the indentation of the line the expression begins on.  Rust, not in
`/repo`; needed for `gen/rust/message.from_slice.template`, `gen/rust/message.write.template`,
`gen/rust/message.offsets.template` and `gen/rust/union.template`. -/
def Expr.print (ind : Nat) : Expr → Bytes
  | .var x => Name.utf8 x
  | .nat n => display n
  | .unit => b!"()"
  | .bool b => if b then b!"true" else b!"false"
  | .some e => t!"Some({e.print ind})"
  | .none => b!"None"
  | .ref e => t!"&{e.print ind}"
  | .refMut e => t!"&mut {e.print ind}"
  | .tail e i => t!"&{e.print ind}[{i.print ind}..]"
  | .field e f => t!"{e.print ind}.{Name.utf8 f}"
  | .method e m => t!"{e.print ind}.{Name.utf8 m}()"
  | .method1 e m a => t!"{e.print ind}.{Name.utf8 m}({a.print ind})"
  | .call1 t f a => t!"{t.print}::{f.print}({a.print ind})"
  | .call2 t f a b => t!"{t.print}::{f.print}({a.print ind}, {b.print ind})"
  | .call3 t f a b c => t!"{t.print}::{f.print}({a.print ind}, {b.print ind}, {c.print ind})"
  | .try e => t!"{e.print ind}?"
  | .pair a b => t!"({a.print ind}, {b.print ind})"
  | .record n fields =>
    t!"{Name.utf8 n} \{
{Text.all (fun x => t!"{spaces (ind + 4)}{Name.utf8 x},
") fields}
{spaces ind}}"
  | .offsets => b!"Self::Offsets::default()"
  | .message a b => t!"bp3d_proto::message::Message::new({a.print ind}, {b.print ind})"
  | .unitCase n => t!"Self::{Name.utf8 n}"
  | .mapCase e n => t!"{e.print ind}.map(|v| v.map(Self::{Name.utf8 n}))"
  | .ok e => t!"Ok({e.print ind})"
  | .errUnion e =>
    t!"Err(bp3d_proto::message::Error::InvalidUnionDiscriminant({e.print ind} as _))"
  | .ret e => t!"return {e.print ind}"
  | .ifEq a b x y =>
    t!"if {a.print ind} == {b.print ind} \{
{spaces (ind + 4)}{x.print (ind + 4)}
{spaces ind}} else \{
{spaces (ind + 4)}{y.print (ind + 4)}
{spaces ind}}"

/-- An arm of a `match`.  Rust, not in `/repo`; needed for `gen/rust/message.from_slice.template`,
`gen/rust/message.write.template`, `gen/rust/message.offsets.template` and `gen/rust/union.template`. -/
structure Arm where
  pat : Pat
  body : Expr

/-- An arm, printed on a line of its own.  Rust, not in `/repo`; needed for
`gen/rust/message.from_slice.template`, `gen/rust/message.write.template`,
`gen/rust/message.offsets.template` and `gen/rust/union.template`. -/
def Arm.print (ind : Nat) (a : Arm) : Bytes :=
  t!"{spaces ind}{a.pat.print} => {a.body.print ind}"

/-- Arms, each followed by a comma.  Rust, not in `/repo`; needed for
`gen/rust/message.from_slice.template`, `gen/rust/message.write.template`,
`gen/rust/message.offsets.template` and `gen/rust/union.template`. -/
def printArms (ind : Nat) (arms : List Arm) : Bytes := Text.all (fun a => t!"{a.print ind},
") arms

/-- Statements; those with a `match` are separate, because arms are expressions without `match`.  Rust,
not in `/repo`; needed for `gen/rust/message.from_slice.template`, `gen/rust/message.write.template`,
`gen/rust/message.offsets.template` and `gen/rust/union.template`. -/
inductive Stmt where
  /-- an empty line -/
  | blank
  /-- `use p;` -/
  | use (p : Bytes)
  /-- `let mut x: usize = e;` -/
  | letUsize (x : Name) (e : Expr)
  /-- `let mut x = e;` -/
  | letMut (x : Name) (e : Expr)
  /-- `let x = e;` -/
  | let (x : Name) (e : Expr)
  /-- `let (x, y) = e;` -/
  | letPair (x y : Name) (e : Expr)
  /-- `x += e;` -/
  | add (x : Name) (e : Expr)
  /-- `x.f = e;` -/
  | set (x f : Name) (e : Expr)
  /-- `x.f.start = e;` (`first`) or `x.f.end = e;` -/
  | setRange (x f : Name) (first : Bool) (e : Expr)
  /-- `e;` -/
  | expr (e : Expr)
  /-- `match e { arms };`: an empty line and the arm `last` follow the arms -/
  | match (e : Expr) (arms : List Arm) (last : Arm)
  /-- `let x = match e { arms };`: an empty line follows the arms -/
  | letMatch (x : Name) (e : Expr) (arms : List Arm)

/-- Statements, printed with 8 spaces of indentation as in `gen/rust/message.from_slice.template`,
`message.offsets.template`, `message.write.template` and `union.template`. -/
def Stmt.print : Stmt → Bytes
  | .blank => b!"\n"
  | .use p => t!"        use {p};
"
  | .letUsize x e => t!"        let mut {Name.utf8 x}: usize = {e.print 8};
"
  | .letMut x e => t!"        let mut {Name.utf8 x} = {e.print 8};
"
  | .let x e => t!"        let {Name.utf8 x} = {e.print 8};
"
  | .letPair x y e => t!"        let ({Name.utf8 x}, {Name.utf8 y}) = {e.print 8};
"
  | .add x e => t!"        {Name.utf8 x} += {e.print 8};
"
  | .set x f e => t!"        {Name.utf8 x}.{Name.utf8 f} = {e.print 8};
"
  | .setRange x f true e => t!"        {Name.utf8 x}.{Name.utf8 f}.start = {e.print 8};
"
  | .setRange x f false e => t!"        {Name.utf8 x}.{Name.utf8 f}.end = {e.print 8};
"
  | .expr e => t!"        {e.print 8};
"
  | .match e arms last =>
    t!"        match {e.print 8} \{
{printArms 12 arms}
{last.print 12}
        };
"
  | .letMatch x e arms =>
    t!"        let {Name.utf8 x} = match {e.print 8} \{
{printArms 12 arms}
        };
"

/-- The end of a function body.  Rust, not in `/repo`; needed for
`gen/rust/message.from_slice.template`, `gen/rust/message.write.template`,
`gen/rust/message.offsets.template` and `gen/rust/union.template`. -/
inductive Tail where
  | none
  | expr (e : Expr)
  /-- `match e { arms }`, laid out as in `Stmt.match` -/
  | match (e : Expr) (arms : List Arm) (last : Arm)
  /-- `match e { arm, last }` without empty lines -/
  | match2 (e : Expr) (arm last : Arm)

/-- The end of a function body, printed.  Rust, not in `/repo`; needed for
`gen/rust/message.from_slice.template`, `gen/rust/message.write.template`,
`gen/rust/message.offsets.template` and `gen/rust/union.template`. -/
def Tail.print : Tail → Bytes
  | .none => []
  | .expr e => t!"        {e.print 8}
"
  | .match e arms last =>
    t!"        match {e.print 8} \{
{printArms 12 arms}
{last.print 12}
        }
"
  | .match2 e arm last =>
    t!"        match {e.print 8} \{
{arm.print 12},
{last.print 12}
        }
"

/-- A function body.  Rust, not in `/repo`; needed for `gen/rust/message.from_slice.template`,
`gen/rust/message.write.template`, `gen/rust/message.offsets.template` and `gen/rust/union.template`. -/
structure Body where
  stmts : List Stmt
  tail : Tail

/-- A function body, printed.  Rust, not in `/repo`; needed for `gen/rust/message.from_slice.template`,
`gen/rust/message.write.template`, `gen/rust/message.offsets.template` and `gen/rust/union.template`. -/
def Body.print (b : Body) : Bytes := Text.all Stmt.print b.stmts ++ b.tail.print

end Proto.Rs
