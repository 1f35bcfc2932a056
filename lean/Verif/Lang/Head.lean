import Verif.Lang.Eval
import Verif.Lang.Print

/-!
# The constructors, conversions, decoder and encoder of a structure as programs

The functions of `compiler/src/gen/rust/structure.template`, in the part of Rust they are written in.
A structure `N<T>` is its bytes (`Value.struct`), whatever `T` is; `AsRef` and `AsMut` of byte arrays
and slices are the identity (the standard library's implementations; others are not represented).
-/

namespace Proto.Rs.Head

open Text

/-- Expressions.  Rust, not in `/repo`; needed for `gen/rust/structure.template`. -/
inductive Expr where
  | var (x : Name)
  /-- `x.data` -/
  | data (x : Name)
  /-- `e.as_ref()` -/
  | asRef (e : Expr)
  /-- `e.as_mut()` -/
  | asMut (e : Expr)
  /-- `[0; n]` -/
  | zeros (n : Nat)
  /-- `<Self as bp3d_proto::util::FixedSize>::SIZE` -/
  | size
  /-- `&e[..n]` -/
  | upTo (e n : Expr)
  /-- `e.len()` -/
  | len (e : Expr)
  /-- `T { data }`, where `T` is `Self` or a name -/
  | short (ty : Option Name)
  /-- `T { data: e }` -/
  | make (ty : Option Name) (e : Expr)
  /-- `Self::new(e)` -/
  | new (e : Expr)
  /-- `bp3d_proto::message::Message::new(a, b)` -/
  | message (a b : Expr)
  /-- `Ok(e)` -/
  | ok (e : Expr)
  /-- `Err(bp3d_proto::message::Error::Truncated)` -/
  | truncated
  /-- `()` -/
  | unit

/-- The name in front of a struct literal.  Rust, not in `/repo`; needed for
`gen/rust/structure.template`. -/
def printTy : Option Name → Bytes
  | none => b!"Self"
  | some n => n.utf8

/-- Expressions, printed.  Rust, not in `/repo`; needed for `gen/rust/structure.template`. -/
def Expr.print : Expr → Bytes
  | .var x => x.utf8
  | .data x => t!"{x.utf8}.data"
  | .asRef e => t!"{e.print}.as_ref()"
  | .asMut e => t!"{e.print}.as_mut()"
  | .zeros n => t!"[0; {display n}]"
  | .size => b!"<Self as bp3d_proto::util::FixedSize>::SIZE"
  | .upTo e n => t!"&{e.print}[..{n.print}]"
  | .len e => t!"{e.print}.len()"
  | .short ty => t!"{printTy ty} \{ data }"
  | .make ty e => t!"{printTy ty} \{ data: {e.print} }"
  | .new e => t!"Self::new({e.print})"
  | .message a b => t!"bp3d_proto::message::Message::new({a.print}, {b.print})"
  | .ok e => t!"Ok({e.print})"
  | .truncated => b!"Err(bp3d_proto::message::Error::Truncated)"
  | .unit => b!"()"

/-- Function bodies: perhaps a call `x.write_all(e)?;`, then a value or a choice.  Rust, not in `/repo`;
needed for `gen/rust/structure.template`. -/
inductive Body where
  | value (e : Expr)
  | writeAll (x : Name) (e : Expr) (rest : Body)
  /-- `if a < b { x } else { y }` -/
  | ifLt (a b x y : Expr)

/-- Bodies, printed.  Rust, not in `/repo`; needed for `gen/rust/structure.template`. -/
def Body.print : Body → Bytes
  | .value e => t!"        {e.print}
"
  | .writeAll x e rest => t!"        {x.utf8}.write_all({e.print})?;
" ++ rest.print
  | .ifLt a b x y => t!"        if {a.print} < {b.print} \{
            {x.print}
        } else \{
            {y.print}
        }
"

/-- What a program refers to: the name of the structure and the constant `SIZE`.  Rust, not in `/repo`;
needed for `gen/rust/structure.template`. -/
structure Globals where
  name : Name
  size : Nat

/-- Whether a struct literal is one of the structure at hand.  Rust, not in `/repo`; needed for
`gen/rust/structure.template`. -/
def own (g : Globals) : Option Name → Bool
  | none => true
  | some n => n = g.name

/-- Expressions.  Rust, not in `/repo`; needed for `gen/rust/structure.template`. -/
def Expr.eval (g : Globals) (ρ : Locals) : Expr → Run Val
  | .var x => Run.get (ρ.lookup x)
  | .data x => do
    let v ← Run.get (ρ.lookup x)
    match v with
    | .data (.struct b) => .pure (.data (.buf b))
    | _ => .stuck
  | .asRef e => do
    let v ← e.eval g ρ
    match v with
    | .data (.buf b) => .pure (.data (.buf b))
    | _ => .stuck
  | .asMut e => do
    let v ← e.eval g ρ
    match v with
    | .data (.buf b) => .pure (.data (.buf b))
    | _ => .stuck
  | .zeros n => .pure (.data (.buf (List.replicate n 0)))
  | .size => .pure (.usize g.size)
  | .upTo e n => do
    let v ← e.eval g ρ
    let n ← n.eval g ρ
    match v, n with
    | .data (.buf b), .usize n => do
      let b ← lift (Proto.slice b 0 n)
      .pure (.data (.buf b))
    | _, _ => .stuck
  | .len e => do
    let v ← e.eval g ρ
    match v with
    | .data (.buf b) => .pure (.usize b.length)
    | _ => .stuck
  | .short ty => do
    let v ← Run.get (ρ.lookup "data".toList)
    match v, own g ty with
    | .data (.buf b), true => .pure (.data (.struct b))
    | _, _ => .stuck
  | .make ty e => do
    let v ← e.eval g ρ
    match v, own g ty with
    | .data (.buf b), true => .pure (.data (.struct b))
    | _, _ => .stuck
  | .new e => do
    let v ← e.eval g ρ
    match v with
    | .data (.buf b) => .pure (.data (.struct b))
    | _ => .stuck
  | .message a b => do
    let n ← a.eval g ρ
    let v ← b.eval g ρ
    match n with
    | .usize n => .pure (.sized n v)
    | _ => .stuck
  | .ok e => do
    let v ← e.eval g ρ
    .pure (.ok v)
  | .truncated => .pure (.err .truncated)
  | .unit => .pure .unit

/-- Bodies.  The writer takes every chunk.  Rust, not in `/repo`; needed for
`gen/rust/structure.template`. -/
def Body.run (g : Globals) (ρ : Locals) : Body → Run Val
  | .value e => e.eval g ρ
  | .writeAll x e rest => do
    let w ← Run.get (ρ.lookup x)
    let v ← e.eval g ρ
    match w, v with
    | .writer, .data (.buf b) => do
      let _ ← (⟨[b], .ok ()⟩ : Run Unit)
      rest.run g ρ
    | _, _ => .stuck
  | .ifLt a b x y => do
    let a ← a.eval g ρ
    let b ← b.eval g ρ
    match a, b with
    | .usize a, .usize b => if a < b then x.eval g ρ else y.eval g ρ
    | _, _ => .stuck

/-- A function: the line the `impl` begins with, lines in front of the function, its signature, its
body.  Rust, not in `/repo`; needed for `gen/rust/structure.template`. -/
structure Fn where
  header : Bytes
  items : Bytes
  sig : Bytes
  body : Body

/-- Functions, printed in their `impl`.  Rust, not in `/repo`; needed for `gen/rust/structure.template`.
-/
def Fn.print (f : Fn) : Bytes :=
  t!"{f.header} \{
{f.items}    {f.sig} \{
{f.body.print}    }
}
"

/-- `new` (`structure.template` 2-6). -/
def newFn (s : Structure) : Fn where
  header := t!"impl<T> {s.name.utf8}<T>"
  items := []
  sig := b!"pub fn new(data: T) -> Self"
  body := .value (.short none)

/-- `new_on_stack` (`structure.template` 8-12). -/
def newOnStackFn (s : Structure) : Fn where
  header := t!"impl {s.name.utf8}<[u8; {display s.byteSize}]>"
  items := []
  sig := b!"pub fn new_on_stack() -> Self"
  body := .value (.make none (.zeros s.byteSize))

/-- `from` (`structure.template` 14-18). -/
def fromFn (s : Structure) : Fn where
  header := t!"impl<T> From<T> for {s.name.utf8}<T>"
  items := []
  sig := b!"fn from(data: T) -> Self"
  body := .value (.short none)

/-- `to_ref` (`structure.template` 20-24). -/
def toRefFn (s : Structure) : Fn where
  header := t!"impl<'a, T: AsRef<[u8]>> {s.name.utf8}<T>"
  items := []
  sig := t!"pub fn to_ref(&'a self) -> {s.name.utf8}<&'a [u8]>"
  body := .value (.make (some s.name) (.asRef (.data (id "self"))))

/-- `to_mut` (`structure.template` 26-30). -/
def toMutFn (s : Structure) : Fn where
  header := t!"impl<'a, T: AsMut<[u8]>> {s.name.utf8}<T>"
  items := []
  sig := t!"pub fn to_mut(&'a mut self) -> {s.name.utf8}<&'a mut [u8]>"
  body := .value (.make (some s.name) (.asMut (.data (id "self"))))

/-- `write_to` (`structure.template` 48-57). -/
def writeToFn (s : Structure) : Fn where
  header := t!"impl<'a> bp3d_proto::message::WriteTo for {s.name.utf8}<&'a [u8]>"
  items := b!"    type Input = Self;\n"
  sig := b!"fn write_to<W: std::io::Write>(input: &Self, mut out: W) -> bp3d_proto::message::Result<()>"
  body := .writeAll (id "out") (.upTo (.data (id "input")) .size) (.value (.ok .unit))

/-- `from_slice` (`structure.template` 59-71). -/
def fromSliceFn (s : Structure) : Fn where
  header := t!"impl<'a> bp3d_proto::message::FromSlice<'a> for {s.name.utf8}<&'a [u8]>"
  items := b!"    type Output = Self;\n"
  sig := b!"fn from_slice(slice: &'a [u8]) -> bp3d_proto::message::Result<bp3d_proto::message::Message<Self>>"
  body := .ifLt (.len (.var (id "slice"))) .size .truncated
    (.ok (.message .size (.new (.upTo (.var (id "slice")) .size))))

/-- The declaration of the structure (`structure.template` 35-40). -/
def declText (s : Structure) : Bytes :=
  t!"#[derive(Copy, Clone, Default, Debug)]
pub struct {s.name.utf8}<T> \{
    data: T
}
"

/-- The two size constants (`structure.template` 32, 42-46). -/
def sizeText (lib : Lib) (s : Structure) : Bytes :=
  t!"pub const SIZE_{lib.caseMap.upper s.name.utf8}: usize = {display s.byteSize};
impl<T> bp3d_proto::util::FixedSize for {s.name.utf8}<T> \{
    const SIZE: usize = {display s.byteSize};
}
"

/-- What the programs of a structure refer to.  `gen/rust/structure.template` 37, 44. -/
def globals (s : Structure) : Globals := ⟨s.name, s.byteSize⟩

end Proto.Rs.Head
