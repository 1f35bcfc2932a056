# Formal model of BlockProject3D/tools.proto (Lean 4)

`/verif/lean/Verif` holds a Lean 4 model of the Rust code in `/repo`
(runtime crate, compiler crate, code generator) and the theorems about it.
Property ids refer to `/verif/properties.jsonl`; the theorem names for each id
are in `/verif/MANIFEST.json`.

## Layers

| module group | models | how |
|---|---|---|
| `Verif/Base` | `Result` + panic, machine arithmetic, byte strings | `Res ε α = ok / err / panic`; `Profile` = checked or wrapping overflow (Cargo debug / release); `usize` is 64 bits (other widths: C104, C105, C116) |
| `Verif/Runtime/Codec` | `runtime/src/codec/{bytes,bits,arrays}.rs` | functions on `List UInt8`, every slice index and shift checked as in Rust |
| `Verif/Runtime/Message` | `runtime/src/message/**` | parsers `Bytes → Res (Msg α)`; writers over an abstract `Write` sink (growable buffer, counter, sink failing after `k` bytes) |
| `Verif/Compiler` | `compiler/src/{model,compiler}/**`, `util.rs`, `interface.rs` | total functions from the input model to `Res` of compiled types |
| `Verif/Gen` | `compiler/src/gen/**` | (a) denotational semantics of the code the Rust templates emit for structures, unions, messages; (b) the template engine itself; (c) file selection |
| `Verif/Lang` | the subset of Rust the message, union and structure templates emit | syntax, printer and big-step semantics of the subset; the generated functions as programs; proof that their printed form is the generated text and their run is `Verif/Gen/Message` |
| `Verif/Float` | float views (`compiler/src/compiler/structure.rs`, `gen/rust/structure.field.template`) in `f32` and `f64` | finite numbers are rationals; every operation rounds to nearest, ties to even |
| `Verif/Fixtures` | `testprog/build.rs` and the schemas of `testprog/src` | the JSON values of the schema files, and the protocols they should compile to, both transcribed by hand |
| `Verif/Spec` | nothing in `/repo` | small independent specifications (bit ranges, base-256 digits, two's complement, wire grammar) |
| `Verif/Props` | nothing in `/repo` | the property theorems, one file per group, each with non-vacuity examples |

## Trusted base

* Lean 4.33.0 kernel; Mathlib as a library of lemmas.  Every theorem depends on
  at most `propext`, `Classical.choice`, `Quot.sound` (checked by
  `#print axioms` in scratch runs; no axiom is declared, no `sorry`,
  `native_decide` or `bv_decide`).
* The transcription of the Rust source into Lean definitions.  Each definition
  cites the file and lines it models and lists simplifications.
* External crates are modelled by their documented behaviour:
  `bytesutil` 0.7 (`read_bytes_le/be`, `write_bytes_le/be` use the first
  `size_of::<T>()` bytes and panic on shorter slices), `byteorder`-style
  reads in `ValueLE/BE`, `std::str::from_utf8` (concrete UTF-8 validator),
  `std::io::Write for Vec<u8>`, `HashMap` (finite map; iteration order is an
  explicit permutation argument where it matters), `itertools`.

* For C66-C68, the printer (`Lang/Syntax.lean`) and the semantics
  (`Lang/Eval.lean`) of the Rust subset.  Local variables are a list, newest
  first, so `let` shadows as in Rust; `?` and `return` leave the function; a
  run ends in a value, a return, a panic, or *stuck*, which stands for a
  program the Rust compiler rejects.  A call of an associated function of a
  generated type, found by its path, does what `Gen/Message.lean` says for
  that type, and accessors of structures do what `Gen/Struct.lean` says, so
  the theorems are compositional: each function is compared assuming its
  callees.  References, mutability, lifetimes and the static type of integer
  literals are not tracked.
* For C69 and C70, `Lang/Accessor.lean` in the same way for the accessors of
  structures, with the types of integers and literals tracked.  A Rust enum
  without fields is taken to occupy no byte when it has one variant and
  otherwise the smallest of 1, 2, 4 and 8 bytes that holds its discriminants,
  which is what the Rust compiler does for the default representation.  Floats
  are computed exactly or as Rust does, by choice; what the text of a constant
  denotes in the second case is a parameter (C69_ieee).
* For C82, `Lang/Head.lean` in the same way for the functions of a structure
  that do not depend on its fields; `as_ref` and `as_mut` of the storage are
  the identity on bytes, as they are for byte arrays, slices and vectors.
* For C88, `Lang/Types.lean`: type expressions with their printed form, the
  types they stand for, and the implementations of the codec traits as inductive
  relations, one rule per `impl` in the runtime and in the generated files.
  Lifetimes are left out, so borrow checking is not covered; names of local
  variables other than fields are covered by C66.  Which number types `bytesutil`
  reads and writes is a parameter, all but `bool` being required.
* For C71-C73, the behaviour of code derived by `serde` (`Compiler/Input.lean`):
  a struct is read from an object or by position from an array, repeated known
  members are errors, unknown ones are ignored, an internally tagged enum takes
  its tag from the member `type`, `rename_all` on an enum renames variants and
  not their members.  What the crates decide and the repository does not (how
  numbers outside 0..2^53 are read, non-string byte orders, arrays that are too
  long, hash order) is a parameter `Serde` of every theorem; so is the width of
  `usize`, and a number that does not fit is refused (`usize_range`).
* For C74-C81, the Swift runtime (`Swift/*.lean`): a failed `assert` stops
  debug builds only, overflow and failed conversions stop both, `<<` and `>>` of
  the standard library are zero beyond the width, the host is little-endian,
  `NSMutableData.replaceBytes` overwrites its range and `append` extends,
  `mutableCopy` copies, indices of a slice are those of the sliced collection,
  the closed range passed to `copyBytes` includes its end,
  `DataBuffer(bytes:)` of a raw buffer pointer is the copying initialiser.  What
  Foundation does beyond the end of data, how invalid UTF-8 is repaired and how
  much can be allocated is a parameter `Foundation` of every theorem.  Generic
  buffers are `DataBuffer`, the only implementation.

## Not modelled

* Rust's type checker and borrow checker, beyond what C88 says: for messages and
  unions, which codec implementations exist and whether their types are the
  declared ones.  Some accepted schemas generate Rust that does not compile (for
  example `Optional<ValueLE<..>>` misses the `Output = T` bound, lifetimes on
  lifetime-free types); C88 says which, and the other properties give their code
  the evident meaning.
* IEEE rounding in C16: there float views are modelled over exact rationals;
  `Verif/Float` and C85 model them with rounding, and C69 the accessors as
  programs both ways.  The sign of zero and payloads of NaN are not tracked.  A
  wire float is its bit pattern.
* The file system beyond the sequence of writes requested; the grammar of
  JSON5 (text to value); `bp3d_util` path handling.
* The Swift test program `Swift/testprog`; `cli/src/main.rs` (prints a
  greeting).

## Refuted expectations

Twenty-one properties were first written as the unconditional claim a user would
expect and turned out false of the code: C02, C06, C11, C15, C16, C25, C32, C38,
C40, C45, C47, C48, C51, C52, C53, C59, C64, C65, C88, C89, C114.  Each one keeps the unconditional
claim in Lean (usually `Cnn_full`) with its refutation (`Cnn_full_false` or
`Cnn_false`), and is now stated in `properties.jsonl` as the exact condition under
which it holds, or the exact behaviour, which is what `MANIFEST.json` reports as
proved.  The refutations are defects of the code, not of the model.

## Plan per property

C01-C07 (codecs).  Bytes are `List UInt8`; `bitAt buf i` is bit `i%8` of byte
`i/8`.  Key lemma: `Nat.testBit (leNat buf) i = bitAt buf i`.  Reads and writes
are characterised by their bits for every offset and width; the round trips and
frame conditions are corollaries.  C02 and C06 are false of the code: the exact
condition is proved together with concrete refutations of the full statement.

C08, C09.  Induction over the field list of `Structure::from_model`.

C10-C12, C17.  Semantics of the generated accessors along a path of nested
structures and array items.  A `WellPlaced` predicate states the placement
condition in terms of declared widths and offsets.  Get = extraction of the
absolute bit range, set = replacement of that range; disjointness comes from
C08; histories by induction.  C11 is false of the code; the refutation is a
two-field structure.

C13-C16 (views).  Arithmetic on `Nat`/`Int`/`ℚ`; the getter and setter bodies of
the templates are transcribed and proved inverse under the stated conditions.

C18-C21 (primitive wire codecs).  Generic combinators; round trip, truncation
and exact acceptance conditions.

C22-C28, C35 (messages).  Compiled messages are a mutual inductive type; the
semantics of generated `from_slice`, `from_slice_with_offsets`, `write_to` is a
structural recursion over it with an untyped value universe.  Compositional
predicates (round trip, delimited, local, total, truncation, re-encode) are
proved closed under each combinator and lifted by structural recursion over the
schema.  `Spec/Grammar.lean` describes the accepted bytes as a grammar, apart from
any decoder (C28_grammar).

C29, C30.  Writers are programs over an abstract sink; a simulation lemma shows
every sink sees the same chunk sequence until its own failure.

C31-C34.  Lists and arrays: state machines for the builder and the iterator,
refined to plain lists.

C58 gives the wire form of every representable value by recursion over the
schema, independently of the encoder.  Schema classes (`delimited`,
`tailGreedy`, `greedy`, ...) and representable values (`Repr`) are in
`Spec/Message.lean`.  `emb` (which messages are flagged embedded when code is
generated) is a parameter of the semantics; the compiler layer computes it.

C36-C40.  Union dispatch and greedy fields: theorems about the same semantics.

C41-C50.  The compiler as total functions with explicit panics.

C51, C52.  C51 compares wire size with structure size.  C52: the Rust generator
is modelled down to the text it writes.  `Gen/Templates.lean` is the verbatim
text of the `.template` files (written by `tools/templates.py` from /repo, one
byte literal per file), `Gen/TemplatesCompiled.lean` shows by kernel evaluation
what the modelled template engine compiles them to, `Gen/Code.lean` and
`Gen/Rust.lean` are the generator functions, with every `unwrap` an explicit
panic.  `Spec/Rust.lean` writes the expected output as plain text with holes,
without templates, scopes or the generator's helpers.  `Base/Lit.lean` has the
notations: `b!"..."` elaborates to the explicit list of UTF-8 bytes, `t!"... {e}"`
to concatenations of those with expressions, `krfl` is `Eq.refl` left to the
kernel to check (no axiom).  Case conversion and the `Debug` format of floats and
paths (`Lib`) are parameters: the theorems hold for all of them.

C64, C65.  Corollaries of the generated text: which generics declarations and
mentions carry; the Swift generator (`Gen/Swift.lean`, expected text in
`Spec/Swift.lean`).

C53-C56.  The template engine over bytes (`Gen/Template.lean`).  The
specification (`Spec/Template.lean`) is a tree of fragments and lines made of
segments; a structural induction shows that compiling the text of a tree yields
the fragments of the tree.  Function pointers are tokens, so templates can be
compared.

C57, C63.  `Protoc::generate` and the build script helper over an arbitrary file
system: an environment that decides from the operations done so far whether the
next one succeeds.  The specification is the list of operations of a run in
which nothing fails; every run does a prefix of it.  The generator is a
parameter.

C59-C62.  Strings and values accepted by the union compiler, invariants of a
whole loading run, decoding of compiled messages, and agreement of debug and
release builds.

C74-C81.  The Swift runtime against the Rust runtime.  Data objects live in a
heap because slices share them; a view is the data of a buffer with two
positions.  `Spec/SwiftRuntime.lean` relates outcomes of the two languages;
decoders are compared on every well-formed view, so position dependence shows.

C82.  The functions of a structure that do not depend on its fields, as
programs of the same subset.

C83.  Parts of Swift buffers: case analysis on the position of the part.

C84.  Composition: a successful run of the build script gives the compiled
protocol, the files, their text and so the programs of C66-C69.

C85.  `near` rounds to a multiple of the last place.  Rounding is monotone,
idempotent, nearest-even, and has relative error at most half a unit for normal
numbers.  The printed constants are any decimals that read back as the `f64`
constants, so the literals carry two roundings in `f32`.  Multiplying the bounds
gives a factor between `1 - 8u` and `1 + 8u` for reading and writing back, less
than one raw step if three digits are spare.

C86.  Each operation of `Base/Arith` against `BitVec`.

C87.  Loading and compiling the transcribed schemas is computed by the kernel for
every enumeration order; the messages are instances of C23, C28, C35 and C58 with
the representable values and wire forms spelled out, the structures instances of
C10, C13 and C15.  How JSON5 text is read is
not modelled: the theorems hold for every reader that reads the files as the
transcribed values.

C88.  The relations are inverted for each kind of field, giving a table of
accepted fields; decoders are then handled by induction over the steps, the
types of the variables being those declared.

C89.  What a document describes (C71) does not mention hash order, so readers that
differ in it read the same up to the order of variants; compilation sorts these, and
the sort is a function of the set when values are distinct.

C90.  Items are byte strings of one size; the buffer is their concatenation, and each
operation on the wrapper is simulated by one on the list of items.

C91-C93.  `Spec/Items.lean` reads declared names off a text: lines that begin, after
blanks, with a keyword such as `pub fn`, and the word that follows.  `Decl/Scan.lean`
shows this is the output of an automaton whose run over a text is the composition of
its runs over the pieces; the texts of C52 are then run piece by piece, literal
pieces by evaluation, inserted names by induction.  The names read are those a Rust
compiler would see as long as no name in the schema contains a line break, which
`Tidy` asks for.

C94.  Phases of C44; the path table is filled by imports alone.

C95-C98.  Two schemas side by side.  Decoding the fields of a message one after the
other splits at any field, hence prefixes; structures reuse the bit-level exactness of
C09; renaming is a simulation.  Messages that are list items keep their flag: the
hypothesis `c.emb m'.id = c.emb m.id` says that the change of schema does not make or
stop making the message a list item, which changes the codec of its own lists (C24,
C40).

C99.  The environment of C57 (any answers) is instantiated by a disk: entries by path,
directories need their parent, files are overwritten.  A crash leaves the disk between
two operations or with anything in the file being written; a history is any number of
such builds.  The invariant `Ready` (the output directory exists, protocol names are
free or directories, no directory inside them) survives every crash, and a build on a
ready disk is computed exactly (`settled`).  Not modelled: loss of completed writes by
the operating system, symbolic links, path normalisation.

C100, C101.  `Spec/Alike.lean` says when two compiled protocols are alike under a
renaming of types and of `Rc` identities, and when one schema is a revision of another.
Compilation is a simulation for this relation, and codecs of alike messages are equal
functions.  Freedom in the identities also shows that numbering `Rc` cells by a counter
(`World.next`) is immaterial.

C103.  `Spec/Grow.lean` says when a build is another one with declarations and files
added.  `Props/Grow.lean` follows both compilations side by side: what is kept keeps its
name, identities move up by the number of additions before, and no mark of an old message
changes unless an addition lists it.  Where additions list old messages, the marks differ;
writing does not read them, nor does decoding of messages that end by themselves
(`Props/Revise.lean`).  The renaming of the simulation of C101 is chosen so
that no addition has the name of a counterpart.  `Props/Append.lean` needs no new names: messages behind all
others cannot change what the names before them refer to, only the marks.

C106.  `Spec/Reorder.lean` says when one build is another with neighbours exchanged.  One
step is followed side by side with the simulation of C101 under the names themselves and
the permutation of identities the step causes; any number of steps follows by composing
results, which are equalities.

C107.  `Spec/Skeleton.lean` relates descriptions by what is on the wire.  Both are compiled
side by side; the compiled forms are related by relations that forget kinds, views and
names of fields, under which decoders and encoders are equal functions.

C108.  `Spec/Patch.lean` says what following offsets to a field means and what replacing it
gives.  One level is an induction over the fields: those before the field stop before the
end of the input and so do not see the change, those after it see the same bytes and, up to
keys of unions, the same values.  Depth is an induction over the path.

C102.  `Spec/Least.lean` computes the least encoded size of a message from its
declaration.  Bounds on the number of list items follow by induction over the chain of
decoded items (C33).  What decoding costs is C115.

C109.  `Spec/Most.lean` computes the greatest encoded size, if there is one.  The bound is an
induction over schemas; that it is reached is another, which builds a value of that size, or
of any size where there is no greatest.

C110.  `Spec/Receive.lean` has a client that keeps what it could not decode.  That cutting does not
matter follows from decoding being unaffected by what follows (C23) and consuming at least a byte
(C102).  That errors other than `Truncated` are final is an induction over the schema: an error is
found in a field of which all bytes are there.  Length-prefixed strings slice before checking, so
that for them an incomplete message is a panic; a client has to know that the message is complete
before it decodes, which nothing in the generated code tells.

C111.  `Spec/Send.lean` has a sender that stops at the first failing write and one that reconnects.
Its stream holds the encodings of what it counts as sent and a prefix of the next (C30), which C110
turns into values.

C112.  `Spec/Concurrent.lean` has schedules of several builds.  Each build runs in its own
environment (C57 holds for all of them), which answers as the disk does after everything all
builds did.  That not all builds fail: a build that fails saw the missing directory before
another made it, which sees the one it fails on later still, and there are finitely many
operations.  `Props/Torn.lean` splits the write of a file into emptying it and writing parts.

C113, C114.  `Runtime/Write.lean` has the loop of `write_all` over `write`, and mutable slices as
outputs.  An output that is not interrupted for ever is a `Sink` (C113_sink), so that what is proved
for sinks holds for it.

C115.  `Gen/Work.lean` counts the steps of the decoders of `Gen/Message.lean`.  The bound is an
induction over schemas of a statement with two constants; a list item of at least a byte pays for
its turn of the loop with that byte.

C117.  `Props/Deep.lean` has the client of nested lists: values in which a list holds its items, a
relation for building the lists item by item, and a reader that iterates every list.  All statements
are inductions over schemas of the statements about one list (C33, C40, C115).

C118.  `Props/Finish.lean`: a completion is built field by field, with zeros for what has not begun.
Finding: invalid text in a NUL-terminated string and a key without case are noticed only when the rest
of the string, or the fields before the union, have arrived.

C119.  `Props/Corrupt.lean`: one induction over schemas for "decoded or too short", one for "the bytes
behind a value are fixed but for flags".  Finding: a message without strings and unions accepts every
input that is long enough, so that a corrupted message is noticed only by its length.

C120.  `Spec/Parts.lean` lists the calls of `write_all`, piece by piece, independently of the encoders;
`Props/Parts.lean` is one induction over schemas for "the pieces of the value, or those before the refusal".

C122.  `Props/Understand.lean`: reading back fixes the length (and without flags the bytes) of an encoding,
so that two revisions agree on a value only if they write it alike.  `Props/Nested.lean` does the
same for limits raised in messages inside of others, and for whole files; of lists of such messages only the
length is compared, since a list holds the bytes of its items and not their values.  Finding: raising the limit of a string
from 255 to 256 makes readers of the other revision panic or return another text.

C123.  `Props/Accept.lean`: the predicates in the namespace `Model` at its beginning read only the
description, with scopes as "the last declaration of the name"; the compiler's tables are related to them by
position (`Placed`), structure by structure and message by message.  Findings: the contents of union cases
can only be structures here, since messages are compiled after unions; a path ending with a nested structure
is taken with the position of that structure, read as a position in it; a boolean may have any width.
`Props/AcceptDebug.lean` divides the rest into descriptions that are reported and those that crash a debug build.

C124, C125, C126.  `Gen/Sizes.lean`, `Props/Sizes.lean`: `Recorded` collects the ranges at every depth of the offsets; the sizes come from
C35.  The file also states C47_leaf and C51_scalar, which follow the tests `as_fixed()` of the compiler line by line
(the model matches on the kind of field instead).

C104, C105.  `Runtime/Word.lean` and `Gen/Word.lean` repeat the functions that compute with
a `usize` or convert to one, with its width as a parameter; everything else is shared with
the 64-bit model.  `Gen/WordLemmas.lean` relates the two models by one of three relations on
results (equal; equal or a panic instead of a failure; successes kept), each closed under
sequencing, so that one induction over schemas serves all three.  Recorded offsets are
related the same way; that they tile the decoded bytes is proved at every width directly.

C116.  `Compiler/Word.lean` does the same for the functions of the compiler, which may run on a host
whose `usize` is narrower.  One induction over the compiler, for any relation on results that is
closed under sequencing, gives "same if accepted" and "same or a panic".  Findings: a release build
of the compiler on a 32-bit host silently generates wrong bounds for signed fields and ranges wider
than 32 bits, and cases with a minus sign get the number of the host that generated the code.

C121.  The readers of `Compiler/Input.lean` have the width of `usize` as a parameter; two of them are
compared reader by reader, upwards without and downwards with the condition that the numbers fit.
