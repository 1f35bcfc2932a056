import Verif.Runtime.Message

/-!
# `compiler/src/gen/template.rs`

A `&str` is represented by its bytes; a `HashMap` is an association list whose first entry for a key
is the current one (`insert` conses).
-/

namespace Proto

/-- `compiler/src/gen/template.rs` 34-43. -/
inductive TError where
  | invalidUtf8
  | invalidPop
  | noFragment
  | fragmentNotFound (name : Bytes)
  | variableNotFound (name : Bytes)
  | functionNotFound (name : Bytes)
deriving DecidableEq, Repr

/-- `template.rs` 45-54 (`Variable`, `Component`).  A `fn(&str) -> Cow<str>` is represented by a
token of type `φ`; what calling it does is a separate argument (`run`) of the rendering functions. -/
inductive Component (φ : Type) where
  | constant (text : Bytes)
  | variable (name : Bytes) (function : Option φ)
  | newLine
deriving DecidableEq, Repr

/-- `template.rs` 130-132. -/
abbrev FunctionMap (φ : Type) := List (Bytes × φ)

/-- The part of `v` before its first byte equal to `c`, and the part after it, if there is one
(`str::find` with the two slices taken at `template.rs` 58-65; a `:` is never part of another
character). -/
def splitAtByte (c : UInt8) : Bytes → Option (Bytes × Bytes)
  | [] => none
  | b :: bs => if b = c then some ([], bs) else (splitAtByte c bs).map fun (x, y) => (b :: x, y)

/-- `Component::parse_variable` (`template.rs` 57-73). -/
def Component.parseVariable (functionMap : FunctionMap φ) (v : Bytes) : Res TError (Component φ) :=
  match splitAtByte 0x3a v with
  | none => .ok (.variable v none)
  | some (name, functionName) => do
    let function ← Res.ofOption (.functionNotFound functionName) (functionMap.lookup functionName)
    .ok (.variable name (some function))

/-- `token.pop()?` (`template.rs` 112-123), given the text between `start` and `end`. -/
def popToken (text : Bytes) : Res TError (Option Bytes) :=
  if text = [] then .ok none
  else if validUtf8 text then .ok (some text) else .err .invalidUtf8

/-- `if let Some(component) = token.pop()?.map(Component::Constant) { push }` (`template.rs`
221-223, 227-229, 238-240): the components pushed. -/
def popConstant (text : Bytes) : Res TError (List (Component φ)) := do
  match ← popToken text with
  | none => .ok []
  | some t => .ok [.constant t]

/-- `template.rs` 231-233: the components pushed. -/
def popVariable (functionMap : FunctionMap φ) (text : Bytes) : Res TError (List (Component φ)) := do
  match ← popToken text with
  | none => .ok []
  | some t => do
    let c ← Component.parseVariable functionMap t
    .ok [c]

/-- The tokeniser loop and the final pop (`template.rs` 215-240; `Token`, 81-128): `text` is the text between `start`
and `end`, the last argument what is left of the line from `end` on.  The result lists the
components pushed. -/
def tokenise (functionMap : FunctionMap φ) : Bytes → Bytes → Res TError (List (Component φ))
  | text, [] => popConstant text
  | text, c :: rest =>
    if c = 0x7b then
      match rest with
      | d :: rest' =>
        if d = 0x7b then do
          let x ← popConstant (text ++ [c])
          let y ← tokenise functionMap [] rest'
          .ok (x ++ y)
        else do
          let x ← popConstant text
          let y ← tokenise functionMap [] (d :: rest')
          .ok (x ++ y)
      | [] => do
        let x ← popConstant text
        let y ← tokenise functionMap [] []
        .ok (x ++ y)
    else if c = 0x7d then
      match rest with
      | d :: rest' =>
        if d = 0x7d then do
          let x ← popConstant (text ++ [c])
          let y ← tokenise functionMap [] rest'
          .ok (x ++ y)
        else do
          let x ← popVariable functionMap text
          let y ← tokenise functionMap [] (d :: rest')
          .ok (x ++ y)
      | [] => do
        let x ← popVariable functionMap text
        let y ← tokenise functionMap [] []
        .ok (x ++ y)
    else tokenise functionMap (text ++ [c]) rest

/-- `template.rs` 76-79; also an entry of the stack. -/
structure Fragment (φ : Type) where
  name : Bytes
  content : List (Component φ)
deriving DecidableEq, Repr

/-- State of the loop over the lines: `fragments`, and `frag_stack` with the last pushed entry first.
`gen/template.rs` 187-188. -/
structure CompileState (φ : Type) where
  fragments : List (Bytes × Fragment φ)
  stack : List (Fragment φ)
deriving DecidableEq, Repr

/-- `data.split(|v| *v == b'\n')` (`template.rs` 189). -/
def splitLines : Bytes → List Bytes
  | [] => [[]]
  | c :: rest =>
    if c = 0x0a then [] :: splitLines rest
    else match splitLines rest with
      | [] => [[c]]
      | l :: ls => (c :: l) :: ls

/-- `template.rs` 194-198. -/
def stripCr (line : Bytes) : Bytes :=
  if line.getLast? = some 0x0d then line.dropLast else line

/-- The literal of `template.rs` 199: `#fragment push `. -/
def pushPrefix : Bytes :=
  [0x23, 0x66, 0x72, 0x61, 0x67, 0x6d, 0x65, 0x6e, 0x74, 0x20, 0x70, 0x75, 0x73, 0x68, 0x20]

/-- The literal of `template.rs` 205: `#fragment pop`. -/
def popPrefix : Bytes :=
  [0x23, 0x66, 0x72, 0x61, 0x67, 0x6d, 0x65, 0x6e, 0x74, 0x20, 0x70, 0x6f, 0x70]

/-- `.join(".")` (`template.rs` 209). -/
def joinDots (names : List Bytes) : Bytes := [0x2e].intercalate names

/-- One iteration of the loop over the lines (`template.rs` 190-243). -/
def compileLine (functionMap : FunctionMap φ) (s : CompileState φ) (line : Bytes) :
    Res TError (CompileState φ) :=
  if line = [] then .ok s
  else
    let line := stripCr line
    if pushPrefix.isPrefixOf line then
      let name := line.drop 15
      if validUtf8 name then .ok { s with stack := ⟨name, []⟩ :: s.stack } else .err .invalidUtf8
    else if popPrefix.isPrefixOf line then
      match s.stack with
      | [] => .err .invalidPop
      | fragment :: stack =>
        let combinedName := joinDots (s.stack.reverse.map Fragment.name)
        .ok ⟨(combinedName, fragment) :: s.fragments, stack⟩
    else
      match s.stack with
      | [] => .err .noFragment
      | cur :: stack => do
        let components ← tokenise functionMap [] line
        .ok { s with stack := ⟨cur.name, cur.content ++ components ++ [.newLine]⟩ :: stack }

/-- The loop over the lines (`template.rs` 190-243). -/
def compileLines (functionMap : FunctionMap φ) : CompileState φ → List Bytes →
    Res TError (CompileState φ)
  | s, [] => .ok s
  | s, line :: lines => do
    let s ← compileLine functionMap s line
    compileLines functionMap s lines

/-- `variables` (`template.rs` 178, 301). -/
abbrev Vars := List (Bytes × Bytes)

/-- `template.rs` 176-179. -/
structure Template (φ : Type) where
  fragments : List (Bytes × Fragment φ)
  variables : Vars
deriving DecidableEq, Repr

namespace Template

/-- `compile_with_function_map` (`template.rs` 186-248): fragments still open at the end are
dropped. -/
def compileWith (functionMap : FunctionMap φ) (data : Bytes) : Res TError (Template φ) := do
  let s ← compileLines functionMap ⟨[], []⟩ (splitLines data)
  .ok ⟨s.fragments, []⟩

/-- `var` and `var_d` (`template.rs` 250-258); the conversion to a string is done by the caller. -/
def var (t : Template φ) (key value : Bytes) : Template φ :=
  { t with variables := (key, value) :: t.variables }

/-- One component (`template.rs` 268-280). -/
def renderComponent (run : φ → Bytes → Res TError Bytes) (variables : Vars) :
    Component φ → Res TError Bytes
  | .constant v => .ok v
  | .variable name function => do
    let v ← Res.ofOption (.variableNotFound name) (variables.lookup name)
    match function with
    | some f => run f v
    | none => .ok v
  | .newLine => .ok [0x0a]

/-- The components of a fragment, joined (`template.rs` 268-280). -/
def renderComponents (run : φ → Bytes → Res TError Bytes) (variables : Vars) :
    List (Component φ) → Res TError Bytes
  | [] => .ok []
  | c :: cs => do
    let x ← renderComponent run variables c
    let y ← renderComponents run variables cs
    .ok (x ++ y)

/-- `template.rs` 263-266. -/
def fullName (path name : Bytes) : Bytes := if path = [] then name else path ++ [0x2e] ++ name

/-- `render_internal` (`template.rs` 260-284). -/
def renderInternal (run : φ → Bytes → Res TError Bytes) (t : Template φ) (variables : Vars)
    (path : Bytes) : List Bytes → Res TError Bytes
  | [] => .ok []
  | name :: names => do
    let fragment ← Res.ofOption (.fragmentNotFound (fullName path name))
      (t.fragments.lookup (fullName path name))
    let x ← renderComponents run variables fragment.content
    let y ← renderInternal run t variables path names
    .ok (x ++ y)

/-- `render` (`template.rs` 293-295). -/
def render (run : φ → Bytes → Res TError Bytes) (t : Template φ) (path : Bytes)
    (fragments : List Bytes) : Res TError Bytes :=
  renderInternal run t t.variables path fragments

end Template

/-- `template.rs` 299-302. -/
structure Scope (φ : Type) where
  template : Template φ
  variables : Vars

/-- `template.rs` 286-291. -/
def Template.scope (t : Template φ) : Scope φ := ⟨t, t.variables⟩

namespace Scope

/-- `var` and `var_d` (`template.rs` 305-313); the conversion to a string is done by the caller. -/
def var (s : Scope φ) (key value : Bytes) : Scope φ :=
  { s with variables := (key, value) :: s.variables }

/-- `render_to_var` (`template.rs` 315-319). -/
def renderToVar (run : φ → Bytes → Res TError Bytes) (s : Scope φ) (path : Bytes)
    (fragments : List Bytes) (key : Bytes) : Res TError (Scope φ) := do
  let str ← Template.renderInternal run s.template s.variables path fragments
  .ok (s.var key str)

/-- `render` (`template.rs` 321-323). -/
def render (run : φ → Bytes → Res TError Bytes) (s : Scope φ) (path : Bytes)
    (fragments : List Bytes) : Res TError Bytes :=
  Template.renderInternal run s.template s.variables path fragments

end Scope

/-! ## The default functions -/

/-- The functions of `FunctionMap::add_defaults` (`template.rs` 160-164). -/
inductive Fn where
  | upper
  | lower
  | capitalize
deriving DecidableEq, Repr

/-- Library functions whose definition is not modelled: `str::to_uppercase`, `str::to_lowercase`.
Everything is stated for all of them.  `gen/template.rs` 161-162. -/
structure CaseMap where
  upper : Bytes → Bytes
  lower : Bytes → Bytes

/-- `u8::to_ascii_uppercase`.  `template.rs` 141. -/
def asciiUpper (c : UInt8) : UInt8 := if 0x61 ≤ c ∧ c ≤ 0x7a then c - 0x20 else c

/-- `u8::to_ascii_lowercase`.  `gen/rust/union.rs` 117. -/
def asciiLower (c : UInt8) : UInt8 := if 0x41 ≤ c ∧ c ≤ 0x5a then c + 0x20 else c

/-- `capitalize` (`template.rs` 134-143): slicing at 1 panics when the first character takes more
than one byte. -/
def capitalize (value : Bytes) : Res TError Bytes :=
  match value with
  | [] => .ok []
  | c :: rest =>
    if 0x41 ≤ c ∧ c ≤ 0x5a then .ok value
    else if c < 0x80 then .ok (asciiUpper c :: rest)
    else .panic

/-- Calling one of the default functions.  `gen/template.rs` 131, 159-165. -/
def Fn.run (cm : CaseMap) : Fn → Bytes → Res TError Bytes
  | .upper, v => .ok (cm.upper v)
  | .lower, v => .ok (cm.lower v)
  | .capitalize, v => Proto.capitalize v

/-- `FunctionMap::default` (`template.rs` 145-164). -/
def FunctionMap.default : FunctionMap Fn :=
  [([0x63, 0x61, 0x70, 0x69, 0x74, 0x61, 0x6c, 0x69, 0x7a, 0x65], .capitalize),
   ([0x6c, 0x6f, 0x77, 0x65, 0x72], .lower),
   ([0x75, 0x70, 0x70, 0x65, 0x72], .upper)]

/-- `Template::compile` (`template.rs` 182-184). -/
def Template.compile (data : Bytes) : Res TError (Template Fn) :=
  compileWith FunctionMap.default data

end Proto
