import Verif.Gen.Template
import Verif.Spec.Wire

/-!
# What a template means, independently of the tokeniser
-/

namespace Proto.Tpl

/-- The UTF-8 bytes of a string. -/
def utf8 (s : String) : Bytes := s.toList.flatMap String.utf8EncodeChar

/-- A piece of a template line: literal text, `{{`, `}}`, `{name}` or `{name:function}`. -/
inductive Seg where
  | text (t : Bytes)
  | lbrace
  | rbrace
  | ref (name : Bytes) (function : Option Bytes)

/-- How a piece is written. -/
def Seg.source : Seg → Bytes
  | text t => t
  | lbrace => utf8 "{{"
  | rbrace => utf8 "}}"
  | ref n none => utf8 "{" ++ n ++ utf8 "}"
  | ref n (some f) => utf8 "{" ++ n ++ utf8 ":" ++ f ++ utf8 "}"

/-- No brace and no line feed. -/
def Plain (t : Bytes) : Prop := ∀ c ∈ t, c ≠ 0x7b ∧ c ≠ 0x7d ∧ c ≠ 0x0a

/-- Pieces that can be written: text is non-empty UTF-8 without braces, names are UTF-8 without
braces, variable names have no colon, functions are registered. -/
def Seg.Legal (fm : FunctionMap φ) : Seg → Prop
  | text t => t ≠ [] ∧ Plain t ∧ IsUtf8 t
  | lbrace => True
  | rbrace => True
  | ref n none => n ≠ [] ∧ Plain n ∧ IsUtf8 n ∧ 0x3a ∉ n
  | ref n (some f) => Plain n ∧ IsUtf8 n ∧ 0x3a ∉ n ∧ Plain f ∧ IsUtf8 f ∧ ∃ g, fm.lookup f = some g

/-- No reference is directly followed by a doubled closing brace. -/
def NoClash : List Seg → Prop
  | .ref _ _ :: .rbrace :: _ => False
  | _ :: rest => NoClash rest
  | [] => True

/-- What a piece is replaced with. -/
def Seg.value (fm : FunctionMap φ) (run : φ → Bytes → Res TError Bytes) (vars : Vars) :
    Seg → Res TError Bytes
  | text t => .ok t
  | lbrace => .ok (utf8 "{")
  | rbrace => .ok (utf8 "}")
  | ref n f =>
    match vars.lookup n with
    | none => .err (.variableNotFound n)
    | some v =>
      match f.bind (fun g => fm.lookup g) with
      | none => .ok v
      | some g => run g v

/-- Texts one after the other, in order; the first failure wins. -/
def concat : List (Res TError Bytes) → Res TError Bytes
  | [] => .ok []
  | .ok x :: rest =>
    match concat rest with
    | .ok y => .ok (x ++ y)
    | .err e => .err e
    | .panic => .panic
  | .err e :: _ => .err e
  | .panic :: _ => .panic

/-- What any line is made of, read greedily from the left: brace-free text, `{{`, `}}`, a single `{`, a
single `}` with no text directly before it, and text directly followed by a single `}` (a name, with or
without a function). -/
inductive Tok where
  | text (t : Bytes)
  | open2
  | close2
  | open1
  | close1
  | name (n : Bytes) (function : Option Bytes)

/-- How it is written. -/
def Tok.source : Tok → Bytes
  | text t => t
  | open2 => utf8 "{{"
  | close2 => utf8 "}}"
  | open1 => utf8 "{"
  | close1 => utf8 "}"
  | name n none => n ++ utf8 "}"
  | name n (some f) => n ++ utf8 ":" ++ f ++ utf8 "}"

/-- The text of a token is not empty and has no brace; a variable name has no colon. -/
def Tok.Clean : Tok → Prop
  | text t => t ≠ [] ∧ 0x7b ∉ t ∧ 0x7d ∉ t
  | name n none => n ≠ [] ∧ 0x7b ∉ n ∧ 0x7d ∉ n ∧ 0x3a ∉ n
  | name n (some f) => 0x7b ∉ n ∧ 0x7d ∉ n ∧ 0x3a ∉ n ∧ 0x7b ∉ f ∧ 0x7d ∉ f
  | _ => True

/-- Which token may directly follow which when a line is read greedily. -/
def Tok.Follows : Tok → Option Tok → Prop
  | text _, some (text _) => False
  | text _, some (name _ _) => False
  | text _, some close1 => False
  | open1, some open1 => False
  | open1, some open2 => False
  | close1, some close1 => False
  | close1, some close2 => False
  | name _ _, some close1 => False
  | name _ _, some close2 => False
  | _, _ => True

/-- A greedy reading of a line. -/
def Greedy : List Tok → Prop
  | [] => True
  | t :: ts => t.Clean ∧ t.Follows ts.head? ∧ Greedy ts

/-- Texts are UTF-8 and functions are registered. -/
def Tok.Known (fm : FunctionMap φ) : Tok → Prop
  | text t => IsUtf8 t
  | name n none => IsUtf8 n
  | name n (some f) => IsUtf8 n ∧ IsUtf8 f ∧ ∃ g, fm.lookup f = some g
  | _ => True

/-- What it is replaced with: single braces vanish, text directly before a single closing brace is a
reference whether or not a brace was opened before it. -/
def Tok.value (fm : FunctionMap φ) (run : φ → Bytes → Res TError Bytes) (vars : Vars) :
    Tok → Res TError Bytes
  | text t => .ok t
  | open2 => .ok (utf8 "{")
  | close2 => .ok (utf8 "}")
  | open1 => .ok []
  | close1 => .ok []
  | name n f => (Seg.ref n f).value fm run vars

/-- A template: blank lines, lines, and named fragments. -/
inductive Node where
  | blank
  | line (segs : List Seg)
  | frag (name : Bytes) (body : List Node)

/-- Line endings: `\n` or `\r\n`. -/
def cr (crlf : Bool) : Bytes := if crlf then [0x0d] else []

mutual
/-- The lines a node is written as, without line ends. -/
def Node.lines : Node → List Bytes
  | .blank => [[]]
  | .line segs => [segs.flatMap Seg.source]
  | .frag name body => (utf8 "#fragment push " ++ name) :: (nodeLines body ++ [utf8 "#fragment pop"])
/-- The lines of nodes in order. -/
def nodeLines : List Node → List Bytes
  | [] => []
  | n :: ns => n.lines ++ nodeLines ns
end

/-- The text of a file made of these lines. -/
def fileText (crlf : Bool) (lines : List Bytes) : Bytes :=
  lines.flatMap fun l => l ++ cr crlf ++ [0x0a]

/-- A line that is neither blank nor a directive, and whose end is not taken for a line end. -/
def IsTextLine (l : Bytes) : Prop :=
  l ≠ [] ∧ l.getLast? ≠ some 0x0d ∧ ¬ utf8 "#fragment push " <+: l ∧ ¬ utf8 "#fragment pop" <+: l

mutual
/-- Well formed nodes; `inside` tells whether the node is inside a fragment. -/
def Node.Legal (fm : FunctionMap φ) (crlf inside : Bool) : Node → Prop
  | .blank => inside = true ∨ crlf = false
  | .line segs => inside = true ∧ (∀ s ∈ segs, s.Legal fm) ∧ NoClash segs ∧
      IsTextLine (segs.flatMap Seg.source)
  | .frag name body => IsUtf8 name ∧ 0x0a ∉ name ∧ name.getLast? ≠ some 0x0d ∧
      LegalNodes fm crlf true body
/-- Well formed lists of nodes. -/
def LegalNodes (fm : FunctionMap φ) (crlf inside : Bool) : List Node → Prop
  | [] => True
  | n :: ns => n.Legal fm crlf inside ∧ LegalNodes fm crlf inside ns
end

/-- What a node contributes to the text of the fragment directly containing it. -/
def Node.value (fm : FunctionMap φ) (run : φ → Bytes → Res TError Bytes) (crlf : Bool) (vars : Vars) :
    Node → Res TError Bytes
  | .blank => .ok (if crlf then [0x0a] else [])
  | .line segs => concat (segs.map (Seg.value fm run vars) ++ [.ok [0x0a]])
  | .frag _ _ => .ok []

mutual
/-- The fragments of a node in the order they are closed: where they are, and their body. -/
def Node.frags (pre : List Bytes) : Node → List (List Bytes × List Node)
  | .blank => []
  | .line _ => []
  | .frag name body => nodeFrags (pre ++ [name]) body ++ [(pre ++ [name], body)]
/-- The fragments of nodes in order. -/
def nodeFrags (pre : List Bytes) : List Node → List (List Bytes × List Node)
  | [] => []
  | n :: ns => n.frags pre ++ nodeFrags pre ns
end

/-- Dot-joined names. -/
def dotted : List Bytes → Bytes
  | [] => []
  | [n] => n
  | n :: ns => n ++ utf8 "." ++ dotted ns

end Proto.Tpl

namespace Proto.Tpl

/-- The start of a file: closed top level nodes, then fragments that are still open, each with the
nodes that follow its opening line. -/
def openLines (closed : List Node) (opened : List (Bytes × List Node)) : List Bytes :=
  nodeLines closed ++ opened.flatMap fun (name, ns) => (utf8 "#fragment push " ++ name) :: nodeLines ns

/-- Such a start is well formed. -/
def LegalStart (fm : FunctionMap φ) (crlf : Bool) (closed : List Node)
    (opened : List (Bytes × List Node)) : Prop :=
  LegalNodes fm crlf false closed ∧ ∀ o ∈ opened,
    IsUtf8 o.1 ∧ 0x0a ∉ o.1 ∧ o.1.getLast? ≠ some 0x0d ∧ LegalNodes fm crlf true o.2

/-- The rest of a file after a line: nothing, or a line feed and anything. -/
def IsRest (rest : Bytes) : Prop := rest = [] ∨ ∃ r, rest = 0x0a :: r

/-- The variables a node's own line refers to. -/
def Node.vars : Node → List Bytes
  | .line segs => segs.filterMap fun
    | .ref n _ => some n
    | _ => none
  | _ => []

/-- What can be done with a template and its scopes. -/
inductive Op where
  | setTemplate (key value : Bytes)
  | newScope
  | clone (i : Nat)
  | set (i : Nat) (key value : Bytes)

/-- Number of scopes created by a history (most recent operation first). -/
def scopeCount : List Op → Nat
  | [] => 0
  | .newScope :: h => scopeCount h + 1
  | .clone _ :: h => scopeCount h + 1
  | _ :: h => scopeCount h

/-- Value of a template variable after a history. -/
def templateValue (k : Bytes) : List Op → Option Bytes
  | [] => none
  | .setTemplate k' v :: h => if k' = k then some v else templateValue k h
  | _ :: h => templateValue k h

/-- Value of a variable in scope `i` after a history: the last one set in that scope, else the one
of the template or of the cloned scope at the time the scope was made. -/
def scopeValue (k : Bytes) : List Op → Nat → Option Bytes
  | [], _ => none
  | .setTemplate _ _ :: h, i => scopeValue k h i
  | .newScope :: h, i => if i = scopeCount h then templateValue k h else scopeValue k h i
  | .clone j :: h, i => if i = scopeCount h then scopeValue k h j else scopeValue k h i
  | .set j k' v :: h, i => if j = i ∧ k' = k then some v else scopeValue k h i

/-- Histories that only refer to existing scopes. -/
def OpsLegal : List Op → Prop
  | [] => True
  | .clone j :: h => j < scopeCount h ∧ OpsLegal h
  | .set j _ _ :: h => j < scopeCount h ∧ OpsLegal h
  | _ :: h => OpsLegal h

/-- The template and the scopes after a history, done with the modelled operations. -/
def runOps (t : Template φ) : List Op → Template φ × List (Scope φ)
  | [] => (t, [])
  | .setTemplate k v :: h => ((runOps t h).1.var k v, (runOps t h).2)
  | .newScope :: h => ((runOps t h).1, (runOps t h).2 ++ [(runOps t h).1.scope])
  | .clone i :: h =>
    ((runOps t h).1, (runOps t h).2 ++ ((runOps t h).2[i]?).toList)
  | .set i k v :: h =>
    ((runOps t h).1, (runOps t h).2.modify i (fun s => s.var k v))

end Proto.Tpl
