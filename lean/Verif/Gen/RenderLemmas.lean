import Verif.Gen.Rust
import Verif.Gen.TemplatesCompiled

/-!
# Rendering with the texts associated to the right

`renderInternal` nests its appends by fragment; the same text with every append nested to the right
evaluates, with free variables in the holes, to a list of literal pieces and holes.
-/

namespace Proto

theorem Res.bind_assoc' (x : Res ε α) (f : α → Res ε β) (g : β → Res ε γ) :
    (x.bind f).bind g = x.bind fun a => (f a).bind g := by
  cases x <;> rfl

namespace Template

/-- `renderComponents` followed by `k`. -/
def renderThen (run : φ → Bytes → Res TError Bytes) (variables : Vars) (k : Res TError Bytes) :
    List (Component φ) → Res TError Bytes
  | [] => k
  | c :: cs => (renderComponent run variables c).bind fun x =>
    (renderThen run variables k cs).bind fun y => .ok (x ++ y)

/-- `renderInternal`, right-nested. -/
def renderRight (run : φ → Bytes → Res TError Bytes) (t : Template φ) (variables : Vars)
    (path : Bytes) : List Bytes → Res TError Bytes
  | [] => .ok []
  | name :: names =>
    (Res.ofOption (.fragmentNotFound (fullName path name))
      (t.fragments.lookup (fullName path name))).bind fun fragment =>
    renderThen run variables (renderRight run t variables path names) fragment.content

theorem renderThen_eq (run : φ → Bytes → Res TError Bytes) (variables : Vars)
    (k : Res TError Bytes) (cs : List (Component φ)) :
    renderThen run variables k cs =
      (renderComponents run variables cs).bind fun x => k.bind fun y => .ok (x ++ y) := by
  induction cs with
  | nil => cases k <;> simp [renderThen, renderComponents, Res.bind]
  | cons c cs ih =>
    rw [renderThen, ih, renderComponents]
    show _ = Res.bind (Res.bind _ fun x => Res.bind _ fun y => .ok (x ++ y)) _
    cases renderComponent run variables c with
    | ok x =>
      cases renderComponents run variables cs with
      | ok y => cases k <;> simp [Res.bind]
      | err e => rfl
      | panic => rfl
    | err e => rfl
    | panic => rfl

theorem renderInternal_eq (run : φ → Bytes → Res TError Bytes) (t : Template φ) (variables : Vars)
    (path : Bytes) (names : List Bytes) :
    renderInternal run t variables path names = renderRight run t variables path names := by
  induction names with
  | nil => rfl
  | cons n ns ih =>
    rw [renderInternal, renderRight]
    show Res.bind _ (fun f => Res.bind _ fun x => Res.bind _ fun y => _) = _
    congr 1
    funext f
    rw [renderThen_eq, ih]

end Template

end Proto
