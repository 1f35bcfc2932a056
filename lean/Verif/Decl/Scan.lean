import Verif.Spec.Items

/-!
# Scanning a text byte by byte

`Decl.declared` computed by an automaton, so that a text with holes can be scanned piece by piece.
-/

namespace Proto.Decl

/-- Where the scanner is within a line: nothing decided yet, in the declared word, decided. -/
inductive St
  | start (p : Bytes)
  | name (acc : Bytes)
  | skip

/-- One byte: what is declared, and the new state. -/
def step (kws : List Bytes) : St → UInt8 → List Bytes × St
  | .start p, c =>
    if c = 10 then ([], .start []) else
    if (p ++ [c]) ∈ kws then ([], .name [])
    else if kws.any ((p ++ [c]).isPrefixOf ·) then ([], .start (p ++ [c])) else ([], .skip)
  | .name acc, c =>
    if c = 10 then ([acc], .start []) else
    if isWord c then ([], .name (acc ++ [c])) else ([acc], .skip)
  | .skip, c => if c = 10 then ([], .start []) else ([], .skip)

/-- A text. -/
def run (kws : List Bytes) : St → Bytes → List Bytes × St
  | s, [] => ([], s)
  | s, c :: cs =>
    match step kws s c with
    | (o, s') =>
      match run kws s' cs with
      | (os, t) => (o ++ os, t)

theorem run_cons (kws : List Bytes) (s : St) (c : UInt8) (cs : Bytes) : run kws s (c :: cs) =
    ((step kws s c).1 ++ (run kws (step kws s c).2 cs).1, (run kws (step kws s c).2 cs).2) := rfl

theorem run_append (kws : List Bytes) (s : St) (a b : Bytes) :
    run kws s (a ++ b) =
      ((run kws s a).1 ++ (run kws (run kws s a).2 b).1, (run kws (run kws s a).2 b).2) := by
  induction a generalizing s with
  | nil => simp [run]
  | cons c cs ih => simp [run_cons, ih]

theorem chunk {kws : List Bytes} {s t : St} {a b : Bytes} {o : List Bytes} {r : List Bytes × St}
    (h : run kws s a = (o, t)) (h' : run kws t b = r) : run kws s (a ++ b) = (o ++ r.1, r.2) := by
  rw [run_append, h, h']

theorem chunk_assoc {kws : List Bytes} {s : St} {a b c : Bytes} {r : List Bytes × St}
    (h : run kws s (a ++ (b ++ c)) = r) : run kws s ((a ++ b) ++ c) = r := by
  rw [List.append_assoc, h]

/-- No keyword begins another. -/
def Free (kws : List Bytes) : Prop :=
  (∀ a ∈ kws, ∀ b ∈ kws, a <+: b → a = b) ∧ (∀ a ∈ kws, a ≠ [] ∧ OneLine a)

/-- What the rest of the line declares. -/
def rest (kws : List Bytes) : St → Bytes → List Bytes
  | .start p, l => names kws (p ++ l)
  | .name acc, l => [acc ++ l.takeWhile isWord]
  | .skip, _ => []

/-- Nothing is decided before a keyword is complete. -/
def Valid (kws : List Bytes) : St → Prop
  | .start p => ∀ k ∈ kws, ¬ k <+: p
  | _ => True

theorem names_nil {kws : List Bytes} {l : Bytes} (h : ∀ k ∈ kws, ¬ k <+: l) : names kws l = [] := by
  unfold names
  have : kws.find? (·.isPrefixOf l) = none := by
    rw [List.find?_eq_none]
    intro k hk e
    exact h k hk (List.isPrefixOf_iff_prefix.1 e)
  rw [this]

theorem names_key {kws : List Bytes} (hf : Free kws) {k : Bytes} (hk : k ∈ kws) (l : Bytes) :
    names kws (k ++ l) = [l.takeWhile isWord] := by
  unfold names
  cases h : kws.find? (·.isPrefixOf (k ++ l)) with
  | none =>
    rw [List.find?_eq_none] at h
    exact absurd (List.isPrefixOf_iff_prefix.2 (List.prefix_append k l)) (h k hk)
  | some k' =>
    have hm := List.mem_of_find?_eq_some h
    have hp : k' <+: k ++ l := List.isPrefixOf_iff_prefix.1 (by simpa using List.find?_some h)
    have : k' = k := by
      rcases Nat.le_total k'.length k.length with e | e
      · exact hf.1 _ hm _ hk (List.prefix_of_prefix_length_le hp (List.prefix_append k l) e)
      · exact (hf.1 _ hk _ hm (List.prefix_of_prefix_length_le (List.prefix_append k l) hp e)).symm
    subst this
    simp

theorem valid_step {kws : List Bytes} (hf : Free kws) {s : St} (h : Valid kws s) (c : UInt8) :
    Valid kws (step kws s c).2 := by
  have h0 : Valid kws (.start []) := fun k hk e => (hf.2 k hk).1 (List.prefix_nil.1 e)
  cases s with
  | start p =>
    simp only [step]
    split
    · exact h0
    · split
      · trivial
      · rename_i hn
        split
        · intro k hk e
          rcases List.prefix_concat_iff.1 e with e | e
          · exact hn (e ▸ hk)
          · exact h k hk e
        · trivial
  | name acc =>
    simp only [step]
    split
    · exact h0
    · split <;> trivial
  | skip =>
    simp only [step]
    split
    · exact h0
    · trivial

theorem rest_step {kws : List Bytes} (hf : Free kws) {s : St} (h : Valid kws s) {c : UInt8} (hc : c ≠ 10)
    (l : Bytes) : rest kws s (c :: l) = (step kws s c).1 ++ rest kws (step kws s c).2 l := by
  cases s with
  | start p =>
    simp only [step, if_neg hc]
    have e : p ++ c :: l = (p ++ [c]) ++ l := by simp
    split
    · rename_i hm
      simp only [rest, e, names_key hf hm, List.nil_append]
    · rename_i hn
      split
      · simp only [rest, e, List.nil_append]
      · rename_i ha
        simp only [rest, e, List.nil_append]
        refine names_nil fun k hk hp => ?_
        rcases Nat.le_total k.length (p ++ [c]).length with hl | hl
        · have := List.prefix_of_prefix_length_le hp (List.prefix_append (p ++ [c]) l) hl
          rcases List.prefix_concat_iff.1 this with e | e
          · exact hn (e ▸ hk)
          · exact h k hk e
        · have := List.prefix_of_prefix_length_le (List.prefix_append (p ++ [c]) l) hp hl
          exact ha (List.any_eq_true.2 ⟨k, hk, List.isPrefixOf_iff_prefix.2 this⟩)
  | name acc =>
    simp only [step, if_neg hc]
    split
    · rename_i hw
      simp [rest, hw]
    · rename_i hw
      simp [rest, hw]
  | skip => simp [step, rest, hc]

theorem rest_newline {kws : List Bytes} {s : St} (h : Valid kws s) :
    step kws s 10 = (rest kws s [], .start []) := by
  cases s with
  | start p => simp [step, rest, names_nil h]
  | name acc => simp [step, rest]
  | skip => simp [step, rest]

theorem lines_ne (t : Bytes) : lines t ≠ [] := by
  cases t with
  | nil => simp [lines]
  | cons c cs =>
    simp only [lines, List.foldr_cons]
    split <;> simp

theorem lines_cons (c : UInt8) (t : Bytes) :
    lines (c :: t) = if c = 10 then [] :: lines t else (c :: (lines t).headD []) :: (lines t).tail := rfl

theorem scan {kws : List Bytes} (hf : Free kws) (t : Bytes) (s : St) (h : Valid kws s) :
    (run kws s t).1 ++ rest kws (run kws s t).2 [] =
      rest kws s ((lines t).headD []) ++ (lines t).tail.flatMap (names kws) := by
  induction t generalizing s with
  | nil => simp [run, lines]
  | cons c cs ih =>
    rw [lines_cons]
    by_cases hc : c = 10
    · subst hc
      simp only [run_cons, if_true, List.headD_cons, List.tail_cons, List.append_assoc]
      rw [ih _ (valid_step hf h 10), rest_newline h]
      congr 1
      cases e : lines cs with
      | nil => exact absurd e (lines_ne cs)
      | cons l ls => simp [rest]
    · simp only [run_cons, if_neg hc, List.headD_cons, List.tail_cons, List.append_assoc]
      rw [ih _ (valid_step hf h c), rest_step hf h hc, List.append_assoc]

/-- A text that ends a line is scanned by the automaton. -/
theorem declared_eq {kws : List Bytes} (hf : Free kws) {t : Bytes} {o : List Bytes}
    (h : run kws (.start []) t = (o, .start [])) : declared kws t = o := by
  have v : Valid kws (.start []) := fun k hk e => (hf.2 k hk).1 (List.prefix_nil.1 e)
  have := scan hf t (.start []) v
  rw [h] at this
  have hn : names kws [] = [] := names_nil v
  simp only [rest, List.nil_append, hn, List.append_nil] at this
  rw [this]
  unfold declared
  cases e : lines t with
  | nil => exact absurd e (lines_ne t)
  | cons l ls => simp

/-! ## Holes -/

theorem run_oneLine {kws : List Bytes} {b : Bytes} (h : OneLine b) : run kws .skip b = ([], .skip) := by
  induction b with
  | nil => rfl
  | cons c cs ih =>
    have hc : c ≠ 10 := h c (by simp)
    simp [run_cons, step, hc, ih fun x hx => h x (by simp [hx])]

theorem isWord_ten : isWord 10 = false := by decide

theorem Word.oneLine {b : Bytes} (h : Word b) : OneLine b := by
  rintro c hc rfl
  have := h _ hc
  rw [isWord_ten] at this
  cases this

theorem run_word {kws : List Bytes} {acc b : Bytes} (h : Word b) :
    run kws (.name acc) b = ([], .name (acc ++ b)) := by
  induction b generalizing acc with
  | nil => simp [run]
  | cons c cs ih =>
    have hc : isWord c = true := h c (by simp)
    have hn : c ≠ 10 := h.oneLine c (by simp)
    simp [run_cons, step, hc, hn, ih fun x hx => h x (by simp [hx])]

theorem run_all {α : Type} {kws : List Bytes} {f : α → Bytes} {o : α → List Bytes} {xs : List α}
    (h : ∀ x ∈ xs, run kws (.start []) (f x) = (o x, .start [])) :
    run kws (.start []) (Text.all f xs) = (xs.flatMap o, .start []) := by
  induction xs with
  | nil => rfl
  | cons x xs ih =>
    show run kws _ (f x ++ Text.all f xs) = _
    rw [chunk (h x (by simp)) (ih fun y hy => h y (by simp [hy]))]
    simp

theorem run_spaced {kws : List Bytes} {ts : List (Bytes × List Bytes)} (hn : run kws (.start []) [10] = ([], .start []))
    (h : ∀ x ∈ ts, run kws (.start []) x.1 = (x.2, .start [])) :
    run kws (.start []) (Text.spaced (ts.map Prod.fst)) = (ts.flatMap Prod.snd, .start []) := by
  match ts with
  | [] => rfl
  | [x] => simpa [Text.spaced, List.intercalate] using h x (by simp)
  | x :: y :: ys =>
    have ih := run_spaced (ts := y :: ys) hn fun z hz => h z (by simp [hz])
    have e : Text.spaced ((x :: y :: ys).map Prod.fst) =
        x.1 ++ (([10] : Bytes) ++ Text.spaced ((y :: ys).map Prod.fst)) := by
      simp [Text.spaced, List.intercalate]
    rw [e, chunk (h x (by simp)) (chunk hn ih)]
    simp

/-! ## Automation -/

attribute [irreducible] run

open Lean Elab Meta in
/-- The elements of a list, as far as the kernel computes them. -/
partial def kernelList (e : Expr) : MetaM Expr := do
  let w ← ofExceptKernelException (Kernel.whnf (← getEnv) (← getLCtx) e)
  match w.getAppFnArgs with
  | (``List.cons, #[ty, x, xs]) => return mkApp3 (mkConst ``List.cons [0]) ty x (← kernelList xs)
  | (``List.nil, _) => return w
  | _ => return e

open Lean Elab Meta in
/-- Scans a literal in the kernel. -/
elab "krun" : tactic => do
  let g ← Tactic.getMainGoal
  g.withContext do
  let some (_, l, r) := (← instantiateMVars (← g.getType)).eq? | throwError "not an equation"
  let (``run, #[_, _, text]) := l.getAppFnArgs | throwError "not a scan"
  unless text.isAppOf ``List.cons || text.isAppOf ``List.nil do throwError "not a literal"
  if l.hasExprMVar then throwError "unknown state"
  let w ← ofExceptKernelException (Kernel.whnf (← getEnv) (← getLCtx) l)
  let (``Prod.mk, #[α, β, o, t]) := w.getAppFnArgs | throwError "stuck"
  let o ← kernelList o
  let t ← ofExceptKernelException (Kernel.whnf (← getEnv) (← getLCtx) t)
  let t ← match t with
    | .app f a => pure (.app f (← kernelList a))
    | t => pure t
  let v := mkApp4 (mkConst ``Prod.mk [0, 0]) α β o t
  unless ← isDefEq r v do throwError "another result"
  g.assign (← mkEqRefl v)

example : run [b!"pub struct "] (.start []) b!"impl X {\n}\npub struct A" = ([], .name [0x41]) := by krun

end Proto.Decl
