import Verif.Lang.Head
import Verif.Lang.Run
import Verif.Gen.EffLemmas
import Verif.Props.Struct

/-!
# The constructors, conversions, decoder and encoder of a structure as programs
-/

namespace Proto.Rs.Head

open Text Spec

set_option maxRecDepth 100000 in
/-- C82: the declarations generated for a structure, apart from the accessors of its fields, are the
declaration of the type, its size and seven programs. -/
theorem C82_text (lib : Lib) (s : Structure) :
    structureHead lib s = declText s ++ (newFn s).print ++ (newOnStackFn s).print ++
      (fromFn s).print ++ (toRefFn s).print ++ (toMutFn s).print ++ sizeText lib s ++
      (writeToFn s).print ++ (fromSliceFn s).print := by
  unfold structureHead
  simp only [declText, Fn.print, newFn, newOnStackFn, fromFn, toRefFn, toMutFn, sizeText,
    writeToFn, fromSliceFn, Body.print, Expr.print, printTy, utf8_slice, utf8_input, utf8_out, utf8_self, List.append_assoc,
    List.cons_append, List.nil_append, List.append_nil]

/-- C82: `new` and `from` make a structure of the bytes given, `to_ref` and `to_mut` one of the same
bytes. -/
theorem C82_bytes (s : Structure) (b : Bytes) :
    (newFn s).body.run (globals s) [(id "data", .data (.buf b))] = .pure (.data (.struct b)) ∧
    (fromFn s).body.run (globals s) [(id "data", .data (.buf b))] = .pure (.data (.struct b)) ∧
    (toRefFn s).body.run (globals s) [(id "self", .data (.struct b))] = .pure (.data (.struct b)) ∧
    (toMutFn s).body.run (globals s) [(id "self", .data (.struct b))] = .pure (.data (.struct b)) := by
  refine ⟨rfl, rfl, ?_, ?_⟩
  · simp [toRefFn, Body.run, Expr.eval, own, globals, lookup_cons_eq]
  · simp [toMutFn, Body.run, Expr.eval, own, globals, lookup_cons_eq]

/-- C82: `from_slice` does what the decoder of a structure does. -/
theorem C82_from_slice (s : Structure) (b : Bytes) :
    (fromSliceFn s).body.run (globals s) [(id "slice", .data (.buf b))] =
      decoded .data (s.parse b) := by
  simp only [fromSliceFn, Body.run, Expr.eval, lookup_cons_eq, Run.get_some, Run.bind_pure, globals,
    Structure.parse]
  by_cases h : b.length < s.byteSize
  · simp [h]
  · rw [slice_ok (Nat.zero_le _) (by omega)]
    simp [h]

/-- C82: `from_slice` refuses exactly the slices shorter than the structure; of the others it takes
the first bytes, as many as the structure has, and says so. -/
theorem C82_from_slice_bytes (s : Structure) (b : Bytes) :
    (b.length < s.byteSize →
      (fromSliceFn s).body.run (globals s) [(id "slice", .data (.buf b))] =
        .pure (.err .truncated)) ∧
    (s.byteSize ≤ b.length →
      (fromSliceFn s).body.run (globals s) [(id "slice", .data (.buf b))] =
        .pure (.ok (.sized s.byteSize (.data (.struct (b.take s.byteSize)))))) := by
  rw [C82_from_slice]
  constructor
  · intro h; simp [Structure.parse, h]
  · intro h
    unfold Structure.parse
    rw [if_neg (by omega), slice_ok (Nat.zero_le _) h]
    simp

/-- C82: `write_to` does what the encoder of a structure does. -/
theorem C82_write_to (s : Structure) (b : Bytes) :
    (writeToFn s).body.run (globals s) [(id "input", .data (.struct b)), (id "out", .writer)] =
      encoded (s.write b) := by
  have ho : List.lookup (id "out") [(id "input", Val.data (.struct b)), (id "out", .writer)] =
      some .writer := by rw [lookup_cons_ne _ (by decide)]; exact lookup_cons_eq _ _
  simp only [writeToFn, Body.run, Expr.eval, ho, lookup_cons_eq, Run.get_some, Run.bind_pure, globals,
    Structure.write]
  by_cases h : s.byteSize ≤ b.length
  · rw [slice_ok (Nat.zero_le _) h]; rfl
  · have : (Proto.slice b 0 s.byteSize : R Bytes) = .panic := by
      unfold Proto.slice; rw [if_neg (by omega)]
    rw [this]; rfl

/-- C82: `write_to` writes the first bytes of the structure, as many as it has, in one piece, and
panics when its storage is shorter. -/
theorem C82_write_to_bytes (s : Structure) (b : Bytes) :
    (s.byteSize ≤ b.length →
      (writeToFn s).body.run (globals s) [(id "input", .data (.struct b)), (id "out", .writer)] =
        ⟨[b.take s.byteSize], .ok (.ok .unit)⟩) ∧
    (b.length < s.byteSize →
      (writeToFn s).body.run (globals s) [(id "input", .data (.struct b)), (id "out", .writer)] =
        .panic) := by
  rw [C82_write_to]
  unfold Structure.write
  constructor
  · intro h
    rw [slice_ok (Nat.zero_le _) h]
    simp [encoded, Out.write]
  · intro h
    have : (Proto.slice b 0 s.byteSize : R Bytes) = .panic := by
      unfold Proto.slice; rw [if_neg (by omega)]
    rw [this]; rfl

/-- C82: what `write_to` writes, followed by anything, is read back by `from_slice` as the same
bytes. -/
theorem C82_round_trip (s : Structure) (b rest : Bytes) (h : b.length = s.byteSize) :
    ∃ w, (writeToFn s).body.run (globals s)
        [(id "input", .data (.struct b)), (id "out", .writer)] = ⟨[w], .ok (.ok .unit)⟩ ∧
      (fromSliceFn s).body.run (globals s) [(id "slice", .data (.buf (w ++ rest)))] =
        .pure (.ok (.sized w.length (.data (.struct b)))) := by
  refine ⟨b, ?_, ?_⟩
  · rw [(C82_write_to_bytes s b).1 (by omega), ← h, List.take_length]
  · rw [(C82_from_slice_bytes s _).2 (by simp [h]), ← h]
    simp

theorem bitsLE_zero (n o w : Nat) : bitsLE (List.replicate n 0) o w = 0 := by
  induction w with
  | zero => rfl
  | succ w ih =>
    rw [bitsLE, ih, Nat.zero_add, if_neg]
    simp only [bitAt, List.getElem?_replicate]
    by_cases h : (o + w) / 8 < n <;> simp [h]

/-- C82: `new_on_stack` makes a structure of as many zero bytes as the structure has; the raw getter of
every field and of every array element in it gives zero. -/
theorem C82_new_on_stack (p : Profile) {s : Structure} (hw : s.WF) (hp : s.Sized)
    (hlen : s.byteSize < 2 ^ 64) :
    ∃ b, (newOnStackFn s).body.run (globals s) [] = .pure (.data (.struct b)) ∧
      b.length = s.byteSize ∧ (∀ x ∈ b, x = 0) ∧ ∀ a, s.HasAccess a → a.get p b = .ok 0 := by
  refine ⟨List.replicate s.byteSize 0, rfl, by simp, by simp, fun a ha => ?_⟩
  rw [(Access.exact_eff p ha hw hp (by simp) (by simpa using hlen)).1, bitsLE_zero]

/-! ## A structure of two bytes -/

example : ∃ b, (newOnStackFn Props.Ex.skewedC).body.run (globals Props.Ex.skewedC) [] =
      .pure (.data (.struct b)) ∧ b.length = 2 ∧ (∀ x ∈ b, x = 0) ∧
      ∀ a, Props.Ex.skewedC.HasAccess a → a.get .checked b = .ok 0 :=
  C82_new_on_stack .checked Props.Ex.skewed_WF Props.Ex.skewed_Sized (by decide)

example : (fromSliceFn Props.Ex.skewedC).body.run (globals Props.Ex.skewedC)
    [(id "slice", .data (.buf [1, 2, 3]))] = .pure (.ok (.sized 2 (.data (.struct [1, 2])))) :=
  (C82_from_slice_bytes Props.Ex.skewedC [1, 2, 3]).2 (by decide)

example : (writeToFn Props.Ex.skewedC).body.run (globals Props.Ex.skewedC)
    [(id "input", .data (.struct [1, 2, 3])), (id "out", .writer)] = ⟨[[1, 2]], .ok (.ok .unit)⟩ :=
  (C82_write_to_bytes Props.Ex.skewedC [1, 2, 3]).1 (by decide)

end Proto.Rs.Head
