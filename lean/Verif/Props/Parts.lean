import Verif.Spec.Parts
import Verif.Props.Count
import Verif.Props.Write

/-!
# C120: the pieces in which a message is handed to an output
-/

namespace Proto

/-- The pieces are handed over from the first on, and all of them if the encoder succeeds. -/
def Out.Hands (o : Out) (ps : List Bytes) : Prop := o.chunks <+: ps ∧ (o.res = .ok () → o.chunks = ps)

theorem Out.Hands.stop {r : R Unit} (hr : r ≠ .ok ()) (ps : List Bytes) : (Out.stop r).Hands ps :=
  ⟨List.nil_prefix, fun h => absurd h hr⟩

theorem Out.Hands.write (b : Bytes) : (Out.write b).Hands [b] := ⟨List.prefix_refl _, fun _ => rfl⟩

theorem Out.Hands.done : Out.done.Hands [] := ⟨List.prefix_refl _, fun _ => rfl⟩

theorem Out.Hands.andThen {a b : Out} {ps qs : List Bytes} (ha : a.Hands ps) (hb : b.Hands qs) :
    (a.andThen b).Hands (ps ++ qs) := by
  obtain ⟨cs, r⟩ := a
  cases r with
  | ok u =>
    have h1 : cs = ps := ha.2 rfl
    subst h1
    refine ⟨?_, fun h => ?_⟩
    · exact (List.prefix_append_right_inj cs).2 hb.1
    · show cs ++ b.chunks = _
      rw [hb.2 h]
  | err e => exact ⟨ha.1.trans (List.prefix_append _ _), fun h => by cases h⟩
  | panic => exact ⟨ha.1.trans (List.prefix_append _ _), fun h => by cases h⟩

theorem Union.writeCases_hands {c : Ctx} {cs : List UCase}
    (h : ∀ k ∈ cs, ∀ r, k.itemType = some r → ∀ x, (r.write c x).Hands (r.parts x)) (i d : Nat) (x : Value) :
    (Union.writeCases c cs i d x).Hands (UCase.partsAt cs i x) := by
  induction cs generalizing i with
  | nil => exact .stop (by simp) _
  | cons k cs ih =>
    obtain ⟨n, case, t⟩ := k
    have ih' := fun i => ih (fun k hk => h k (by simp [hk])) i
    cases t with
    | none =>
      simp only [Union.writeCases, UCase.partsAt]
      split
      · exact .done
      · exact ih' _
    | some r =>
      simp only [Union.writeCases, UCase.partsAt]
      split
      · split
        · exact h (.mk n case (some r)) (by simp) r rfl x
        · exact .stop (by simp) _
      · exact ih' _

theorem Union.partsAt_none {cs : List UCase} (h : ∀ k ∈ cs, k.itemType = none) (i : Nat) (x : Value) :
    UCase.partsAt cs i x = [] := by
  induction cs generalizing i with
  | nil => rfl
  | cons k cs ih =>
    obtain ⟨n, case, t⟩ := k
    cases t with
    | none =>
      simp only [UCase.partsAt]
      split
      · rfl
      · exact ih (fun k hk => h k (by simp [hk])) _
    | some r => exact absurd (h (.mk n case (some r)) (by simp)) (by simp [UCase.itemType])

theorem Scalar.hands (e : Endian) (sz n : Nat) : (Scalar.writeTo e sz n).Hands [wireInt e sz n] := by
  have h : (Scalar.writeTo e sz n).chunks = [(Scalar.writeTo e sz n).bytes] := by
    simp [Scalar.writeTo, Out.write, Out.bytes]
  rw [Scalar.writeTo_bytes] at h
  exact ⟨h ▸ List.prefix_refl _, fun _ => h⟩

theorem Seq.hands (e : Endian) (sz : Nat) (l : Seq Bytes) :
    (l.writeTo e sz).Hands [wireInt e sz l.len, l.data] := by
  have h := Seq.writeTo_bytes e sz l
  have h1 : (l.writeTo e sz).chunks = [(Scalar.writeTo e sz (fromUsize sz l.len)).bytes, l.data] := by
    simp [Seq.writeTo, Scalar.writeTo, Out.write, Out.bytes, Out.andThen]
  have h2 : (l.writeTo e sz).bytes = (Scalar.writeTo e sz (fromUsize sz l.len)).bytes ++ l.data := by
    rw [Out.bytes, h1]; simp
  rw [h] at h2
  rw [← List.append_cancel_right h2] at h1
  exact ⟨h1 ▸ List.prefix_refl _, fun _ => h1⟩

theorem Varchar.hands (e : Endian) (sz : Nat) (s : Bytes) :
    (Varchar.writeTo e sz s).Hands [wireInt e sz s.length, s] := by
  have h := Varchar.writeTo_bytes e sz s
  have h1 : (Varchar.writeTo e sz s).chunks = [(Scalar.writeTo e sz (fromUsize sz s.length)).bytes, s] := by
    simp [Varchar.writeTo, Scalar.writeTo, Out.write, Out.bytes, Out.andThen]
  have h2 : (Varchar.writeTo e sz s).bytes = (Scalar.writeTo e sz (fromUsize sz s.length)).bytes ++ s := by
    rw [Out.bytes, h1]; simp
  rw [h] at h2
  rw [← List.append_cancel_right h2] at h1
  exact ⟨h1 ▸ List.prefix_refl _, fun _ => h1⟩

theorem handsInd (c : Ctx) : SchemaInd (fun m => ∀ v, (m.write c v).Hands (m.parts v))
    (fun t => ∀ e env v, (t.write c e env v).Hands (t.parts e v)) where
  fixed ty e env v := by
    simp only [MFieldTy.write, MFieldTy.parts]
    split
    · exact Scalar.hands _ _ _
    · exact .stop (by simp) _
  struct s e env v := by
    simp only [MFieldTy.write, MFieldTy.parts, Referenced.write, Referenced.parts]
    split
    · next b =>
      by_cases hb : s.byteSize ≤ b.length
      · simp only [Structure.write, Proto.slice, Nat.zero_le, hb, and_self, if_true, List.drop_zero, Nat.sub_zero]
        exact .write _
      · simp only [Structure.write, Proto.slice, Nat.zero_le, hb, and_false, if_false]
        exact .stop (by simp [Res.bind]) _
    · exact .stop (by simp) _
  message m h e env v := by simpa only [MFieldTy.write, MFieldTy.parts, Referenced.write, Referenced.parts] using h v
  nul e env v := by
    simp only [MFieldTy.write, MFieldTy.parts]
    split
    · exact .andThen (.write _) (.write _)
    · exact .stop (by simp) _
  varchar ty e env v := by
    simp only [MFieldTy.write, MFieldTy.parts]
    split
    · exact Varchar.hands _ _ _
    · exact .stop (by simp) _
  array ty s e env v := by
    simp only [MFieldTy.write, MFieldTy.parts]
    split
    · exact Seq.hands _ _ _
    · exact .stop (by simp) _
  union n d cs sz on i h e env v := by
    simp only [MFieldTy.write, Union.write, MFieldTy.parts, Union.parts]
    have hcs := fun j dv x => Union.writeCases_hands (c := c) (cs := cs) (fun k hk r hr x => by
      have := h k hk r hr .little [] x
      simpa only [MFieldTy.write, MFieldTy.parts] using this) j dv x
    split
    · next j x =>
      split
      · split
        · exact hcs _ _ _
        · exact .stop (by simp) _
        · exact .stop (by simp) _
      · next hany =>
        have hnone : ∀ k ∈ cs, k.itemType = none := by
          intro k hk
          cases hk' : k.itemType with
          | none => rfl
          | some r => exact absurd (List.any_eq_true.mpr ⟨k, hk, by simp [hk']⟩) hany
        show Out.done.Hands (UCase.partsAt cs j x)
        rw [Union.partsAt_none hnone]
        exact .done
    · exact .stop (by simp) _
  list ty m h e env v := by
    simp only [MFieldTy.write, MFieldTy.parts]
    split
    · exact Seq.hands _ _ _
    · exact .stop (by simp) _
  payload e env v := by
    simp only [MFieldTy.write, MFieldTy.parts]
    split
    · exact .write _
    · exact .stop (by simp) _
  msg id n fs sz h v := by
    simp only [Message.write, Message.parts]
    split
    · next vs =>
      suffices ∀ env, (MField.writeList c fs env vs).Hands (MField.listParts fs vs) from this vs
      intro env
      induction fs generalizing vs with
      | nil => exact .done
      | cons f fs ih =>
        simp only [MField.writeList, MField.listParts]
        split
        · next v rest =>
          refine .andThen ?_ (ih (fun g hg => h g (by simp [hg])) _)
          have hf := h f (by simp)
          obtain ⟨nm, ty, o, sz, e⟩ := f
          simp only [MField.write, MField.parts]
          split
          · split
            · exact .write _
            · exact .andThen (.write _) (hf _ _ _)
            · exact .stop (by simp) _
          · exact hf _ _ _
        · exact .stop (by simp) _
    · exact .stop (by simp) _

theorem mostPartsInd : SchemaInd (fun m => ∀ v, (m.parts v).length ≤ m.mostParts)
    (fun t => ∀ e v, (t.parts e v).length ≤ t.mostParts) where
  fixed ty e v := by simp only [MFieldTy.parts, MFieldTy.mostParts]; split <;> simp
  struct s e v := by
    simp only [MFieldTy.parts, MFieldTy.mostParts, Referenced.parts, Referenced.mostParts]; split <;> simp
  message m h e v := by simpa only [MFieldTy.parts, MFieldTy.mostParts, Referenced.parts, Referenced.mostParts] using h v
  nul e v := by simp only [MFieldTy.parts, MFieldTy.mostParts]; split <;> simp
  varchar ty e v := by simp only [MFieldTy.parts, MFieldTy.mostParts]; split <;> simp
  array ty s e v := by simp only [MFieldTy.parts, MFieldTy.mostParts]; split <;> simp
  union n d cs sz on i h e v := by
    simp only [MFieldTy.parts, MFieldTy.mostParts, Union.parts, Union.mostParts]
    split
    · next j x =>
      clear on
      induction cs generalizing j with
      | nil => simp [UCase.partsAt]
      | cons k cs ih =>
        have ih' := fun j => ih (fun k hk => h k (by simp [hk])) j
        obtain ⟨n, case, t⟩ := k
        cases t with
        | none =>
          simp only [UCase.partsAt, UCase.listMostParts]
          split
          · simp
          · exact ih' _
        | some r =>
          simp only [UCase.partsAt, UCase.listMostParts]
          split
          · have := h (.mk n case (some r)) (by simp) r rfl .little x
            simp only [MFieldTy.parts, MFieldTy.mostParts] at this
            exact Nat.le_trans this (Nat.le_max_left _ _)
          · exact Nat.le_trans (ih' _) (Nat.le_max_right _ _)
    · simp
  list ty m h e v := by simp only [MFieldTy.parts, MFieldTy.mostParts]; split <;> simp
  payload e v := by simp only [MFieldTy.parts, MFieldTy.mostParts]; split <;> simp
  msg id n fs sz h v := by
    simp only [Message.parts, Message.mostParts]
    split
    · next vs =>
      induction fs generalizing vs with
      | nil => simp [MField.listParts]
      | cons f fs ih =>
        have hf := h f (by simp)
        obtain ⟨nm, ty, o, sz, e⟩ := f
        simp only [MField.listParts, MField.listMostParts]
        split
        · next v rest =>
          have := ih (fun g hg => h g (by simp [hg])) rest
          rw [List.length_append]
          simp only [MField.parts]
          simp only [MField.ty] at hf
          split
          · split
            · simp only [List.length_cons, List.length_nil]; omega
            · next x => have := hf e x; simp only [List.length_cons]; omega
            · simp only [List.length_nil]; omega
          · have := hf e v; omega
        · simp
    · simp

/-- The field is neither optional nor a union. -/
def MField.always (f : MField) : Bool := f.notOptional && f.notUnion

theorem alwaysInd (c : Ctx) : SchemaInd
    (fun m => m.allFields MField.always = true → ∀ v, (m.write c v).res = .ok () → (m.parts v).length = m.mostParts)
    (fun t => t.allFields MField.always = true → MField.notUnion (.mk [] t false ⟨false, false⟩ .little) = true →
      ∀ e env v, (t.write c e env v).res = .ok () → (t.parts e v).length = t.mostParts) where
  fixed ty _ _ e env v h := by
    simp only [MFieldTy.write, MFieldTy.parts, MFieldTy.mostParts] at h ⊢
    cases v with
    | num => rfl
    | _ => cases h
  struct s _ _ e env v h := by
    simp only [MFieldTy.write, MFieldTy.parts, MFieldTy.mostParts, Referenced.write, Referenced.parts, Referenced.mostParts] at h ⊢
    cases v with
    | struct => rfl
    | _ => cases h
  message m hm ha _ e env v h := by
    simp only [MFieldTy.write, MFieldTy.parts, MFieldTy.mostParts, Referenced.write, Referenced.parts, Referenced.mostParts] at h ⊢
    exact hm (by simpa only [MFieldTy.allFields, Referenced.allFields] using ha) v h
  nul _ _ e env v h := by
    simp only [MFieldTy.write, MFieldTy.parts, MFieldTy.mostParts] at h ⊢
    cases v with
    | str => rfl
    | _ => cases h
  varchar ty _ _ e env v h := by
    simp only [MFieldTy.write, MFieldTy.parts, MFieldTy.mostParts] at h ⊢
    cases v with
    | str => rfl
    | _ => cases h
  array ty s _ _ e env v h := by
    simp only [MFieldTy.write, MFieldTy.parts, MFieldTy.mostParts] at h ⊢
    cases v with
    | seq => rfl
    | _ => cases h
  union n d cs sz on i h _ hu := by simp [MField.notUnion, MField.ty] at hu
  list ty m hm _ _ e env v h := by
    simp only [MFieldTy.write, MFieldTy.parts, MFieldTy.mostParts] at h ⊢
    cases v with
    | seq => rfl
    | _ => cases h
  payload _ _ e env v h := by
    simp only [MFieldTy.write, MFieldTy.parts, MFieldTy.mostParts] at h ⊢
    cases v with
    | buf => rfl
    | _ => cases h
  msg id n fs sz h ha v hv := by
    have ha' := MField.listAllFields_mem (by simpa only [Message.allFields] using ha)
    clear ha
    simp only [Message.write, Message.parts, Message.mostParts] at hv ⊢
    cases v with
    | msg vs =>
      simp only at hv ⊢
      suffices ∀ env, (MField.writeList c fs env vs).res = .ok () →
        (MField.listParts fs vs).length = MField.listMostParts fs from this vs hv
      clear hv
      intro env hv
      induction fs generalizing vs with
      | nil => rfl
      | cons f fs ih =>
        cases vs with
        | nil => cases hv
        | cons x vs =>
          simp only [MField.writeList] at hv
          obtain ⟨h1, h2⟩ := Out.andThen_res_eq_ok.1 hv
          have h3 := ih (fun g hg => h g (by simp [hg])) (fun g hg => ha' g (by simp [hg])) vs h2
          have hf := h f (by simp)
          obtain ⟨h4, h5⟩ := ha' f (by simp)
          obtain ⟨nm, ty, o, sz, e⟩ := f
          simp only [MField.always, Bool.and_eq_true] at h4
          cases o with
          | true => exact absurd h4.1 (by simp [MField.notOptional, MField.optional])
          | false =>
            simp only [MField.listParts, MField.listMostParts, List.length_append, h3]
            simp only [MField.write, MField.parts, Bool.false_eq_true, if_false] at h1 ⊢
            have h6 := hf h5 h4.2 e env x.2 h1
            simp only [MField.ty] at h6
            omega
    | _ => cases hv

/-- An output that takes `k` pieces and then fails. -/
def Sink.pieces (k : Nat) : Sink (List Bytes) :=
  ⟨fun b s => if s.length < k then (.ok (), s ++ [b]) else (.err .io, s)⟩

theorem Sink.pieces_run (k : Nat) (r : R Unit) (cs s : List Bytes) (hs : s.length ≤ k) :
    (Sink.pieces k).runChunks r cs s =
      if s.length + cs.length ≤ k then (r, s ++ cs) else (.err .io, (s ++ cs).take k) := by
  induction cs generalizing s with
  | nil => simp [Sink.runChunks, hs]
  | cons c cs ih =>
    by_cases h : s.length < k
    · have hw : (Sink.pieces k).writeAll c s = (.ok (), s ++ [c]) := by simp [Sink.pieces, h]
      rw [Sink.runChunks, hw]
      simp only
      rw [ih _ (by simp; omega)]
      simp only [List.length_append, List.length_cons, List.length_nil, List.append_assoc, List.singleton_append]
      have : s.length + (0 + 1) + cs.length = s.length + (cs.length + 1) := by omega
      rw [this]
    · have hw : (Sink.pieces k).writeAll c s = (.err .io, s) := by simp [Sink.pieces, h]
      rw [Sink.runChunks, hw]
      simp only [List.length_cons]
      rw [if_neg (by omega), List.take_append_of_le_length (by omega), List.take_of_length_le (by omega)]

end Proto

namespace Proto.Props

/-! ## C120 -/

/-- C120: the pieces an encoder hands to an output: those listed by `Message.parts`, in order; all of
them if it succeeds, those before the failure if it refuses the value. -/
theorem C120_parts (c : Ctx) (m : Message) (v : Value) :
    (m.write c v).chunks <+: m.parts v ∧ ((m.write c v).res = .ok () → (m.write c v).chunks = m.parts v) :=
  (handsInd c).all m v

/-- C120: their number has a limit that depends on the schema only: strings, arrays, lists and payloads are
not handed over byte by byte or item by item. -/
theorem C120_most (c : Ctx) (m : Message) (v : Value) : (m.write c v).chunks.length ≤ m.mostParts :=
  Nat.le_trans (C120_parts c m v).1.length_le (mostPartsInd.all m v)

/-- C120: without optional fields and unions the number is the same for all values. -/
theorem C120_number (c : Ctx) {m : Message} (ha : m.allFields MField.always = true) {v : Value}
    (hv : (m.write c v).res = .ok ()) : (m.write c v).chunks.length = m.mostParts := by
  rw [(C120_parts c m v).2 hv]
  exact (alwaysInd c).all m ha v hv

/-- C120: the pieces of a value, joined, are its wire form. -/
theorem C120_joined (c : Ctx) {m : Message} {v : Value} (h : m.Repr c v) : (m.parts v).flatten = m.wire v := by
  obtain ⟨h1, h2⟩ := C58_wire c h
  rw [← h2, Out.bytes, (C120_parts c m v).2 h1]

example : (Ex.full.parts Ex.fullV).flatten = Ex.full.wire Ex.fullV := C120_joined Ex.ctx Ex.fullV_repr

/-- C120: an output that fails after `k` calls has been given exactly the first `k` pieces, and the
failure is reported; one that would fail later gets all and nothing is reported. -/
theorem C120_failing (c : Ctx) {m : Message} {v : Value} (hv : (m.write c v).res = .ok ()) (k : Nat) :
    (m.write c v).run (Sink.pieces k) [] =
      if (m.parts v).length ≤ k then (.ok (), m.parts v) else (.err .io, (m.parts v).take k) := by
  rw [Out.run, Sink.pieces_run _ _ _ _ (by simp), hv, (C120_parts c m v).2 hv]
  simp

example : Ex.full.parts Ex.fullV = [[2, 9], [1, 2], [1], [104, 105], [0], [2], [1, 2, 3, 4], [1, 0],
    [2, 1, 2, 1, 104, 105, 0, 7, 0, 0], [1], [65], [1], [7, 0], [0]] ∧ Ex.full.mostParts = 16 :=
  ⟨by rfl, by decide⟩

example : (Ex.full.write Ex.ctx Ex.fullV).run (Sink.pieces 3) [] = (.err .io, [[2, 9], [1, 2], [1]]) :=
  C120_failing Ex.ctx (m := Ex.full) (C58_wire Ex.ctx Ex.fullV_repr).1 3

example : (Ex.keyed.write Ex.ctx Ex.keyedV).chunks.length = 4 :=
  C120_number Ex.ctx (m := Ex.keyed) (by decide) (by rfl)

/-- The key says "Keyed" but the value is "Itemized": the structure before the union has been handed over. -/
example : (Ex.safe.write Ex.ctx (.msg [("k".toList, .struct [1, 9]), ("u".toList, .union 2 Ex.itemV),
    ("a".toList, .seq ⟨[], 0⟩), ("l".toList, .seq ⟨[], 0⟩)])).chunks = [[1, 9]] := by rfl

end Proto.Props
