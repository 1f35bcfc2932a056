import Verif.Spec.Compile
import Verif.Gen.Totality
import Verif.Gen.WireLemmas

/-!
# What the size flags of the compiler imply for the generated codecs
-/

namespace Proto

/-! ## `AllMessages` as a closure property -/

theorem UCase.listAllMessages_iff {q : Message → Prop} {cs : List UCase} :
    UCase.ListAllMessages q cs ↔ ∀ k ∈ cs, ∀ r, k.itemType = some r → r.AllMessages q := by
  refine ⟨UCase.listAllMessages_mem, fun h => ?_⟩
  induction cs with
  | nil => simp [UCase.ListAllMessages]
  | cons k cs ih =>
    obtain ⟨n, v, t⟩ := k
    have ih := ih (fun k hk => h k (by simp [hk]))
    cases t with
    | none => simpa only [UCase.ListAllMessages] using ih
    | some r0 =>
      simp only [UCase.ListAllMessages]
      exact ⟨h (.mk n v (some r0)) (by simp) r0 rfl, ih⟩

theorem MField.listAllMessages_iff {q : Message → Prop} {fs : List MField} :
    MField.ListAllMessages q fs ↔ ∀ f ∈ fs, f.ty.AllMessages q := by
  refine ⟨MField.listAllMessages_mem, fun h => ?_⟩
  induction fs with
  | nil => simp [MField.ListAllMessages]
  | cons f fs ih =>
    have ih := ih (fun f hf => h f (by simp [hf]))
    have hf := h f (by simp)
    obtain ⟨n, ty, o, sz, e⟩ := f
    simp only [MField.ListAllMessages]
    exact ⟨hf, ih⟩

theorem Message.allMessages_iff {q : Message → Prop} {m : Message} :
    m.AllMessages q ↔ q m ∧ ∀ f ∈ m.fields, f.ty.AllMessages q := by
  obtain ⟨id, n, fs, sz⟩ := m
  simp only [Message.AllMessages, MField.listAllMessages_iff, Message.fields]

theorem Union.allMessages_iff {q : Message → Prop} {u : Union} :
    u.AllMessages q ↔ ∀ k ∈ u.cases, ∀ r, k.itemType = some r → r.AllMessages q := by
  obtain ⟨n, d, cs, sz⟩ := u
  simp only [Union.AllMessages, UCase.listAllMessages_iff, Union.cases]

theorem allMessages_monoInd (q r : Message → Prop) (hqr : ∀ m, q m → r m) : SchemaInd
    (fun m => m.AllMessages q → m.AllMessages r) (fun t => t.AllMessages q → t.AllMessages r) where
  fixed _ _ := by simp [MFieldTy.AllMessages]
  struct _ _ := by simp [MFieldTy.AllMessages, Referenced.AllMessages]
  message m h hq := by simp only [MFieldTy.AllMessages, Referenced.AllMessages] at hq ⊢; exact h hq
  nul _ := by simp [MFieldTy.AllMessages]
  varchar _ _ := by simp [MFieldTy.AllMessages]
  array _ _ _ := by simp [MFieldTy.AllMessages]
  union n d cs sz on i h hq := by
    simp only [MFieldTy.AllMessages, Union.allMessages_iff] at hq ⊢
    intro k hk r hr
    have := h k hk r hr
    simp only [MFieldTy.AllMessages] at this
    exact this (hq k hk r hr)
  list ty m h hq := by simp only [MFieldTy.AllMessages] at hq ⊢; exact h hq
  payload _ := by simp [MFieldTy.AllMessages]
  msg id n fs sz h hq := by
    rw [Message.allMessages_iff] at hq ⊢
    exact ⟨hqr _ hq.1, fun f hf => h f hf (hq.2 f hf)⟩

theorem allMessages_andInd (q r : Message → Prop) : SchemaInd
    (fun m => m.AllMessages q → m.AllMessages r → m.AllMessages fun m => q m ∧ r m)
    (fun t => t.AllMessages q → t.AllMessages r → t.AllMessages fun m => q m ∧ r m) where
  fixed _ _ := by simp [MFieldTy.AllMessages]
  struct _ _ := by simp [MFieldTy.AllMessages, Referenced.AllMessages]
  message m h hq hr := by
    simp only [MFieldTy.AllMessages, Referenced.AllMessages] at hq hr ⊢; exact h hq hr
  nul _ := by simp [MFieldTy.AllMessages]
  varchar _ _ := by simp [MFieldTy.AllMessages]
  array _ _ _ := by simp [MFieldTy.AllMessages]
  union n d cs sz on i h hq hr := by
    simp only [MFieldTy.AllMessages, Union.allMessages_iff] at hq hr ⊢
    intro k hk t ht
    have := h k hk t ht
    simp only [MFieldTy.AllMessages] at this
    exact this (hq k hk t ht) (hr k hk t ht)
  list ty m h hq hr := by simp only [MFieldTy.AllMessages] at hq hr ⊢; exact h hq hr
  payload _ := by simp [MFieldTy.AllMessages]
  msg id n fs sz h hq hr := by
    rw [Message.allMessages_iff] at hq hr ⊢
    exact ⟨⟨hq.1, hr.1⟩, fun f hf => h f hf (hq.2 f hf) (hr.2 f hf)⟩

theorem Message.AllMessages.and {q r : Message → Prop} {m : Message} (h : m.AllMessages q)
    (h' : m.AllMessages r) : m.AllMessages fun m => q m ∧ r m := (allMessages_andInd q r).all m h h'

theorem Message.AllMessages.mono {q r : Message → Prop} {m : Message} (h : m.AllMessages q)
    (hqr : ∀ m, q m → r m) : m.AllMessages r := (allMessages_monoInd q r hqr).all m h

theorem Union.AllMessages.mono {q r : Message → Prop} {u : Union} (h : u.AllMessages q)
    (hqr : ∀ m, q m → r m) : u.AllMessages r := by
  have := (allMessages_monoInd q r hqr).ty (.union u [] 0)
  simp only [MFieldTy.AllMessages] at this
  exact this h

/-! ## Element-dynamic: self-delimiting -/

theorem MField.listDelimited_of {emb : Nat → Bool} {here : Bool} {fs : List MField}
    (h : ∀ f ∈ fs, f.ty.delimited emb here = true) : MField.listDelimited emb here fs = true := by
  induction fs with
  | nil => rfl
  | cons f fs ih =>
    have ih := ih (fun f hf => h f (by simp [hf]))
    have hf := h f (by simp)
    obtain ⟨n, ty, o, sz, e⟩ := f
    simp only [MField.listDelimited, ih, Bool.and_true]
    exact hf

theorem UCase.listDelimited_of {emb : Nat → Bool} {cs : List UCase}
    (h : ∀ k ∈ cs, ∀ r, k.itemType = some r → r.delimited emb = true) :
    UCase.listDelimited emb cs = true := by
  induction cs with
  | nil => rfl
  | cons k cs ih =>
    have ih := ih (fun k hk => h k (by simp [hk]))
    obtain ⟨n, v, t⟩ := k
    cases t with
    | none => simpa only [UCase.listDelimited] using ih
    | some r0 =>
      simp only [UCase.listDelimited, ih, Bool.and_true]
      exact h (.mk n v (some r0)) (by simp) r0 rfl

theorem flagDelimitedInd (emb : Nat → Bool) : SchemaInd
    (fun m => m.AllMessages Message.Flagged → m.size.isElementDynSized = false → m.delimited emb = true)
    (fun t => ∀ n o sz e here, (MField.mk n t o sz e).Flagged → t.AllMessages Message.Flagged →
      sz.isElementDynSized = false → t.delimited emb here = true) where
  fixed _ _ _ _ _ _ _ _ _ := by simp [MFieldTy.delimited]
  struct _ _ _ _ _ _ _ _ _ := by simp [MFieldTy.delimited, Referenced.delimited]
  message m h n o sz e here hf hq hs := by
    simp only [MFieldTy.AllMessages, Referenced.AllMessages] at hq
    simp only [MFieldTy.delimited, Referenced.delimited]
    simp only [MField.Flagged, MField.ty, MField.size, Referenced.size] at hf
    exact h hq (by rw [← hf]; exact hs)
  nul _ _ _ _ _ _ _ _ := by simp [MFieldTy.delimited]
  varchar _ _ _ _ _ _ _ _ _ := by simp [MFieldTy.delimited]
  array _ _ _ _ _ _ _ _ _ _ := by simp [MFieldTy.delimited]
  union un d cs usz on i h n o sz e here hf hq hs := by
    simp only [MFieldTy.AllMessages, Union.allMessages_iff, Union.cases] at hq
    simp only [MFieldTy.delimited, Union.delimited]
    simp only [MField.Flagged, MField.ty, MField.size, Union.size, Union.cases] at hf
    refine UCase.listDelimited_of fun k hk r hr => ?_
    have := h k hk r hr n o r.size e here (by simp [MField.Flagged, MField.ty, MField.size])
      (by simp only [MFieldTy.AllMessages]; exact hq k hk r hr) (by
        have := (hf.2 k hk r hr).2
        rw [← hf.1, hs] at this
        simpa using this)
    simpa only [MFieldTy.delimited] using this
  list ty m h n o sz e here hf hq hs := by
    simp only [MField.Flagged, MField.ty, MField.size] at hf
    rw [hf] at hs
    simp at hs
  payload n o sz e here hf hq hs := by
    simp only [MField.Flagged, MField.ty, MField.size] at hf
    rw [hf] at hs
    simp at hs
  msg id n fs sz h hq hs := by
    rw [Message.allMessages_iff] at hq
    simp only [Message.fields, Message.Flagged, Message.size] at hq hs
    simp only [Message.delimited]
    refine MField.listDelimited_of fun f hf => ?_
    have hfl := hq.1.2 f hf
    have hel : f.size.isElementDynSized = false := by
      rw [hq.1.1] at hs
      have := List.any_eq_false.1 hs f hf
      simpa using this
    have := h f hf f.name f.optional f.size f.endian (emb id)
    exact this (by obtain ⟨_, _, _, _, _⟩ := f; exact hfl) (hq.2 f hf) hel

/-- A message flagged not element-dynamic has no greedy part. -/
theorem Message.delimited_of_flagged {m : Message} (h : m.AllMessages Message.Flagged)
    (hs : m.size.isElementDynSized = false) (emb : Nat → Bool) : m.delimited emb = true :=
  (flagDelimitedInd emb).all m h hs

/-! ## Not dynamically sized: constant size -/

theorem listRepr_constSize {c : Ctx} {emb : Bool} {fs : List MField}
    (h : ∀ f ∈ fs, f.optional = false ∧ ∀ env v, f.ty.Repr c emb env v →
      (f.ty.wire f.endian v).length = f.ty.constSize) :
    ∀ env vs, MField.ListRepr c emb fs env vs →
      (MField.listWire fs vs).length = MField.listConstSize fs := by
  induction fs with
  | nil => intro env vs _; simp [MField.listWire, MField.listConstSize]
  | cons f fs ih =>
    intro env vs hv
    simp only [MField.ListRepr] at hv
    obtain ⟨v, rest, rfl, hr, hrest⟩ := hv
    obtain ⟨ho, hf⟩ := h f (by simp)
    have ih := ih (fun g hg => h g (by simp [hg])) _ _ hrest
    obtain ⟨n, ty, o, sz, e⟩ := f
    simp only [MField.optional] at ho
    subst ho
    simp only [MField.Repr, Bool.false_eq_true, if_false] at hr
    simp only [MField.ty, MField.endian] at hf
    simp only [MField.listWire, MField.wire, Bool.false_eq_true, if_false, List.length_append,
      MField.listConstSize, ih, hf _ _ hr]

theorem constSizeInd (c : Ctx) : SchemaInd
    (fun m => m.AllMessages Message.Flagged → m.size.isDynSized = false →
      m.allFields MField.notOptional = true → m.allFields MField.notUnion = true →
      ∀ v, m.Repr c v → (m.wire v).length = m.constSize)
    (fun t => ∀ n o sz e here, (MField.mk n t o sz e).Flagged → t.AllMessages Message.Flagged →
      sz.isDynSized = false → (MField.mk n t o sz e).notUnion = true →
      t.allFields MField.notOptional = true → t.allFields MField.notUnion = true →
      ∀ env v, t.Repr c here env v → (t.wire e v).length = t.constSize) where
  fixed ty n o sz e here _ _ _ _ _ _ env v hv := by
    simp only [MFieldTy.Repr] at hv
    obtain ⟨k, rfl, _⟩ := hv
    simp [MFieldTy.wire, MFieldTy.constSize, wireInt_length]
  struct s n o sz e here _ _ _ _ _ _ env v hv := by
    simp only [MFieldTy.Repr, Referenced.Repr] at hv
    obtain ⟨b, rfl, hb⟩ := hv
    simp [MFieldTy.wire, Referenced.wire, MFieldTy.constSize, Referenced.constSize, hb]
  message m h n o sz e here hf hq hs _ hno hnu env v hv := by
    simp only [MFieldTy.AllMessages, Referenced.AllMessages] at hq
    simp only [MFieldTy.allFields, Referenced.allFields] at hno hnu
    simp only [MFieldTy.Repr, Referenced.Repr] at hv
    simp only [MField.Flagged, MField.ty, MField.size, Referenced.size] at hf
    simp only [MFieldTy.wire, Referenced.wire, MFieldTy.constSize, Referenced.constSize]
    exact h hq (by rw [← hf]; exact hs) hno hnu v hv
  nul n o sz e here hf _ hs := by
    simp only [MField.Flagged, MField.ty, MField.size] at hf
    rw [hf] at hs; simp at hs
  varchar ty n o sz e here hf _ hs := by
    simp only [MField.Flagged, MField.ty, MField.size] at hf
    rw [hf] at hs; simp at hs
  array ty s n o sz e here hf _ hs := by
    simp only [MField.Flagged, MField.ty, MField.size] at hf
    rw [hf] at hs; simp at hs
  union un d cs usz on i h n o sz e here _ _ _ hnu := by
    simp [MField.notUnion, MField.ty] at hnu
  list ty m h n o sz e here hf _ hs := by
    simp only [MField.Flagged, MField.ty, MField.size] at hf
    rw [hf] at hs; simp at hs
  payload n o sz e here hf _ hs := by
    simp only [MField.Flagged, MField.ty, MField.size] at hf
    rw [hf] at hs; simp at hs
  msg id n fs sz h hq hs hno hnu v hv := by
    rw [Message.allMessages_iff] at hq
    simp only [Message.fields, Message.Flagged, Message.size] at hq hs
    simp only [Message.Repr] at hv
    obtain ⟨vs, rfl, hv⟩ := hv
    simp only [Message.wire, Message.constSize]
    simp only [Message.allFields] at hno hnu
    refine listRepr_constSize (fun f hf => ?_) _ _ hv
    have hfl := hq.1.2 f hf
    have hel : f.size.isDynSized = false := by
      rw [hq.1.1] at hs
      have := List.any_eq_false.1 hs f hf
      simpa using this
    obtain ⟨hno1, hno2⟩ := MField.listAllFields_mem hno f hf
    obtain ⟨hnu1, hnu2⟩ := MField.listAllFields_mem hnu f hf
    refine ⟨by simpa [MField.notOptional] using hno1, fun env v hv => ?_⟩
    have := h f hf f.name f.optional f.size f.endian (c.emb id)
    exact this (by obtain ⟨_, _, _, _, _⟩ := f; exact hfl) (hq.2 f hf) hel
      (by obtain ⟨_, _, _, _, _⟩ := f; exact hnu1) hno2 hnu2 env v hv

theorem Message.wire_constSize {c : Ctx} {m : Message} (h : m.AllMessages Message.Flagged)
    (hs : m.size.isDynSized = false) (hno : m.allFields MField.notOptional = true)
    (hnu : m.allFields MField.notUnion = true) {v : Value} (hv : m.Repr c v) :
    (m.wire v).length = m.constSize := (constSizeInd c).all m h hs hno hnu v hv

end Proto
