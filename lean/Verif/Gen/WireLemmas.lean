import Verif.Gen.RoundTrip

/-!
# The wire format of messages
-/

namespace Proto

theorem Union.writeCases_wire {c : Ctx} {cs : List UCase}
    (h : ∀ k ∈ cs, ∀ r, k.itemType = some r → ∀ x, r.Repr c x → (r.write c x).bytes = r.wire x)
    {i d : Nat} {x : Value} (hr : UCase.ReprCase c cs i d x) :
    (Union.writeCases c cs i d x).bytes = UCase.wireAt cs i x := by
  induction cs generalizing i with
  | nil => simp only [UCase.ReprCase] at hr
  | cons k cs ih =>
    obtain ⟨n, case, t⟩ := k
    have ih' := fun {i} => @ih (fun k hk => h k (by simp [hk])) i
    cases t with
    | none =>
      simp only [UCase.ReprCase] at hr
      simp only [Union.writeCases, UCase.wireAt]
      split
      · rfl
      · next hi => rw [if_neg hi] at hr; exact ih' hr.2
    | some r =>
      simp only [UCase.ReprCase] at hr
      simp only [Union.writeCases, UCase.wireAt]
      split
      · next hi =>
        rw [if_pos hi] at hr
        rw [if_pos hr.1]
        exact h (.mk n case (some r)) (by simp) r rfl x hr.2
      · next hi => rw [if_neg hi] at hr; exact ih' hr.2

theorem wireInd (c : Ctx) : SchemaInd
    (fun m => ∀ v, m.Repr c v → (m.write c v).bytes = m.wire v)
    (fun t => ∀ emb e env ext v, t.Repr c emb env v → (t.write c e (env ++ ext) v).bytes = t.wire e v) where
  fixed ty emb e env ext v hr := by
    simp only [MFieldTy.Repr] at hr
    obtain ⟨n, rfl, hn⟩ := hr
    simp only [MFieldTy.write, MFieldTy.wire]
    exact Scalar.writeTo_bytes _ _ _
  struct s emb e env ext v hr := by
    simp only [MFieldTy.Repr, Referenced.Repr] at hr
    obtain ⟨b, rfl, hb⟩ := hr
    simp only [MFieldTy.write, Referenced.write, MFieldTy.wire, Referenced.wire]
    rw [Structure.write_eq hb]
    exact Out.write_bytes _
  message m h emb e env ext v hr := by
    simp only [MFieldTy.Repr, Referenced.Repr] at hr
    simp only [MFieldTy.write, Referenced.write, MFieldTy.wire, Referenced.wire]
    exact h v hr
  nul emb e env ext v hr := by
    simp only [MFieldTy.Repr] at hr
    obtain ⟨s, rfl, _⟩ := hr
    simp only [MFieldTy.write, MFieldTy.wire]
    exact NullTerminated.writeTo_bytes _
  varchar ty emb e env ext v hr := by
    simp only [MFieldTy.Repr] at hr
    obtain ⟨s, rfl, _⟩ := hr
    simp only [MFieldTy.write, MFieldTy.wire]
    exact Varchar.writeTo_bytes _ _ _
  array ty s emb e env ext v hr := by
    simp only [MFieldTy.Repr] at hr
    obtain ⟨l, rfl, _⟩ := hr
    simp only [MFieldTy.write, MFieldTy.wire]
    exact Seq.writeTo_bytes _ _ _
  union n d cs sz on i h emb e env ext v hr := by
    simp only [MFieldTy.Repr, Union.Repr] at hr
    obtain ⟨i, x, dv, rfl, hd, hr⟩ := hr
    simp only [MFieldTy.write, Union.write, MFieldTy.wire, Union.wire]
    have hcs := Union.writeCases_wire (c := c) (cs := cs) (fun k hk r hr x hx => by
      have := h k hk r hr false .little [] [] x (by simpa only [MFieldTy.Repr] using hx)
      simpa only [MFieldTy.write, MFieldTy.wire] using this) hr
    by_cases hany : cs.any (fun k => k.itemType.isSome) = true
    · rw [if_pos hany]
      simp only [Discriminant.read_append hd ext]
      exact hcs
    · rw [if_neg hany]
      have hnone : ∀ k ∈ cs, k.itemType = none := by
        intro k hk
        cases hk' : k.itemType with
        | none => rfl
        | some r => exact absurd (List.any_eq_true.mpr ⟨k, hk, by simp [hk']⟩) hany
      rw [Union.writeCases_empty hnone hr] at hcs
      exact hcs
  list ty m h emb e env ext v hr := by
    simp only [MFieldTy.Repr] at hr
    obtain ⟨l, rfl, _⟩ := hr
    simp only [MFieldTy.write, MFieldTy.wire]
    exact Seq.writeTo_bytes _ _ _
  payload emb e env ext v hr := by
    simp only [MFieldTy.Repr] at hr
    obtain ⟨b, rfl⟩ := hr
    simp only [MFieldTy.write, MFieldTy.wire]
    exact Out.write_bytes _
  msg id n fs sz h v hr := by
    simp only [Message.Repr] at hr
    obtain ⟨vs, rfl, hr⟩ := hr
    simp only [Message.write, Message.wire]
    suffices ∀ env, MField.ListRepr c (c.emb id) fs env vs →
        (MField.writeList c fs (env ++ vs) vs).bytes = MField.listWire fs vs by
      simpa using this [] hr
    clear hr
    induction fs generalizing vs with
    | nil => intro env _; simp [MField.writeList, MField.listWire]
    | cons f fs ih =>
      intro env hr
      have hrt := (MField.list_rt (c := c) (fs := f :: fs) (fun g _ => (roundTripInd c).ty g.ty) hr).1
      simp only [MField.ListRepr] at hr
      obtain ⟨v, rest, rfl, hv, hrest⟩ := hr
      simp only [MField.writeList] at hrt ⊢
      simp only [MField.listWire]
      rw [Out.andThen_bytes (Out.andThen_res_eq_ok.mp hrt).1]
      have h2 := ih (fun g hg => h g (by simp [hg])) rest (env ++ [(f.name, v)]) hrest
      rw [show env ++ [(f.name, v)] ++ rest = env ++ (f.name, v) :: rest by simp] at h2
      rw [h2]
      congr 1
      have hf := h f (by simp)
      obtain ⟨nm, ty, o, sz, e⟩ := f
      simp only [MField.write, MField.wire]
      simp only [MField.Repr] at hv
      cases o with
      | false =>
        simp only [Bool.false_eq_true, if_false] at hv ⊢
        exact hf _ _ _ _ _ hv
      | true =>
        simp only [if_true] at hv ⊢
        rcases hv with rfl | ⟨x, rfl, hx⟩
        · rfl
        · simp only [Optional.writeTo]
          rw [Out.andThen_bytes rfl, Out.write_bytes]
          exact congrArg (1 :: ·) (hf _ _ _ _ _ hx)

theorem Message.write_wire {c : Ctx} {m : Message} {v : Value} (h : m.Repr c v) :
    (m.write c v).res = .ok () ∧ (m.write c v).bytes = m.wire v :=
  ⟨(Message.roundTrips c m v h).1, (wireInd c).all m v h⟩

end Proto
