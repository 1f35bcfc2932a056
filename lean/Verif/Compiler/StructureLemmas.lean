import Verif.Gen.AccessLemmas

/-! # Lemmas about the structure compiler -/

namespace Proto

theorem Res.ofOption_eq_ok {ε α : Type} {e : ε} {o : Option α} {a : α}
    (h : Res.ofOption e o = .ok a) : o = some a := by
  cases o with
  | none => cases h
  | some b => cases h; rfl

/-- What compiling one field yields. -/
theorem SField.fromModel_spec {p : Profile} {structs : List (Name × Structure)}
    {enums : List (Name × Enum)} {e : Endian} {last : Nat} {v : Model.SField} {f : SField} {next : Nat}
    (h : SField.fromModel p structs enums e last v = .ok (f, next))
    (hp : p = .checked ∨ last + declWidth structs v < 2 ^ 64) :
    next = last + declWidth structs v ∧ next < 2 ^ 64 ∧ f.width = declWidth structs v ∧
      f.name = v.name ∧
      f.loc = ⟨last / 8, last % 8, ceil8 (declWidth structs v), declWidth structs v⟩ ∧
      Describes p structs enums e v f ∧
      (∀ a, f = .array a → a.loc.bitSize % 8 = 0 ∧ ∃ w, a.loc.bitSize = w * a.arrayLen) := by
  have scalar : ∀ bits, v.info.bitSize? = some bits → declWidth structs v = bits * v.arrayLen.getD 1 →
      (do let arrayLen := v.arrayLen.getD 1
          let bits ← Res.ofOption CError.missingBitSize v.info.bitSize?
          let view ← View.fromModel p enums v.info.simple bits v.view
          let bitSize ← mulU p usizeBits bits arrayLen
          let ty ← FixedTy.fromModel v.info
          let loc := Loc.fromModel bitSize last
          if arrayLen > 1 then
            if bitSize % 8 ≠ 0 then .err .unalignedArrayCodec
            else do
              let next ← addU p usizeBits last bitSize
              pure (SField.array { name := v.name, endian := e, arrayLen, ty, loc }, next)
          else do
            let next ← addU p usizeBits last bitSize
            pure (SField.fixed { name := v.name, endian := e, ty, loc, view }, next)) = .ok (f, next) →
      next = last + declWidth structs v ∧ next < 2 ^ 64 ∧ f.width = declWidth structs v ∧
      f.name = v.name ∧
      f.loc = ⟨last / 8, last % 8, ceil8 (declWidth structs v), declWidth structs v⟩ ∧
      Describes p structs enums e v f ∧
      (∀ a, f = .array a → a.loc.bitSize % 8 = 0 ∧ ∃ w, a.loc.bitSize = w * a.arrayLen) := by
    intro bits hbits hw h
    rw [hbits] at h
    simp only [Res.ofOption_some, Res.bind_ok] at h
    obtain ⟨view, hview, h⟩ := Res.bind_eq_ok.1 h
    obtain ⟨bitSize, hmul, h⟩ := Res.bind_eq_ok.1 h
    obtain ⟨ty, hty, h⟩ := Res.bind_eq_ok.1 h
    rw [hw] at hp ⊢
    obtain ⟨hbs, hlt⟩ := mulU_eq_ok hmul (by
      rcases hp with hp | hp
      · exact .inl hp
      · exact .inr (by unfold usizeBits; omega))
    subst hbs
    split at h
    · next hal =>
      split at h
      · cases h
      · next h8 =>
        obtain ⟨nx, hadd, h⟩ := Res.bind_eq_ok.1 h
        obtain ⟨hn, hnl⟩ := addU_eq_ok hadd hp
        cases h
        obtain ⟨n, hn'⟩ : ∃ n, v.arrayLen = some n := by
          cases hva : v.arrayLen with
          | none => rw [hva] at hal; simp at hal
          | some n => exact ⟨n, rfl⟩
        refine ⟨hn, by rw [hn]; exact hnl, rfl, rfl, Loc.fromModel_eq _ _, ?_, ?_⟩
        · refine ⟨rfl, ?_, hal, hty, rfl⟩
          simp [hn']
        · intro a ha
          cases ha
          exact ⟨by simpa [Loc.fromModel] using h8, bits, rfl⟩
    · next hal =>
      obtain ⟨nx, hadd, h⟩ := Res.bind_eq_ok.1 h
      obtain ⟨hn, hnl⟩ := addU_eq_ok hadd hp
      cases h
      refine ⟨hn, by rw [hn]; exact hnl, rfl, rfl, Loc.fromModel_eq _ _, ?_, ?_⟩
      · exact ⟨rfl, by omega, hty, rfl, bits, hbits, hview⟩
      · intro a ha; cases ha
  unfold SField.fromModel at h
  split at h
  · next t hi =>
    obtain ⟨r, hr, h⟩ := Res.bind_eq_ok.1 h
    have hl := Res.ofOption_eq_ok hr
    have hw : declWidth structs v = r.bitSize := by simp [declWidth, hi, hl]
    rw [hw] at hp ⊢
    obtain ⟨nx, hadd, h⟩ := Res.bind_eq_ok.1 h
    obtain ⟨hn, hnl⟩ := addU_eq_ok hadd hp
    cases h
    exact ⟨hn, by rw [hn]; exact hnl, rfl, rfl, Loc.fromModel_eq _ _, ⟨rfl, t, hi, hl⟩,
      fun a ha => by cases ha⟩
  · next hi =>
    cases hinfo : v.info with
    | struct t => exact absurd hinfo (hi t)
    | signed b => exact scalar b (by rw [hinfo]; rfl) (by simp [declWidth, hinfo]) h
    | unsigned b => exact scalar b (by rw [hinfo]; rfl) (by simp [declWidth, hinfo]) h
    | float b => exact scalar b (by rw [hinfo]; rfl) (by simp [declWidth, hinfo]) h
    | boolean b => exact scalar b (by rw [hinfo]; rfl) (by simp [declWidth, hinfo]) h

theorem SField.fromModels_spec {p : Profile} {structs : List (Name × Structure)}
    {enums : List (Name × Enum)} {e : Endian} {vs : List Model.SField} :
    ∀ {last : Nat} {fs : List SField} {final : Nat},
    SField.fromModels p structs enums e last vs = .ok (fs, final) →
    (p = .checked ∨ last + declTotal structs vs < 2 ^ 64) →
    final = last + declTotal structs vs ∧ fs.length = vs.length ∧
    ∀ i (hf : i < fs.length) (hv : i < vs.length),
      Describes p structs enums e vs[i] fs[i] ∧ fs[i].name = vs[i].name ∧
      fs[i].width = declWidth structs vs[i] ∧
      fs[i].loc = ⟨(last + declTotal structs (vs.take i)) / 8, (last + declTotal structs (vs.take i)) % 8,
        ceil8 (declWidth structs vs[i]), declWidth structs vs[i]⟩ ∧
      (∀ a, fs[i] = .array a → a.loc.bitSize % 8 = 0 ∧ ∃ w, a.loc.bitSize = w * a.arrayLen) := by
  induction vs with
  | nil =>
    intro last fs final h _
    cases h
    exact ⟨by simp [declTotal], rfl, fun i hf => by simp at hf⟩
  | cons v vs ih =>
    intro last fs final h hp
    have ht : declTotal structs (v :: vs) = declWidth structs v + declTotal structs vs := by
      simp [declTotal]
    rw [ht] at hp
    unfold SField.fromModels at h
    obtain ⟨⟨f, next⟩, h1, h⟩ := Res.bind_eq_ok.1 h
    obtain ⟨⟨fs', fin⟩, h2, h⟩ := Res.bind_eq_ok.1 h
    cases h
    obtain ⟨a1, a2, a3, a4, a5, a6, a7⟩ := SField.fromModel_spec h1 (hp.imp_right (fun h => by omega))
    obtain ⟨b1, b2, b3⟩ := ih h2 (hp.imp_right (fun h => by omega))
    refine ⟨by omega, by simp [b2], ?_⟩
    intro i hf hv
    cases i with
    | zero =>
      simp only [List.getElem_cons_zero, List.take_zero]
      refine ⟨a6, a4, a3, ?_, a7⟩
      simpa [declTotal] using a5
    | succ i =>
      simp only [List.getElem_cons_succ, List.take_succ_cons]
      obtain ⟨c1, c2, c3, c4, c5⟩ := b3 i (by simpa using hf) (by simpa using hv)
      refine ⟨c1, c2, c3, ?_, c5⟩
      have : last + declTotal structs (v :: vs.take i) = next + declTotal structs (vs.take i) := by
        simp only [declTotal, List.map_cons, List.sum_cons] at *; omega
      rw [this]
      exact c4

theorem SField.fromModels_WF {p : Profile} {structs : List (Name × Structure)}
    {enums : List (Name × Enum)} {e : Endian} (hs : ∀ n s, structs.lookup n = some s → s.WF)
    {vs : List Model.SField} :
    ∀ {last : Nat} {fs : List SField} {final : Nat},
    SField.fromModels p structs enums e last vs = .ok (fs, final) →
    (p = .checked ∨ last + declTotal structs vs < 2 ^ 64) → SField.listWF fs last final := by
  induction vs with
  | nil => intro last fs final h _; cases h; simp [SField.listWF]
  | cons v vs ih =>
    intro last fs final h hp
    have ht : declTotal structs (v :: vs) = declWidth structs v + declTotal structs vs := by
      simp [declTotal]
    rw [ht] at hp
    unfold SField.fromModels at h
    obtain ⟨⟨f, next⟩, h1, h⟩ := Res.bind_eq_ok.1 h
    obtain ⟨⟨fs', fin⟩, h2, h⟩ := Res.bind_eq_ok.1 h
    cases h
    obtain ⟨a1, a2, a3, a4, a5, a6, a7⟩ := SField.fromModel_spec h1 (hp.imp_right (fun h => by omega))
    have hwf := ih h2 (hp.imp_right (fun h => by omega))
    simp only [SField.listWF]
    rw [a3, ← a1]
    refine ⟨?_, hwf⟩
    rw [← a3] at a5
    cases f with
    | fixed f => simpa [SField.WF, SField.loc, SField.width] using a5
    | array f =>
      simp only [SField.WF]
      exact ⟨by simpa [SField.loc, SField.width] using a5, (a7 f rfl).1, a6.2.2.1, (a7 f rfl).2⟩
    | struct n r l =>
      simp only [SField.WF]
      obtain ⟨_, t, _, hl⟩ := a6
      exact ⟨by simpa [SField.loc, SField.width] using a5, hs t r hl⟩

theorem Structure.fromModel_WF {p : Profile} {structs : List (Name × Structure)}
    {enums : List (Name × Enum)} {e : Endian} (hs : ∀ n s, structs.lookup n = some s → s.WF)
    {id : Nat} {v : Model.Structure} {s : Structure}
    (h : Structure.fromModel p structs enums e id v = .ok s)
    (hp : p = .checked ∨ declTotal structs v.fields < 2 ^ 64) : s.WF := by
  unfold Structure.fromModel at h
  obtain ⟨⟨fs, last⟩, h1, h⟩ := Res.bind_eq_ok.1 h
  cases h
  simp only [Structure.WF]
  refine ⟨SField.fromModels_WF hs h1 (hp.imp_right (fun h => by omega)), ?_⟩
  unfold ceil8
  split <;> omega

theorem SField.fromModels_lt {structs : List (Name × Structure)} {enums : List (Name × Enum)}
    {e : Endian} {vs : List Model.SField} : ∀ {last : Nat} {fs : List SField} {final : Nat},
    SField.fromModels .checked structs enums e last vs = .ok (fs, final) → last < 2 ^ 64 →
    final < 2 ^ 64 := by
  induction vs with
  | nil => intro last fs final h hl; cases h; exact hl
  | cons v vs ih =>
    intro last fs final h hl
    unfold SField.fromModels at h
    obtain ⟨⟨f, next⟩, h1, h⟩ := Res.bind_eq_ok.1 h
    obtain ⟨⟨fs', fin⟩, h2, h⟩ := Res.bind_eq_ok.1 h
    cases h
    exact ih h2 (SField.fromModel_spec h1 (.inl rfl)).2.1

end Proto
