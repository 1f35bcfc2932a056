import Verif.Decl.Message

/-! # Scanning the text of unions -/

namespace Proto.Decl

open Text

/-- A word behind four blanks does not begin a method. -/
theorem run_variant {w rest : Bytes} {c : UInt8} (hw : Word w) (hc : c = 44 ∨ c = 40) :
    run methodKeys (.start b!"    ") (w ++ c :: rest) = run methodKeys .skip rest := by
  have past : ∀ w : Bytes, Word w → run methodKeys .skip (w ++ c :: rest) = run methodKeys .skip rest := by
    intro w hw
    rw [run_append, run_oneLine hw.oneLine]
    have h10 : c ≠ 10 := by rcases hc with rfl | rfl <;> decide
    rw [run_cons]
    simp [step, h10]
  have skips : ∀ (p : Bytes) (d : UInt8) (l : Bytes), step methodKeys (.start p) d = ([], .skip) →
      run methodKeys (.start p) (d :: l) = run methodKeys .skip l := by
    intro p d l h
    rw [run_cons, h]
    simp
  have other3 : ∀ d : UInt8, d ≠ 10 → d ≠ 32 → step methodKeys (.start b!"    pub") d = ([], .skip) := by
    intro d h1 h2
    have h3 := Ne.symm h2
    simp [step, methodKeys, List.isPrefixOf, h1, h2]
  have l3 : ∀ w : Bytes, Word w →
      run methodKeys (.start b!"    pub") (w ++ c :: rest) = run methodKeys .skip rest := by
    intro w hw
    cases w with
    | nil => rw [List.nil_append, skips _ _ _ (by rcases hc with rfl | rfl <;> exact other3 _ (by decide) (by decide))]
    | cons d w =>
      have hd := hw d (by simp)
      have h1 : d ≠ 10 := by
        rintro rfl
        revert hd
        decide
      have h2 : d ≠ 32 := by
        rintro rfl
        revert hd
        decide
      rw [List.cons_append, skips _ _ _ (other3 d h1 h2)]
      exact past w fun x hx => hw x (by simp [hx])
  have other2 : ∀ d : UInt8, d ≠ 10 → d ≠ 98 → step methodKeys (.start b!"    pu") d = ([], .skip) := by
    intro d h1 h2
    have h3 := Ne.symm h2
    simp [step, methodKeys, List.isPrefixOf, h1, h2]
  have l2 : ∀ w : Bytes, Word w →
      run methodKeys (.start b!"    pu") (w ++ c :: rest) = run methodKeys .skip rest := by
    intro w hw
    cases w with
    | nil => rw [List.nil_append, skips _ _ _ (by rcases hc with rfl | rfl <;> exact other2 _ (by decide) (by decide))]
    | cons d w =>
      have hd := hw d (by simp)
      have h1 : d ≠ 10 := by
        rintro rfl
        revert hd
        decide
      by_cases h2 : d = 98
      · rw [List.cons_append, run_cons, h2]
        exact l3 w fun x hx => hw x (by simp [hx])
      · rw [List.cons_append, skips _ _ _ (other2 d h1 h2)]
        exact past w fun x hx => hw x (by simp [hx])
  have other1 : ∀ d : UInt8, d ≠ 10 → d ≠ 117 → step methodKeys (.start b!"    p") d = ([], .skip) := by
    intro d h1 h2
    have h3 := Ne.symm h2
    simp [step, methodKeys, List.isPrefixOf, h1, h2]
  have l1 : ∀ w : Bytes, Word w →
      run methodKeys (.start b!"    p") (w ++ c :: rest) = run methodKeys .skip rest := by
    intro w hw
    cases w with
    | nil => rw [List.nil_append, skips _ _ _ (by rcases hc with rfl | rfl <;> exact other1 _ (by decide) (by decide))]
    | cons d w =>
      have hd := hw d (by simp)
      have h1 : d ≠ 10 := by
        rintro rfl
        revert hd
        decide
      by_cases h2 : d = 117
      · rw [List.cons_append, run_cons, h2]
        exact l2 w fun x hx => hw x (by simp [hx])
      · rw [List.cons_append, skips _ _ _ (other1 d h1 h2)]
        exact past w fun x hx => hw x (by simp [hx])
  have other0 : ∀ d : UInt8, d ≠ 10 → d ≠ 112 → step methodKeys (.start b!"    ") d = ([], .skip) := by
    intro d h1 h2
    have h3 := Ne.symm h2
    simp [step, methodKeys, List.isPrefixOf, h1, h2]
  have l0 : ∀ w : Bytes, Word w →
      run methodKeys (.start b!"    ") (w ++ c :: rest) = run methodKeys .skip rest := by
    intro w hw
    cases w with
    | nil => rw [List.nil_append, skips _ _ _ (by rcases hc with rfl | rfl <;> exact other0 _ (by decide) (by decide))]
    | cons d w =>
      have hd := hw d (by simp)
      have h1 : d ≠ 10 := by
        rintro rfl
        revert hd
        decide
      by_cases h2 : d = 112
      · rw [List.cons_append, run_cons, h2]
        exact l1 w fun x hx => hw x (by simp [hx])
      · rw [List.cons_append, skips _ _ _ (other0 d h1 h2)]
        exact past w fun x hx => hw x (by simp [hx])
  exact l0 w hw

theorem caseDecl_types (paths : List (Name × Name)) (c : UCase) (h : CNamed paths c) :
    run typeKeys (.start []) (caseDecl paths c) = ([], .start []) := by
  obtain ⟨h1, h2⟩ := h
  have hw := word_lower h1
  unfold caseDecl typeKeys
  split
  all_goals
    rename_i e
    simp only [e] at h2 ⊢
    scan

theorem caseFromSlice_types (paths : List (Name × Name)) (c : UCase) (h : CNamed paths c) :
    run typeKeys (.start []) (caseFromSlice paths c) = ([], .start []) := by
  obtain ⟨h1, h2⟩ := h
  have hw := word_lower h1
  unfold caseFromSlice typeKeys
  split
  all_goals
    rename_i e
    simp only [e] at h2 ⊢
    scan

theorem caseWriteTo_types (paths : List (Name × Name)) (c : UCase) (h : CNamed paths c) :
    run typeKeys (.start []) (caseWriteTo paths c) = ([], .start []) := by
  obtain ⟨h1, h2⟩ := h
  have hw := word_lower h1
  unfold caseWriteTo typeKeys
  dsimp only
  split
  all_goals
    rename_i e
    simp only [e] at h2 ⊢
    first | scan | simp [run]

theorem caseGetter_types (paths : List (Name × Name)) (c : UCase) (h : CNamed paths c) :
    run typeKeys (.start []) (caseGetter paths c) = ([], .start []) := by
  obtain ⟨h1, h2⟩ := h
  have hw := word_lower h1
  unfold caseGetter typeKeys
  dsimp only
  split
  all_goals
    rename_i e
    simp only [e] at h2 ⊢
    scan

theorem caseSet_types (paths : List (Name × Name)) (c : UCase) (h : CNamed paths c) :
    run typeKeys (.start []) (caseSet c) = ([], .start []) := by
  have h1 := h.1
  unfold caseSet typeKeys
  split <;> scan

theorem caseDecl_constants (paths : List (Name × Name)) (c : UCase) (h : CNamed paths c) :
    run constantKeys (.start []) (caseDecl paths c) = ([], .start []) := by
  obtain ⟨h1, h2⟩ := h
  have hw := word_lower h1
  unfold caseDecl constantKeys
  split
  all_goals
    rename_i e
    simp only [e] at h2 ⊢
    scan

theorem caseFromSlice_constants (paths : List (Name × Name)) (c : UCase) (h : CNamed paths c) :
    run constantKeys (.start []) (caseFromSlice paths c) = ([], .start []) := by
  obtain ⟨h1, h2⟩ := h
  have hw := word_lower h1
  unfold caseFromSlice constantKeys
  split
  all_goals
    rename_i e
    simp only [e] at h2 ⊢
    scan

theorem caseWriteTo_constants (paths : List (Name × Name)) (c : UCase) (h : CNamed paths c) :
    run constantKeys (.start []) (caseWriteTo paths c) = ([], .start []) := by
  obtain ⟨h1, h2⟩ := h
  have hw := word_lower h1
  unfold caseWriteTo constantKeys
  dsimp only
  split
  all_goals
    rename_i e
    simp only [e] at h2 ⊢
    first | scan | simp [run]

theorem caseGetter_constants (paths : List (Name × Name)) (c : UCase) (h : CNamed paths c) :
    run constantKeys (.start []) (caseGetter paths c) = ([], .start []) := by
  obtain ⟨h1, h2⟩ := h
  have hw := word_lower h1
  unfold caseGetter constantKeys
  dsimp only
  split
  all_goals
    rename_i e
    simp only [e] at h2 ⊢
    scan

theorem caseSet_constants (paths : List (Name × Name)) (c : UCase) (h : CNamed paths c) :
    run constantKeys (.start []) (caseSet c) = ([], .start []) := by
  have h1 := h.1
  unfold caseSet constantKeys
  split <;> scan

theorem caseDecl_methods (paths : List (Name × Name)) (c : UCase) (h : CNamed paths c) :
    run methodKeys (.start []) (caseDecl paths c) = ([], .start []) := by
  obtain ⟨h1, h2⟩ := h
  have h0 : run methodKeys (.start []) b!"    " = ([], .start b!"    ") := by
    unfold methodKeys
    krun
  unfold caseDecl
  split
  · refine (chunk h0 (run_variant h1 (.inl rfl))).trans ?_
    simp [run, step]
  · rename_i e
    simp only [e] at h2
    refine (chunk h0 (run_variant h1 (.inr rfl))).trans ?_
    have : run methodKeys .skip (pathOf paths _ ++ b!"<&'a [u8]>),\n") = _ :=
      chunk (run_oneLine h2) (by unfold methodKeys; krun)
    simp only [List.append_eq, List.nil_append]
    rw [this]
    rfl
  · rename_i e
    simp only [e] at h2
    refine (chunk h0 (run_variant h1 (.inr rfl))).trans ?_
    have : run methodKeys .skip (pathOf paths _ ++ b!"<'a>),\n") = _ :=
      chunk (run_oneLine h2) (by unfold methodKeys; krun)
    simp only [List.append_eq, List.nil_append]
    rw [this]
    rfl

theorem caseFromSlice_methods (paths : List (Name × Name)) (c : UCase) (h : CNamed paths c) :
    run methodKeys (.start []) (caseFromSlice paths c) = ([], .start []) := by
  obtain ⟨h1, h2⟩ := h
  have hw := word_lower h1
  unfold caseFromSlice methodKeys
  split
  all_goals
    rename_i e
    simp only [e] at h2 ⊢
    scan

theorem caseWriteTo_methods (paths : List (Name × Name)) (c : UCase) (h : CNamed paths c) :
    run methodKeys (.start []) (caseWriteTo paths c) = ([], .start []) := by
  obtain ⟨h1, h2⟩ := h
  have hw := word_lower h1
  unfold caseWriteTo methodKeys
  dsimp only
  split
  all_goals
    rename_i e
    simp only [e] at h2 ⊢
    first | scan | simp [run]

theorem caseGetter_methods (paths : List (Name × Name)) (c : UCase) (h : CNamed paths c) :
    run methodKeys (.start []) (caseGetter paths c) = (accessors c, .start []) := by
  obtain ⟨h1, h2⟩ := h
  have hw := word_lower h1
  unfold caseGetter accessors methodKeys
  dsimp only
  split
  all_goals
    rename_i e
    simp only [e] at h2 ⊢
    scan

theorem caseSet_methods (paths : List (Name × Name)) (c : UCase) (h : CNamed paths c) :
    run methodKeys (.start []) (caseSet c) = ([], .start []) := by
  have h1 := h.1
  unfold caseSet methodKeys
  split <;> scan

theorem flatMap_none {α : Type} (xs : List α) : (xs.flatMap fun _ => ([] : List Bytes)) = [] := by
  induction xs with
  | nil => rfl
  | cons x xs ih => simp

theorem unionText_types (paths : List (Name × Name)) (u : Union) (path pathMut : Bytes)
    (h : Word (Name.utf8 u.name)) (hr : OneLine (pathOf paths u.discriminant.root.name)) (hp : OneLine path)
    (hq : OneLine pathMut) (hc : ∀ c ∈ u.cases, CNamed paths c) :
    run typeKeys (.start []) (unionText paths u path pathMut) = ([Name.utf8 u.name], .start []) := by
  have h1 := run_all (o := fun _ => []) fun c hm => caseDecl_types paths c (hc c hm)
  have h2 := run_all (o := fun _ => []) fun c hm => caseFromSlice_types paths c (hc c hm)
  have h3 := run_all (o := fun _ => []) fun c hm => caseWriteTo_types paths c (hc c hm)
  have h4 := run_all (o := fun _ => []) fun c hm => caseSet_types paths c (hc c hm)
  have h5 := run_all (o := fun _ => []) fun c hm => caseGetter_types paths c (hc c hm)
  unfold unionText unionGenerics typeKeys at *
  dsimp only
  split
  all_goals
    apply Eq.trans
    (focus (repeat scan_step))
    simp [flatMap_none]

theorem unionText_constants (paths : List (Name × Name)) (u : Union) (path pathMut : Bytes)
    (h : Word (Name.utf8 u.name)) (hr : OneLine (pathOf paths u.discriminant.root.name)) (hp : OneLine path)
    (hq : OneLine pathMut) (hc : ∀ c ∈ u.cases, CNamed paths c) :
    run constantKeys (.start []) (unionText paths u path pathMut) = ([], .start []) := by
  have h1 := run_all (o := fun _ => []) fun c hm => caseDecl_constants paths c (hc c hm)
  have h2 := run_all (o := fun _ => []) fun c hm => caseFromSlice_constants paths c (hc c hm)
  have h3 := run_all (o := fun _ => []) fun c hm => caseWriteTo_constants paths c (hc c hm)
  have h4 := run_all (o := fun _ => []) fun c hm => caseSet_constants paths c (hc c hm)
  have h5 := run_all (o := fun _ => []) fun c hm => caseGetter_constants paths c (hc c hm)
  unfold unionText unionGenerics constantKeys at *
  dsimp only
  split
  all_goals
    apply Eq.trans
    (focus (repeat scan_step))
    simp [flatMap_none]

theorem unionText_methods (paths : List (Name × Name)) (u : Union) (path pathMut : Bytes)
    (h : Word (Name.utf8 u.name)) (hr : OneLine (pathOf paths u.discriminant.root.name)) (hp : OneLine path)
    (hq : OneLine pathMut) (hc : ∀ c ∈ u.cases, CNamed paths c) :
    run methodKeys (.start []) (unionText paths u path pathMut) = ([b!"from_slice", b!"write_to", b!"set_discriminant"] ++ u.cases.flatMap accessors, .start []) := by
  have h1 := run_all (o := fun _ => []) fun c hm => caseDecl_methods paths c (hc c hm)
  have h2 := run_all (o := fun _ => []) fun c hm => caseFromSlice_methods paths c (hc c hm)
  have h3 := run_all (o := fun _ => []) fun c hm => caseWriteTo_methods paths c (hc c hm)
  have h4 := run_all (o := fun _ => []) fun c hm => caseSet_methods paths c (hc c hm)
  have h5 := run_all (o := accessors) fun c hm => caseGetter_methods paths c (hc c hm)
  unfold unionText unionGenerics methodKeys at *
  dsimp only
  split
  all_goals
    apply Eq.trans
    (focus (repeat scan_step))
    simp [flatMap_none]

end Proto.Decl
