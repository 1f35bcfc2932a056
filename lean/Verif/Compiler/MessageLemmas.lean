import Verif.Spec.Compile
import Verif.Compiler.StructureLemmas

/-!
# Inversion of the message and union compiler
-/

namespace Proto

theorem Referenced.lookup_eq_some {proto : Protocol} {n : Name} {r : Referenced} :
    Referenced.lookup proto n = some r ↔
      (∃ s, proto.structsByName.lookup n = some s ∧ r = .struct s) ∨
      (proto.structsByName.lookup n = none ∧ ∃ m, proto.messagesByName.lookup n = some m ∧ r = .message m) := by
  unfold Referenced.lookup
  cases h : proto.structsByName.lookup n with
  | some s => simp [eq_comm]
  | none => simp [eq_comm]

theorem MField.fromModel_spec {proto : Protocol} {emb emb' : List Nat} {before : List MField}
    {v : Model.MField} {f : MField} (h : MField.fromModel proto emb before v = .ok (f, emb')) :
    FieldOf proto before v f ∧ emb' = (f.listItem?.map Message.id).toList ++ emb := by
  obtain ⟨name, info, optional⟩ := v
  unfold MField.fromModel at h
  unfold FieldOf
  cases info with
  | item t =>
    simp only at h ⊢
    obtain ⟨r, hr, h⟩ := Res.bind_eq_ok.1 h
    rcases Referenced.lookup_eq_some.1 (Res.ofOption_eq_ok hr) with ⟨s, hs, rfl⟩ | ⟨hn, m, hm, rfl⟩
    · simp only at h
      split at h
      · next ty hty =>
        cases h
        exact ⟨⟨rfl, rfl, rfl, .inl ⟨s, ty, hs, hty, rfl, rfl⟩⟩, rfl⟩
      · next hty =>
        cases h
        exact ⟨⟨rfl, rfl, rfl, .inr (.inl ⟨s, hs, hty, rfl, rfl⟩)⟩, rfl⟩
    · cases h
      exact ⟨⟨rfl, rfl, rfl, .inr (.inr ⟨hn, m, hm, rfl, rfl⟩)⟩, rfl⟩
  | list maxLen t =>
    simp only at h ⊢
    obtain ⟨r, hr, h⟩ := Res.bind_eq_ok.1 h
    obtain ⟨ty, hty, h⟩ := Res.bind_eq_ok.1 h
    rcases Referenced.lookup_eq_some.1 (Res.ofOption_eq_ok hr) with ⟨s, hs, rfl⟩ | ⟨hn, m, hm, rfl⟩
    · cases h
      exact ⟨⟨rfl, rfl, rfl, ty, hty, .inl ⟨s, hs, rfl, rfl⟩⟩, rfl⟩
    · cases h
      exact ⟨⟨rfl, rfl, rfl, ty, hty, .inr ⟨hn, m, hm, rfl, rfl⟩⟩, rfl⟩
  | string maxLen =>
    cases maxLen with
    | none =>
      cases h
      exact ⟨⟨rfl, rfl, rfl, rfl, rfl⟩, rfl⟩
    | some maxLen =>
      obtain ⟨ty, hty, h⟩ := Res.bind_eq_ok.1 h
      cases h
      exact ⟨⟨rfl, rfl, rfl, ty, hty, rfl, rfl⟩, rfl⟩
  | union on t =>
    simp only at h ⊢
    obtain ⟨i, hi, h⟩ := Res.bind_eq_ok.1 h
    obtain ⟨g, hg, h⟩ := Res.bind_eq_ok.1 h
    obtain ⟨u, hu, h⟩ := Res.bind_eq_ok.1 h
    have hi := Res.ofOption_eq_ok hi
    have hg := Res.ofOption_eq_ok hg
    split at h
    · next s hs =>
      split at h
      · next hid =>
        cases h
        have hname : g.name = on := by
          obtain ⟨hlt, hx, _⟩ := List.findIdx?_eq_some_iff_getElem.1 hi
          rw [List.getElem?_eq_getElem hlt] at hg
          cases hg
          simpa using hx
        refine ⟨⟨rfl, rfl, rfl, u, i, g, s, Res.ofOption_eq_ok hu, hi, hg, hs, hid, ?_, rfl⟩, rfl⟩
        rw [← hname]; rfl
      · cases h
    · cases h
  | payload =>
    cases h
    exact ⟨⟨rfl, rfl, rfl, rfl, rfl⟩, rfl⟩

theorem FieldOf.flagged {proto : Protocol} {before : List MField} {v : Model.MField} {f : MField}
    (h : FieldOf proto before v f)
    (hu : ∀ n u, proto.unionsByName.lookup n = some u → ∀ k ∈ u.cases, ∀ r, k.itemType = some r →
      (r.size.isDynSized = true → u.size.isDynSized = true) ∧
      (r.size.isElementDynSized = true → u.size.isElementDynSized = true)) : f.Flagged := by
  obtain ⟨-, -, h⟩ := h
  unfold MField.Flagged
  split at h
  · rcases h with ⟨_, ⟨s, ty, _, _, ht, hs⟩ | ⟨s, _, _, ht, hs⟩ | ⟨_, m, _, ht, hs⟩⟩ <;>
      rw [ht] <;> simp [hs, Referenced.size]
  · rcases h with ⟨_, ty, _, ⟨s, _, ht, hs⟩ | ⟨_, m, _, ht, hs⟩⟩ <;> rw [ht] <;> simp [hs]
  · obtain ⟨_, ht, hs⟩ := h; rw [ht]; simp [hs]
  · obtain ⟨_, ty, _, ht, hs⟩ := h; rw [ht]; simp [hs]
  · obtain ⟨_, u, i, g, s, hlk, _, _, _, _, ht, hs⟩ := h
    rw [ht]
    exact ⟨hs, hu _ _ hlk⟩
  · obtain ⟨_, ht, hs⟩ := h; rw [ht]; simp [hs]

/-! ## The field loop -/

theorem Legal.nil : Legal [] := by
  intro pre f post h
  simp at h

/-- Adding a field at the end. -/
theorem legal_snoc {fs : List MField} {f : MField} :
    Legal (fs ++ [f]) ↔ Legal fs ∧ (fs.any (fun g => g.size.isElementDynSized) = true →
      f.size.isDynSized = false ∧ f.size.isElementDynSized = false) := by
  constructor
  · intro h
    refine ⟨fun pre g post heq hg x hx => ?_, fun hany => ?_⟩
    · exact h pre g (post ++ [f]) (by rw [heq]; simp) hg x (by simp [hx])
    · obtain ⟨g, hg, hge⟩ := List.any_eq_true.1 hany
      obtain ⟨pre, post, rfl⟩ := List.append_of_mem hg
      exact h pre g (post ++ [f]) (by simp) hge f (by simp)
  · rintro ⟨h1, h2⟩ pre g post heq hg x hx
    rcases List.eq_nil_or_concat post with rfl | ⟨post', y, rfl⟩
    · simp at hx
    · rw [List.concat_eq_append] at heq hx
      have heq' : fs ++ [f] = (pre ++ g :: post') ++ [y] := by rw [heq]; simp
      obtain ⟨rfl, hy⟩ := List.append_inj' heq' rfl
      simp only [List.cons.injEq, and_true] at hy
      subst hy
      rw [List.mem_append] at hx
      rcases hx with hx | hx
      · exact h1 pre g post' rfl hg x hx
      · simp only [List.mem_singleton] at hx
        subst hx
        exact h2 (List.any_eq_true.2 ⟨g, by simp, hg⟩)

theorem legal_prefix {fs gs : List MField} (h : Legal (fs ++ gs)) : Legal fs := by
  intro pre f post heq hf x hx
  exact h pre f (post ++ gs) (by rw [heq]; simp) hf x (by simp [hx])

/-- `dyn_sized_elem_count` after legal fields. -/
def elemCount (fs : List MField) : Nat := if fs.any (fun f => f.size.isElementDynSized) then 1 else 0

theorem elemCount_pos {fs : List MField} :
    elemCount fs > 0 ↔ fs.any (fun f => f.size.isElementDynSized) = true := by
  unfold elemCount; split <;> simp_all

theorem fieldsFromModel_step {proto : Protocol} {emb emb1 : List Nat} {fs : List MField} {f : MField}
    {v : Model.MField} {vs : List Model.MField} {d : Bool}
    (h : MField.fromModel proto emb fs v = .ok (f, emb1)) :
    (Legal (fs ++ [f]) → Legal fs → Message.fieldsFromModel proto emb fs (elemCount fs) d (v :: vs) =
      Message.fieldsFromModel proto emb1 (fs ++ [f]) (elemCount (fs ++ [f])) (d || f.size.isDynSized) vs) ∧
    (¬ Legal (fs ++ [f]) → Legal fs → Message.fieldsFromModel proto emb fs (elemCount fs) d (v :: vs) =
      .err .varsizeAfterPayload) := by
  have hcount : elemCount (fs ++ [f]) = if fs.any (fun f => f.size.isElementDynSized) then 1
      else if f.size.isElementDynSized then 1 else 0 := by
    unfold elemCount
    rw [List.any_append]
    cases fs.any (fun f => f.size.isElementDynSized) <;> simp
  simp only [Message.fieldsFromModel, h, Res.bind_ok, elemCount_pos]
  refine ⟨fun hl hl' => ?_, fun hl hl' => ?_⟩
  · have h2 := (legal_snoc.1 hl).2
    rw [if_neg (by rintro ⟨ha, hb⟩; obtain ⟨h3, h4⟩ := h2 ha; simp [h3, h4] at hb)]
    cases ha : fs.any (fun f => f.size.isElementDynSized) with
    | true =>
      obtain ⟨h3, h4⟩ := h2 ha
      rw [hcount]
      simp only [ha, h4, if_true, Bool.false_eq_true, if_false]
      unfold elemCount
      simp [ha]
    | false =>
      rw [hcount]
      have he : elemCount fs = 0 := by unfold elemCount; simp [ha]
      simp only [ha, he, Bool.false_eq_true, if_false]
      cases f.size.isElementDynSized <;> simp
  · rw [legal_snoc] at hl
    have : fs.any (fun g => g.size.isElementDynSized) = true ∧
        (f.size.isDynSized = true ∨ f.size.isElementDynSized = true) := by
      by_cases ha : fs.any (fun g => g.size.isElementDynSized) = true
      · refine ⟨ha, ?_⟩
        cases h1 : f.size.isDynSized with
        | true => exact .inl rfl
        | false =>
          cases h2 : f.size.isElementDynSized with
          | true => exact .inr rfl
          | false => exact absurd ⟨hl', fun _ => ⟨h1, h2⟩⟩ hl
      · exact absurd ⟨hl', fun h => absurd h ha⟩ hl
    rw [if_pos this]

theorem fieldsFromModel_ok {proto : Protocol} {vs : List Model.MField} {emb emb' : List Nat}
    {before fs : List MField} (h : Fields proto emb before vs fs emb') (hl : Legal (before ++ fs))
    (d : Bool) :
    Message.fieldsFromModel proto emb before (elemCount before) d vs =
      .ok (before ++ fs, elemCount (before ++ fs), d || fs.any (fun f => f.size.isDynSized), emb') := by
  induction h generalizing d with
  | nil => simp [Message.fieldsFromModel]
  | @cons emb emb1 emb2 before fs v vs f hf _ ih =>
    have hl' : Legal (before ++ [f]) := legal_prefix (gs := fs) (by simpa using hl)
    rw [(fieldsFromModel_step hf).1 hl' (legal_prefix hl'), ih (by simpa using hl)]
    simp [Bool.or_assoc]

theorem fieldsFromModel_illegal {proto : Protocol} {vs : List Model.MField} {emb emb' : List Nat}
    {before fs : List MField} (h : Fields proto emb before vs fs emb') (hb : Legal before)
    (hl : ¬ Legal (before ++ fs)) (d : Bool) :
    Message.fieldsFromModel proto emb before (elemCount before) d vs = .err .varsizeAfterPayload := by
  induction h generalizing d with
  | nil => simp only [List.append_nil] at hl; exact absurd hb hl
  | @cons emb emb1 emb2 before fs v vs f hf _ ih =>
    by_cases hl' : Legal (before ++ [f])
    · rw [(fieldsFromModel_step hf).1 hl' hb]
      exact ih hl' (by simpa using hl) _
    · exact (fieldsFromModel_step hf).2 hl' hb

/-- Every outcome of the field loop. -/
theorem fieldsFromModel_cases {proto : Protocol} (vs : List Model.MField) (emb : List Nat)
    (before : List MField) (hb : Legal before) (d : Bool) :
    (∃ fs emb', Fields proto emb before vs fs emb' ∧ Legal (before ++ fs)) ∨
    (∃ as v bs fs emb', vs = as ++ v :: bs ∧ Fields proto emb before as fs emb' ∧ Legal (before ++ fs) ∧
      ((∃ e, MField.fromModel proto emb' (before ++ fs) v = .err e ∧
          Message.fieldsFromModel proto emb before (elemCount before) d vs = .err e) ∨
       (MField.fromModel proto emb' (before ++ fs) v = .panic ∧
          Message.fieldsFromModel proto emb before (elemCount before) d vs = .panic) ∨
       (∃ f emb'', MField.fromModel proto emb' (before ++ fs) v = .ok (f, emb'') ∧
          ¬ Legal (before ++ fs ++ [f]) ∧
          Message.fieldsFromModel proto emb before (elemCount before) d vs = .err .varsizeAfterPayload))) := by
  induction vs generalizing emb before d with
  | nil => exact .inl ⟨[], emb, .nil, by simpa using hb⟩
  | cons v vs ih =>
    cases hv : MField.fromModel proto emb before v with
    | err e =>
      refine .inr ⟨[], v, vs, [], emb, rfl, .nil, by simpa using hb, .inl ⟨e, by simpa using hv, ?_⟩⟩
      simp [Message.fieldsFromModel, hv]
    | panic =>
      refine .inr ⟨[], v, vs, [], emb, rfl, .nil, by simpa using hb, .inr (.inl ⟨by simpa using hv, ?_⟩)⟩
      simp [Message.fieldsFromModel, hv]
    | ok r =>
      obtain ⟨f, emb1⟩ := r
      by_cases hl : Legal (before ++ [f])
      · have hs := (fieldsFromModel_step (vs := vs) (d := d) hv).1 hl hb
        rw [hs]
        rcases ih emb1 (before ++ [f]) hl (d || f.size.isDynSized) with
          ⟨fs, emb', h1, h2⟩ | ⟨as, v', bs, fs, emb', rfl, h1, h2, h3⟩
        · exact .inl ⟨f :: fs, emb', .cons hv h1, by simpa using h2⟩
        · refine .inr ⟨v :: as, v', bs, f :: fs, emb', rfl, .cons hv h1, by simpa using h2, ?_⟩
          simpa using h3
      · exact .inr ⟨[], v, vs, [], emb, rfl, .nil, by simpa using hb,
          .inr (.inr ⟨f, emb1, by simpa using hv, by simpa using hl,
            (fieldsFromModel_step hv).2 hl hb⟩)⟩

theorem Message.fromModel_eq_ok {proto : Protocol} {emb emb' : List Nat} {id : Nat} {v : Model.Message}
    {m : Message} :
    Message.fromModel proto emb id v = .ok (m, emb') ↔
      ∃ fs, Fields proto emb [] v.fields fs emb' ∧ Legal fs ∧
        m = .mk id v.name fs ⟨fs.any (fun f => f.size.isDynSized), fs.any (fun f => f.size.isElementDynSized)⟩ := by
  have key : ∀ fs emb', Fields proto emb [] v.fields fs emb' → Legal fs →
      Message.fromModel proto emb id v = .ok (.mk id v.name fs
        ⟨fs.any (fun f => f.size.isDynSized), fs.any (fun f => f.size.isElementDynSized)⟩, emb') := by
    intro fs emb' h hl
    have := fieldsFromModel_ok h (by simpa using hl) false
    unfold Message.fromModel
    rw [show elemCount [] = 0 from rfl] at this
    rw [this]
    simp only [Res.bind_ok, List.nil_append, Bool.false_or, elemCount_pos, Res.pure_eq,
      Bool.decide_eq_true]
  constructor
  · intro h
    rcases fieldsFromModel_cases (proto := proto) v.fields emb [] Legal.nil false with
      ⟨fs, emb'', h1, h2⟩ | ⟨_, _, _, _, _, _, _, _, h3⟩
    · simp only [List.nil_append] at h2
      rw [key fs emb'' h1 h2] at h
      cases h
      exact ⟨fs, h1, h2, rfl⟩
    · unfold Message.fromModel at h
      rw [show elemCount [] = 0 from rfl] at h3
      rcases h3 with ⟨e, _, h3⟩ | ⟨_, h3⟩ | ⟨_, _, _, _, h3⟩ <;> rw [h3] at h <;> cases h
  · rintro ⟨fs, h1, h2, rfl⟩
    exact key fs emb' h1 h2

end Proto
