import Verif.Spec.Concurrent

/-!
# C112: writes in steps
-/

namespace Proto

open Drv

theorem stepsOf_append (a b : List (Nat × Step)) (i : Nat) :
    stepsOf (a ++ b) i = stepsOf a i ++ stepsOf b i :=
  List.filterMap_append

theorem stepsOf_self (i : Nat) (o : Step) (e : List (Nat × Step)) :
    stepsOf ((i, o) :: e) i = o :: stepsOf e i := by
  simp [stepsOf]

theorem stepsOf_ne {i j : Nat} (h : j ≠ i) (o : Step) (e : List (Nat × Step)) :
    stepsOf ((j, o) :: e) i = stepsOf e i := by
  simp [stepsOf, h]

theorem writeAt_length {c : Bytes} {k : Nat} {x : Bytes} (hx : x ≠ []) :
    (writeAt c k x).length = max c.length (k + x.length) := by
  rw [writeAt, if_neg hx]
  simp only [List.length_append, List.length_take, List.length_replicate, List.length_drop]
  omega

theorem writeAt_get {c : Bytes} {k : Nat} {x : Bytes} (m : Nat) (hm : k ≤ m) (hm' : m < k + x.length) :
    (writeAt c k x)[m]? = x[m - k]? := by
  have hx : x ≠ [] := by rintro rfl; simp at hm'; omega
  rw [writeAt, if_neg hx, List.append_assoc]
  have hl : (c.take k ++ List.replicate (k - c.length) 0).length = k := by simp; omega
  rw [List.getElem?_append_right (by omega), hl, List.getElem?_append_left (by omega)]

theorem writeAt_keep {c : Bytes} {k : Nat} {x : Bytes} (m : Nat) (hc : m < c.length)
    (hm : m < k ∨ k + x.length ≤ m) : (writeAt c k x)[m]? = c[m]? := by
  rw [writeAt]
  split
  · rfl
  rename_i hx
  have hl : (c.take k ++ List.replicate (k - c.length) 0).length = k := by simp; omega
  rcases hm with hm | hm
  · rw [List.append_assoc, List.getElem?_append_left (by omega),
      List.getElem?_append_left (by simp; omega), List.getElem?_take, if_pos hm]
  · rw [List.getElem?_append_right (by simp; omega), List.getElem?_drop]
    congr 1
    simp only [List.length_append, List.length_take, List.length_replicate]
    omega

/-- Where a writer is: after what it wrote. -/
theorem pos_after (s : Opened) (a : List (Nat × Step)) (i : Nat) (parts : List Bytes)
    (h : stepsOf a i = .empty :: parts.map .part) :
    (a.foldl Opened.step s).pos i = parts.flatten.length := by
  have gen : ∀ (a : List (Nat × Step)) (s : Opened) (parts : List Bytes), stepsOf a i = parts.map .part →
      (a.foldl Opened.step s).pos i = s.pos i + parts.flatten.length := by
    intro a
    induction a with
    | nil =>
      intro s parts h
      cases parts with
      | nil => simp
      | cons => simp [stepsOf] at h
    | cons x a ih =>
      intro s parts h
      obtain ⟨j, o⟩ := x
      by_cases hj : j = i
      · subst hj
        rw [stepsOf_self] at h
        cases parts with
        | nil => cases h
        | cons x parts =>
          simp only [List.map_cons, List.cons.injEq] at h
          obtain ⟨rfl, h⟩ := h
          rw [List.foldl_cons, ih _ _ h]
          simp only [Opened.step, if_true, List.flatten_cons, List.length_append]
          omega
      · rw [stepsOf_ne hj] at h
        rw [List.foldl_cons, ih _ _ h]
        cases o <;> simp [Opened.step, Ne.symm hj]
  induction a generalizing s with
  | nil => simp [stepsOf] at h
  | cons x a ih =>
    obtain ⟨j, o⟩ := x
    by_cases hj : j = i
    · subst hj
      rw [stepsOf_self] at h
      simp only [List.cons.injEq] at h
      obtain ⟨rfl, h⟩ := h
      rw [List.foldl_cons, gen _ _ _ h]
      simp [Opened.step]
    · rw [stepsOf_ne hj] at h
      exact ih _ h

/-- The last time a file is emptied. -/
theorem last_empty {e : List (Nat × Step)} {i : Nat} (h : (i, .empty) ∈ e) :
    ∃ a w b, e = a ++ (w, .empty) :: b ∧ ∀ j, (j, Step.empty) ∉ b := by
  induction e generalizing i with
  | nil => cases h
  | cons x e ih =>
    by_cases hh : ∃ j, (j, Step.empty) ∈ e
    · obtain ⟨j, hj⟩ := hh
      obtain ⟨a, w, b, rfl, hb⟩ := ih hj
      exact ⟨x :: a, w, b, rfl, hb⟩
    · rcases List.mem_cons.1 h with rfl | h
      · exact ⟨[], i, e, rfl, fun j hj => hh ⟨j, hj⟩⟩
      · exact absurd ⟨i, h⟩ hh

/-- Writers with what remains of the contents; one of them since the file was last emptied. -/
theorem finish {data : Bytes} {w : Nat} (b : List (Nat × Step)) (s : Opened)
    (hb : ∀ i, ∃ rest : List Bytes, stepsOf b i = rest.map .part ∧ (rest ≠ [] ∨ i = w →
      s.pos i ≤ data.length ∧ data.drop (s.pos i) = rest.flatten))
    (hl : s.content.length ≤ data.length) (hc : ∀ m, m < s.pos w → s.content[m]? = data[m]?) :
    (b.foldl Opened.step s).content = data := by
  induction b generalizing s with
  | nil =>
    obtain ⟨rest, h1, h2⟩ := hb w
    obtain ⟨h2, h3⟩ := h2 (.inr rfl)
    have hr : rest = [] := by
      cases rest with
      | nil => rfl
      | cons => simp [stepsOf] at h1
    subst hr
    have hd : data.length ≤ s.pos w := List.drop_eq_nil_iff.1 h3
    show s.content = data
    refine List.ext_getElem? fun m => ?_
    by_cases hm : m < data.length
    · exact hc m (by omega)
    · rw [List.getElem?_eq_none (by omega), List.getElem?_eq_none (by omega)]
  | cons x b ih =>
    obtain ⟨i, o⟩ := x
    obtain ⟨rest, h1, h2⟩ := hb i
    rw [stepsOf_self] at h1
    cases rest with
    | nil => cases h1
    | cons x rest =>
      simp only [List.map_cons, List.cons.injEq] at h1
      obtain ⟨rfl, h1⟩ := h1
      obtain ⟨h2, h3⟩ := h2 (.inl (by simp))
      rw [List.flatten_cons] at h3
      have hlen : s.pos i + x.length ≤ data.length := by
        have := congrArg List.length h3
        simp only [List.length_drop, List.length_append] at this
        omega
      have hget : ∀ m, s.pos i ≤ m → m < s.pos i + x.length → x[m - s.pos i]? = data[m]? := by
        intro m hm hm'
        have : (data.drop (s.pos i))[m - s.pos i]? = data[m]? := by
          rw [List.getElem?_drop]; congr 1; omega
        rw [← this, h3, List.getElem?_append_left (by omega)]
      rw [List.foldl_cons]
      refine ih _ (fun j => ?_) ?_ (fun m hm => ?_)
      · by_cases hj : j = i
        · subst hj
          refine ⟨rest, h1, fun _ => ?_⟩
          simp only [Opened.step, if_true]
          refine ⟨hlen, ?_⟩
          rw [← List.drop_drop, h3, List.drop_left]
        · obtain ⟨rest', k1, k2⟩ := hb j
          rw [stepsOf_ne (Ne.symm hj)] at k1
          refine ⟨rest', k1, fun hh => ?_⟩
          simp only [Opened.step, if_neg hj]
          exact k2 hh
      · simp only [Opened.step]
        by_cases hx : x = []
        · rw [writeAt, if_pos hx]; exact hl
        · rw [writeAt_length hx]; omega
      · simp only [Opened.step] at hm ⊢
        by_cases hin : s.pos i ≤ m ∧ m < s.pos i + x.length
        · rw [writeAt_get m hin.1 hin.2, hget m hin.1 hin.2]
        · have hmw : m < s.pos w := by
            by_cases hw : w = i
            · subst hw
              simp only [if_true] at hm
              omega
            · rw [if_neg hw] at hm; exact hm
          have hwl : s.pos w ≤ data.length := by
            obtain ⟨_, _, k⟩ := hb w
            exact (k (.inr rfl)).1
          have hcm := hc m hmw
          have hml : m < s.content.length := by
            rw [List.getElem?_eq_getElem (show m < data.length by omega)] at hcm
            exact (List.getElem?_eq_some_iff.1 hcm).1
          rw [writeAt_keep m hml (by omega)]
          exact hcm

/-- **C112.** Writing a file is not one step: it is emptied, then filled part by part.  Writers of the
same contents still leave these contents once all have ended, whatever was in the file, however each of
them cuts the contents into parts and however their steps mix. -/
theorem C112_torn {data : Bytes} {e : List (Nat × Step)} (s : Opened) (hne : e ≠ [])
    (h : ∀ i, stepsOf e i = [] ∨ Writes (stepsOf e i) data) :
    (e.foldl Opened.step s).content = data := by
  have hemp : ∃ i, (i, Step.empty) ∈ e := by
    cases e with
    | nil => exact absurd rfl hne
    | cons x e =>
      obtain ⟨i, o⟩ := x
      rcases h i with h | ⟨parts, h, -⟩
      · rw [stepsOf_self] at h; cases h
      · rw [stepsOf_self] at h
        simp only [List.cons.injEq] at h
        obtain ⟨rfl, -⟩ := h
        exact ⟨i, by simp⟩
  obtain ⟨i, hi⟩ := hemp
  obtain ⟨a, w, b, rfl, hb⟩ := last_empty hi
  rw [List.foldl_append, List.foldl_cons]
  have split : ∀ (l r : List Step) (parts : List Bytes), l ++ r = .empty :: parts.map .part → l ≠ [] →
      ∃ p1 p2 : List Bytes, l = .empty :: p1.map .part ∧ r = p2.map .part ∧ parts = p1 ++ p2 := by
    intro l r parts h hl
    cases l with
    | nil => exact absurd rfl hl
    | cons y l =>
      simp only [List.cons_append, List.cons.injEq] at h
      obtain ⟨rfl, h⟩ := h
      obtain ⟨p1, p2, h1, rfl, rfl⟩ := List.map_eq_append_iff.1 h.symm
      exact ⟨p1, p2, rfl, rfl, h1⟩
  have hbe : ∀ i, Step.empty ∉ stepsOf b i := by
    intro i hm
    obtain ⟨⟨j, o⟩, hj, ho⟩ := List.mem_filterMap.1 hm
    by_cases hji : j = i
    · simp only [hji, if_true, Option.some.injEq] at ho
      subst ho
      exact hb j hj
    · simp [hji] at ho
  refine finish (w := w) b _ (fun i => ?_) (by simp [Opened.step]) (fun m hm => ?_)
  · rcases h i with h0 | ⟨parts, h0, hp⟩
    · rw [stepsOf_append] at h0
      obtain ⟨h1, h2⟩ := List.append_eq_nil_iff.1 h0
      have hiw : i ≠ w := by
        rintro rfl
        rw [stepsOf_self] at h2; cases h2
      rw [stepsOf_ne (Ne.symm hiw)] at h2
      exact ⟨[], by rw [h2]; rfl, fun hh => hh.elim (absurd rfl) fun hh => absurd hh hiw⟩
    · rw [stepsOf_append] at h0
      by_cases hiw : i = w
      · subst hiw
        rw [stepsOf_self] at h0
        cases ha : stepsOf a i with
        | nil =>
          rw [ha] at h0
          simp only [List.nil_append, List.cons.injEq, true_and] at h0
          exact ⟨parts, h0, fun _ => by simp [Opened.step, hp]⟩
        | cons y ys =>
          rw [ha] at h0
          simp only [List.cons_append, List.cons.injEq] at h0
          have hm : Step.empty ∈ parts.map Step.part := by rw [← h0.2]; simp
          obtain ⟨_, _, hm⟩ := List.mem_map.1 hm
          cases hm
      · rw [stepsOf_ne (Ne.symm hiw)] at h0
        cases ha : stepsOf a i with
        | nil =>
          rw [ha, List.nil_append] at h0
          exact absurd (by rw [h0]; simp) (hbe i)
        | cons y ys =>
          obtain ⟨p1, p2, h1, h2, h3⟩ := split _ _ _ h0 (by rw [ha]; simp)
          refine ⟨p2, h2, fun _ => ?_⟩
          simp only [Opened.step, if_neg hiw, pos_after s a i p1 h1]
          rw [← hp, h3, List.flatten_append]
          exact ⟨by simp, List.drop_left⟩
  · simp [Opened.step] at hm

namespace Drv.Ex

/-- Two writers of the same three bytes: the second empties the file when the first is in the middle. -/
def mixed : List (Nat × Step) :=
  [(0, .empty), (0, .part [1, 2]), (1, .empty), (0, .part [3]), (1, .part [1]), (1, .part [2, 3])]

/-- A gap while they write. -/
example : ((mixed.take 4).foldl Opened.step ⟨[9, 9, 9, 9], fun _ => 0⟩).content = [0, 0, 3] := by
  decide +kernel

example : (mixed.foldl Opened.step ⟨[9, 9, 9, 9], fun _ => 0⟩).content = [1, 2, 3] := by
  refine C112_torn _ (by simp [mixed]) fun i => ?_
  match i with
  | 0 => exact .inr ⟨[[1, 2], [3]], rfl, rfl⟩
  | 1 => exact .inr ⟨[[1], [2, 3]], rfl, rfl⟩
  | i + 2 => exact .inl rfl

/-- Writers of different contents can leave what none of them writes. -/
example : (([(0, .empty), (1, .empty), (0, .part [1, 2, 3]), (1, .part [9])] :
    List (Nat × Step)).foldl Opened.step ⟨[], fun _ => 0⟩).content = [9, 2, 3] := by decide +kernel

end Drv.Ex

end Proto
