import Verif.Spec.Input
import Verif.Props.Compile
import Mathlib.Data.List.Nodup

/-!
# C71-C73: reading protocol descriptions
-/

namespace Proto.Props.Input

open Proto.Input Proto.Spec.Input

variable {w : Nat}

theorem filter_eq_nil {es : List Entry} {k : String} :
    es.filter (fun e => decide (e.1 = k.toList)) = [] ↔ Lacks es k := by
  rw [List.filter_eq_nil_iff]
  exact ⟨fun h e he hk => h e he (decide_eq_true hk), fun h e he hk => h e he (of_decide_eq_true hk)⟩

theorem filter_eq_singleton {es : List Entry} {k : String} {v : Json} :
    es.filter (fun e => decide (e.1 = k.toList)) = [(k.toList, v)] ↔ Has es k v := by
  induction es with
  | nil => simp [Has]
  | cons e es ih =>
    by_cases h : e.1 = k.toList
    · rw [List.filter_cons_of_pos (by exact decide_eq_true h), List.cons_eq_cons]
      constructor
      · rintro ⟨rfl, hn⟩
        exact ⟨[], es, rfl, by simpa [Lacks] using filter_eq_nil.1 hn⟩
      · rintro ⟨pre, post, heq, hne⟩
        cases pre with
        | nil =>
          cases heq
          exact ⟨rfl, filter_eq_nil.2 (by simpa [Lacks] using hne)⟩
        | cons p pre =>
          cases heq
          exact absurd h (hne e (by simp))
    · rw [List.filter_cons_of_neg (by simpa using h), ih]
      constructor
      · rintro ⟨pre, post, rfl, hne⟩
        refine ⟨e :: pre, post, rfl, ?_⟩
        intro x hx
        rcases List.mem_cons.1 hx with rfl | hx
        · exact h
        · exact hne x hx
      · rintro ⟨pre, post, heq, hne⟩
        cases pre with
        | nil => cases heq; exact absurd rfl h
        | cons p pre =>
          cases heq
          exact ⟨pre, post, rfl, fun x hx => hne x (List.mem_cons_of_mem _ hx)⟩

theorem field_iff {α : Type} {es : List Entry} {k : String} {de : Json → Option α} {absent : Option α}
    {a : α} :
    field es k.toList de absent = some a ↔
      (Lacks es k ∧ absent = some a) ∨ ∃ v, Has es k v ∧ de v = some a := by
  unfold field
  constructor
  · intro h
    split at h
    · next hf => exact .inl ⟨filter_eq_nil.1 hf, h⟩
    · next e hf =>
      have hm : e ∈ es.filter (fun e => decide (e.1 = k.toList)) := by rw [hf]; simp
      have hk : e.1 = k.toList := of_decide_eq_true (List.mem_filter.1 hm).2
      obtain ⟨k', v⟩ := e
      cases hk
      exact .inr ⟨v, filter_eq_singleton.1 hf, h⟩
    · cases h
  · rintro (⟨hl, ha⟩ | ⟨v, hh, hv⟩)
    · rw [filter_eq_nil.2 hl]; exact ha
    · rw [filter_eq_singleton.2 hh]; exact hv

theorem required_iff {α : Type} {es : List Entry} {k : String} {de : Json → Option α} {a : α} :
    requiredField es k.toList de = some a ↔ ∃ v, Has es k v ∧ de v = some a := by
  rw [requiredField, field_iff]
  simp

theorem string_iff {v : Json} {n : Name} : string v = some n ↔ v = .str n := by
  cases v <;> simp [string]

theorem float_iff {v : Json} {q : Rat} : float v = some q ↔ v = .num q := by
  cases v <;> simp [float]

theorem boolean_iff {v : Json} {b : Bool} : boolean v = some b ↔ v = .bool b := by
  cases v <;> simp [boolean]

theorem usize_iff {s : Serde w} {v : Json} {n : Nat} : usize s v = some n ↔ IsNumber s v n := by
  cases v <;> simp [usize, IsNumber]

theorem usizeBuffered_iff {s : Serde w} {v : Json} {n : Nat} :
    usizeBuffered s v = some n ↔ ∃ q, v = .num q ∧ s.usizeBuffered q = some n := by
  cases v <;> simp [usizeBuffered]

theorem required_string_iff {es : List Entry} {k : String} {n : Name} :
    requiredField es k.toList string = some n ↔ Has es k (.str n) := by
  rw [required_iff]
  simp [string_iff]

theorem required_float_iff {es : List Entry} {k : String} {q : Rat} :
    requiredField es k.toList float = some q ↔ Has es k (.num q) := by
  rw [required_iff]
  simp [float_iff]

theorem nullable_none {α : Type} {de : Json → Option α} {v : Json} :
    nullable de v = some none ↔ v = .null := by
  cases v <;> simp [nullable]

theorem nullable_some {α : Type} {de : Json → Option α} {v : Json} {a : α} :
    nullable de v = some (some a) ↔ v ≠ .null ∧ de v = some a := by
  cases v <;> simp [nullable]

theorem optional_iff {α : Type} {es : List Entry} {k : String} {de : Json → Option α} {o : Option α}
    {P : Json → α → Prop} (hP : ∀ v a, de v = some a ↔ P v a) :
    optionalField es k.toList de = some o ↔ May es k P o := by
  rw [optionalField, field_iff]
  cases o with
  | none => simp [May, nullable_none]
  | some a =>
    simp only [Option.some.injEq, reduceCtorEq, and_false, nullable_some, false_or, May, hP]
    constructor
    · rintro ⟨v, h1, h2, h3⟩; exact ⟨v, h2, h1, h3⟩
    · rintro ⟨v, h1, h2, h3⟩; exact ⟨v, h2, h1, h3⟩

theorem mapM_iff {α β : Type} {f : α → Option β} {xs : List α} {l : List β} :
    xs.mapM f = some l ↔ List.Forall₂ (fun x a => f x = some a) xs l := by
  induction xs generalizing l with
  | nil => simp [eq_comm]
  | cons x xs ih =>
    rw [List.mapM_cons]
    constructor
    · intro h
      simp only [Option.bind_eq_bind, Option.bind_eq_some_iff, Option.pure_def] at h
      obtain ⟨b, hb, bs, hbs, h⟩ := h
      cases h
      exact .cons hb (ih.1 hbs)
    · intro h
      cases h with
      | cons hb hbs => simp [hb, ih.2 hbs]

theorem vec_iff {α : Type} {de : Json → Option α} {P : Json → α → Prop}
    (hP : ∀ v a, de v = some a ↔ P v a) {v : Json} {l : List α} :
    vec de v = some l ↔ Items P v l := by
  have : (fun x a => de x = some a) = P := by
    funext x a; exact propext (hP x a)
  cases v <;> simp [vec, Items, mapM_iff, this]

theorem record_iff {s : Serde w} {keys : List String} {j : Json} {es : List Entry} :
    record s.trailing (keys.map String.toList) j = some es ↔ Members s keys j es := by
  cases j <;> simp only [record, Members, reduceCtorEq, false_or, false_and, exists_false,
    Json.obj.injEq, Json.arr.injEq, Option.some.injEq, or_false]
  next xs =>
    simp only [List.length_map, exists_eq_left']
    by_cases h : xs.length = keys.length ∨ s.trailing = true ∧ keys.length < xs.length
    · rw [if_pos h, Option.some.injEq]
      exact ⟨fun he => ⟨h, he.symm⟩, fun he => he.2.symm⟩
    · rw [if_neg h]
      exact ⟨fun he => (nomatch he), fun he => absurd he.1 h⟩

/-- Removing the members called `type` does not affect other members. -/
theorem field_untagged {α : Type} (es : List Entry) {k : Name} (hk : k ≠ "type".toList)
    (de : Json → Option α) (absent : Option α) :
    field (es.filter (fun e => decide (e.1 ≠ "type".toList))) k de absent = field es k de absent := by
  unfold field
  rw [List.filter_filter]
  have : (fun e : Entry => decide (e.1 = k) && decide (e.1 ≠ "type".toList)) =
      (fun e => decide (e.1 = k)) := by
    funext e
    by_cases h : e.1 = k
    · rw [decide_eq_true (p := e.1 ≠ _) (by rw [h]; exact hk), Bool.and_true]
    · rw [decide_eq_false h, Bool.false_and]
  rw [this]

/-- The variant with a given tag, read by a function that does not look at the member `type`. -/
theorem variant_iff {α : Type} {tag : String} {keys : List String} {j : Json} {a : α}
    {f : List Entry → Option α}
    (hf : ∀ es, f (es.filter (fun e => decide (e.1 ≠ "type".toList))) = f es) :
    (∃ rest, tagged j = some (tag.toList, rest) ∧
      ∃ es, record false (keys.map String.toList) rest = some es ∧ f es = some a) ↔
    ∃ es, Variant tag keys j es ∧ f es = some a := by
  constructor
  · rintro ⟨rest, ht, es, hr, hfa⟩
    cases j with
    | obj ms =>
      simp only [tagged, Option.bind_eq_bind, Option.bind_eq_some_iff, Option.pure_def,
        Option.some.injEq, Prod.mk.injEq] at ht
      obtain ⟨t, ht, rfl, rfl⟩ := ht
      cases hr
      exact ⟨ms, .inl ⟨rfl, required_string_iff.1 ht⟩, by rw [← hf]; exact hfa⟩
    | arr xs =>
      cases xs with
      | nil => simp [tagged] at ht
      | cons x xs =>
        simp only [tagged, Option.bind_eq_bind, Option.bind_eq_some_iff, Option.pure_def,
          Option.some.injEq, Prod.mk.injEq] at ht
        obtain ⟨t, ht, rfl, rfl⟩ := ht
        rw [string_iff] at ht
        subst ht
        simp only [record, List.length_map, Bool.false_eq_true, false_and, or_false] at hr
        split at hr
        · next hl =>
          cases hr
          exact ⟨_, .inr ⟨xs, rfl, hl, rfl⟩, hfa⟩
        · cases hr
    | _ => simp [tagged] at ht
  · rintro ⟨es, ⟨rfl, ht⟩ | ⟨xs, rfl, hl, rfl⟩, hfa⟩
    · refine ⟨.obj _, ?_, _, rfl, by rw [hf]; exact hfa⟩
      rw [tagged, required_string_iff.2 ht]
      rfl
    · refine ⟨.arr xs, by simp [tagged, string], _, ?_, hfa⟩
      simp [record, hl]

theorem variant_of_none {tag : String} {keys : List String} {j : Json} {es : List Entry}
    (h : tagged j = none) : ¬ Variant tag keys j es := by
  rintro (⟨rfl, ht⟩ | ⟨xs, rfl, hl, rfl⟩)
  · rw [tagged, required_string_iff.2 ht] at h
    cases h
  · simp [tagged, string] at h

theorem variant_of_some {α : Type} {t : Name} {rest j : Json} (h : tagged j = some (t, rest))
    (tag : String) (keys : List String) {a : α} {f : List Entry → Option α}
    (hf : ∀ es, f (es.filter (fun e => decide (e.1 ≠ "type".toList))) = f es) :
    (∃ es, Variant tag keys j es ∧ f es = some a) ↔
    t = tag.toList ∧ (record false (keys.map String.toList) rest).bind f = some a := by
  rw [← variant_iff hf, Option.bind_eq_some_iff]
  constructor
  · rintro ⟨r, hr, he⟩
    rw [h] at hr
    cases hr
    exact ⟨rfl, he⟩
  · rintro ⟨rfl, he⟩
    exact ⟨rest, h, he⟩

/-- Reading members other than `type`. -/
theorem required_untagged {α : Type} (es : List Entry) {k : Name} (hk : k ≠ "type".toList)
    (de : Json → Option α) :
    requiredField (es.filter (fun e => decide (e.1 ≠ "type".toList))) k de = requiredField es k de :=
  field_untagged es hk de none

theorem optional_untagged {α : Type} (es : List Entry) {k : Name} (hk : k ≠ "type".toList)
    (de : Json → Option α) :
    optionalField (es.filter (fun e => decide (e.1 ≠ "type".toList))) k de = optionalField es k de :=
  field_untagged es hk _ _

theorem bind_iff {α β : Type} {x : Option α} {f : α → Option β} {b : β} :
    (x >>= f) = some b ↔ ∃ a, x = some a ∧ f a = some b := Option.bind_eq_some_iff

/-- A variant with one required member. -/
theorem variant_one {α : Type} {tag k : String} (hk : k.toList ≠ "type".toList) {j : Json} {a : α}
    {de : Json → Option α} :
    (∃ rest, tagged j = some (tag.toList, rest) ∧ ∃ es, record false [k.toList] rest = some es ∧
      requiredField es k.toList de = some a) ↔
    ∃ es, Variant tag [k] j es ∧ ∃ v, Has es k v ∧ de v = some a := by
  simp only [← required_iff]
  exact variant_iff (keys := [k]) (f := fun es => requiredField es k.toList de)
    (fun es => required_untagged es hk de)

/-- A variant with one optional member. -/
theorem variant_may {α : Type} {tag k : String} (hk : k.toList ≠ "type".toList) {j : Json} {o : Option α}
    {de : Json → Option α} {P : Json → α → Prop} (hP : ∀ v a, de v = some a ↔ P v a) :
    (∃ rest, tagged j = some (tag.toList, rest) ∧ ∃ es, record false [k.toList] rest = some es ∧
      optionalField es k.toList de = some o) ↔
    ∃ es, Variant tag [k] j es ∧ May es k P o := by
  simp only [← optional_iff hP]
  exact variant_iff (keys := [k]) (f := fun es => optionalField es k.toList de)
    (fun es => optional_untagged es hk de)

/-- A variant with two required members. -/
theorem variant_two {α β : Type} {tag k l : String} (hk : k.toList ≠ "type".toList)
    (hl : l.toList ≠ "type".toList) {j : Json} {a : α} {b : β} {de : Json → Option α}
    {df : Json → Option β} :
    (∃ rest, tagged j = some (tag.toList, rest) ∧ ∃ es, record false [k.toList, l.toList] rest = some es ∧
      requiredField es k.toList de = some a ∧ requiredField es l.toList df = some b) ↔
    ∃ es, Variant tag [k, l] j es ∧ (∃ v, Has es k v ∧ de v = some a) ∧ ∃ v, Has es l v ∧ df v = some b := by
  simp only [← required_iff]
  have h := variant_iff (tag := tag) (keys := [k, l]) (j := j) (a := (a, b))
    (f := fun es => (requiredField es k.toList de).bind fun x =>
      (requiredField es l.toList df).map fun y => (x, y))
    (fun es => by simp only [required_untagged es hk de, required_untagged es hl df])
  simp only [Option.bind_eq_some_iff, Option.map_eq_some_iff, Prod.mk.injEq] at h
  constructor
  · rintro ⟨rest, ht, es, hr, ha, hb⟩
    obtain ⟨es, hv, x, hx, y, hy, rfl, rfl⟩ := h.1 ⟨rest, ht, es, hr, a, ha, b, hb, rfl, rfl⟩
    exact ⟨es, hv, hx, hy⟩
  · rintro ⟨es, hv, ha, hb⟩
    obtain ⟨rest, ht, es, hr, x, hx, y, hy, rfl, rfl⟩ := h.2 ⟨es, hv, a, ha, b, hb, rfl, rfl⟩
    exact ⟨rest, ht, es, hr, hx, hy⟩

theorem fieldView_iff {j : Json} {v : Model.FieldView} : fieldView j = some v ↔ IsView j v := by
  constructor
  · intro h
    obtain ⟨⟨t, rest⟩, ht, h⟩ := bind_iff.1 h
    dsimp only at h
    split at h
    · next hc =>
      subst hc
      obtain ⟨es, hr, h⟩ := bind_iff.1 h
      obtain ⟨n, hn, h⟩ := bind_iff.1 h
      cases h
      obtain ⟨es, hv, w, hw, hs⟩ := (variant_one (tag := "enum") (k := "name") (by decide)).1
        ⟨rest, ht, es, hr, hn⟩
      rw [string_iff.1 hs] at hw
      exact ⟨es, hv, hw⟩
    · split at h
      · next hc =>
        subst hc
        obtain ⟨es, hr, h⟩ := bind_iff.1 h
        obtain ⟨x, hx, h⟩ := bind_iff.1 h
        obtain ⟨y, hy, h⟩ := bind_iff.1 h
        cases h
        obtain ⟨es, hv, ⟨w, hw, hs⟩, u, hu, ht⟩ := (variant_two (tag := "float-range") (k := "min")
          (l := "max") (by decide) (by decide)).1 ⟨rest, ht, es, hr, hx, hy⟩
        rw [float_iff.1 hs] at hw
        rw [float_iff.1 ht] at hu
        exact ⟨es, hv, hw, hu⟩
      · split at h
        · next hc =>
          subst hc
          obtain ⟨es, hr, h⟩ := bind_iff.1 h
          obtain ⟨n, hn, h⟩ := bind_iff.1 h
          cases h
          obtain ⟨es, hv, w, hw, hs⟩ := (variant_one (tag := "float-multiplier") (k := "multiplier")
            (by decide)).1 ⟨rest, ht, es, hr, hn⟩
          rw [float_iff.1 hs] at hw
          exact ⟨es, hv, hw⟩
        · cases h
  · intro h
    cases v with
    | enum n =>
      obtain ⟨es, hv, hn⟩ := h
      obtain ⟨rest, ht, es, hr, hn⟩ := (variant_one (tag := "enum") (k := "name") (by decide)).2
        ⟨es, hv, _, hn, string_iff.2 rfl⟩
      refine bind_iff.2 ⟨_, ht, ?_⟩
      dsimp only
      rw [if_pos rfl]
      exact bind_iff.2 ⟨es, hr, bind_iff.2 ⟨_, hn, rfl⟩⟩
    | floatRange a b =>
      obtain ⟨es, hv, ha, hb⟩ := h
      obtain ⟨rest, ht, es, hr, ha, hb⟩ := (variant_two (tag := "float-range") (k := "min")
        (l := "max") (by decide) (by decide)).2
        ⟨es, hv, ⟨_, ha, float_iff.2 rfl⟩, _, hb, float_iff.2 rfl⟩
      refine bind_iff.2 ⟨_, ht, ?_⟩
      dsimp only
      rw [if_neg (by decide), if_pos rfl]
      exact bind_iff.2 ⟨es, hr, bind_iff.2 ⟨_, ha, bind_iff.2 ⟨_, hb, rfl⟩⟩⟩
    | floatMultiplier m =>
      obtain ⟨es, hv, hn⟩ := h
      obtain ⟨rest, ht, es, hr, hn⟩ := (variant_one (tag := "float-multiplier") (k := "multiplier")
        (by decide)).2 ⟨es, hv, _, hn, float_iff.2 rfl⟩
      refine bind_iff.2 ⟨_, ht, ?_⟩
      dsimp only
      rw [if_neg (by decide), if_neg (by decide), if_pos rfl]
      exact bind_iff.2 ⟨es, hr, bind_iff.2 ⟨_, hn, rfl⟩⟩

theorem bits_iff {s : Serde w} {tag : String} {j : Json} {n : Nat} :
    (∃ rest, tagged j = some (tag.toList, rest) ∧ bits s rest = some n) ↔ IsBits s tag j n := by
  have h := variant_one (tag := tag) (k := "bits") (by decide) (j := j) (a := n) (de := usizeBuffered s)
  constructor
  · rintro ⟨rest, ht, hb⟩
    obtain ⟨es, hr, hb⟩ := bind_iff.1 hb
    obtain ⟨es, hv, w, hw, hs⟩ := h.1 ⟨rest, ht, es, hr, hb⟩
    obtain ⟨q, rfl, hq⟩ := usizeBuffered_iff.1 hs
    exact ⟨es, q, hv, hw, hq⟩
  · rintro ⟨es, q, hv, hw, hq⟩
    obtain ⟨rest, ht, es, hr, hb⟩ := h.2 ⟨es, hv, _, hw, usizeBuffered_iff.2 ⟨q, rfl, hq⟩⟩
    exact ⟨rest, ht, bind_iff.2 ⟨es, hr, hb⟩⟩

theorem fieldTy_iff {s : Serde w} {j : Json} {v : Model.FieldTy} : fieldTy s j = some v ↔ IsTy s j v := by
  constructor
  · intro h
    obtain ⟨⟨t, rest⟩, ht, h⟩ := bind_iff.1 h
    dsimp only at h
    split at h
    · next hc =>
      subst hc
      obtain ⟨n, hn, rfl⟩ := Option.map_eq_some_iff.1 h
      exact bits_iff.1 ⟨rest, ht, hn⟩
    · split at h
      · next hc =>
        subst hc
        obtain ⟨n, hn, rfl⟩ := Option.map_eq_some_iff.1 h
        exact bits_iff.1 ⟨rest, ht, hn⟩
      · split at h
        · next hc =>
          subst hc
          obtain ⟨n, hn, rfl⟩ := Option.map_eq_some_iff.1 h
          exact bits_iff.1 ⟨rest, ht, hn⟩
        · split at h
          · next hc =>
            subst hc
            obtain ⟨n, hn, rfl⟩ := Option.map_eq_some_iff.1 h
            exact bits_iff.1 ⟨rest, ht, hn⟩
          · split at h
            · next hc =>
              subst hc
              obtain ⟨es, hr, h⟩ := bind_iff.1 h
              obtain ⟨n, hn, h⟩ := bind_iff.1 h
              cases h
              obtain ⟨es, hv, w, hw, hs⟩ := (variant_one (tag := "struct") (k := "item_type")
                (by decide)).1 ⟨rest, ht, es, hr, hn⟩
              rw [string_iff.1 hs] at hw
              exact ⟨es, hv, hw⟩
            · cases h
  · intro h
    cases v with
    | signed n =>
      obtain ⟨rest, ht, hb⟩ := bits_iff.2 h
      refine bind_iff.2 ⟨_, ht, ?_⟩
      dsimp only
      rw [if_pos rfl]
      exact Option.map_eq_some_iff.2 ⟨n, hb, rfl⟩
    | unsigned n =>
      obtain ⟨rest, ht, hb⟩ := bits_iff.2 h
      refine bind_iff.2 ⟨_, ht, ?_⟩
      dsimp only
      rw [if_neg (by decide), if_pos rfl]
      exact Option.map_eq_some_iff.2 ⟨n, hb, rfl⟩
    | float n =>
      obtain ⟨rest, ht, hb⟩ := bits_iff.2 h
      refine bind_iff.2 ⟨_, ht, ?_⟩
      dsimp only
      rw [if_neg (by decide), if_neg (by decide), if_pos rfl]
      exact Option.map_eq_some_iff.2 ⟨n, hb, rfl⟩
    | boolean n =>
      obtain ⟨rest, ht, hb⟩ := bits_iff.2 h
      refine bind_iff.2 ⟨_, ht, ?_⟩
      dsimp only
      rw [if_neg (by decide), if_neg (by decide), if_neg (by decide), if_pos rfl]
      exact Option.map_eq_some_iff.2 ⟨n, hb, rfl⟩
    | struct n =>
      obtain ⟨es, hv, hn⟩ := h
      obtain ⟨rest, ht, es, hr, hn⟩ := (variant_one (tag := "struct") (k := "item_type")
        (by decide)).2 ⟨es, hv, _, hn, string_iff.2 rfl⟩
      refine bind_iff.2 ⟨_, ht, ?_⟩
      dsimp only
      rw [if_neg (by decide), if_neg (by decide), if_neg (by decide), if_neg (by decide), if_pos rfl]
      exact bind_iff.2 ⟨es, hr, bind_iff.2 ⟨_, hn, rfl⟩⟩

/-- The unit variant. -/
theorem unit_iff {tag : String} {j : Json} :
    (∃ rest, tagged j = some (tag.toList, rest) ∧ unit rest = some ()) ↔ ∃ es, Variant tag [] j es := by
  have h := variant_iff (tag := tag) (keys := []) (j := j) (a := ()) (f := fun _ => some ())
    (fun _ => rfl)
  constructor
  · rintro ⟨rest, ht, hu⟩
    have hr : ∃ es, record false ([].map String.toList) rest = some es := by
      cases rest with
      | obj es => exact ⟨es, rfl⟩
      | arr xs =>
        cases xs with
        | nil => exact ⟨[], rfl⟩
        | cons x xs => cases hu
      | _ => cases hu
    obtain ⟨es, hr⟩ := hr
    obtain ⟨es, hv, _⟩ := h.1 ⟨rest, ht, es, hr, rfl⟩
    exact ⟨es, hv⟩
  · rintro ⟨es, hv⟩
    obtain ⟨rest, ht, es, hr, _⟩ := h.2 ⟨es, hv, rfl⟩
    refine ⟨rest, ht, ?_⟩
    cases rest with
    | obj es => rfl
    | arr xs =>
      cases xs with
      | nil => rfl
      | cons x xs => simp [record] at hr
    | _ => cases hr

theorem mFieldTy_iff {s : Serde w} {j : Json} {v : Model.MFieldTy} :
    mFieldTy s j = some v ↔ IsMTy s j v := by
  constructor
  · intro h
    obtain ⟨⟨t, rest⟩, ht, h⟩ := bind_iff.1 h
    dsimp only at h
    split at h
    · next hc =>
      subst hc
      obtain ⟨es, hr, h⟩ := bind_iff.1 h
      obtain ⟨n, hn, h⟩ := bind_iff.1 h
      cases h
      obtain ⟨es, hv, w, hw, hs⟩ := (variant_one (tag := "item") (k := "item_type")
        (by decide)).1 ⟨rest, ht, es, hr, hn⟩
      rw [string_iff.1 hs] at hw
      exact ⟨es, hv, hw⟩
    · split at h
      · next hc =>
        subst hc
        obtain ⟨es, hr, h⟩ := bind_iff.1 h
        obtain ⟨x, hx, h⟩ := bind_iff.1 h
        obtain ⟨y, hy, h⟩ := bind_iff.1 h
        cases h
        obtain ⟨es, hv, ⟨w, hw, hs⟩, u, hu, ht⟩ := (variant_two (tag := "list") (k := "max_len")
          (l := "item_type") (by decide) (by decide)).1 ⟨rest, ht, es, hr, hx, hy⟩
        obtain ⟨q, rfl, hq⟩ := usizeBuffered_iff.1 hs
        rw [string_iff.1 ht] at hu
        exact ⟨es, q, hv, hw, hq, hu⟩
      · split at h
        · next hc =>
          subst hc
          obtain ⟨es, hr, h⟩ := bind_iff.1 h
          obtain ⟨n, hn, h⟩ := bind_iff.1 h
          cases h
          exact (variant_may (tag := "string") (k := "max_len") (by decide)
            (fun _ _ => usizeBuffered_iff)).1 ⟨rest, ht, es, hr, hn⟩
        · split at h
          · next hc =>
            subst hc
            obtain ⟨_, hn, rfl⟩ := Option.map_eq_some_iff.1 h
            exact unit_iff.1 ⟨rest, ht, hn⟩
          · split at h
            · next hc =>
              subst hc
              obtain ⟨es, hr, h⟩ := bind_iff.1 h
              obtain ⟨x, hx, h⟩ := bind_iff.1 h
              obtain ⟨y, hy, h⟩ := bind_iff.1 h
              cases h
              obtain ⟨es, hv, ⟨w, hw, hs⟩, u, hu, ht⟩ := (variant_two (tag := "union") (k := "on")
                (l := "item_type") (by decide) (by decide)).1 ⟨rest, ht, es, hr, hx, hy⟩
              rw [string_iff.1 hs] at hw
              rw [string_iff.1 ht] at hu
              exact ⟨es, hv, hw, hu⟩
            · cases h
  · intro h
    cases v with
    | item n =>
      obtain ⟨es, hv, hn⟩ := h
      obtain ⟨rest, ht, es, hr, hn⟩ := (variant_one (tag := "item") (k := "item_type")
        (by decide)).2 ⟨es, hv, _, hn, string_iff.2 rfl⟩
      refine bind_iff.2 ⟨_, ht, ?_⟩
      dsimp only
      rw [if_pos rfl]
      exact bind_iff.2 ⟨es, hr, bind_iff.2 ⟨_, hn, rfl⟩⟩
    | list n t =>
      obtain ⟨es, q, hv, ha, hq, hb⟩ := h
      obtain ⟨rest, ht, es, hr, ha, hb⟩ := (variant_two (tag := "list") (k := "max_len")
        (l := "item_type") (by decide) (by decide)).2
        ⟨es, hv, ⟨_, ha, usizeBuffered_iff.2 ⟨q, rfl, hq⟩⟩, _, hb, string_iff.2 rfl⟩
      refine bind_iff.2 ⟨_, ht, ?_⟩
      dsimp only
      rw [if_neg (by decide), if_pos rfl]
      exact bind_iff.2 ⟨es, hr, bind_iff.2 ⟨_, ha, bind_iff.2 ⟨_, hb, rfl⟩⟩⟩
    | string n =>
      obtain ⟨rest, ht, es, hr, hn⟩ := (variant_may (tag := "string") (k := "max_len") (by decide)
        (fun _ _ => usizeBuffered_iff)).2 h
      refine bind_iff.2 ⟨_, ht, ?_⟩
      dsimp only
      rw [if_neg (by decide), if_neg (by decide), if_pos rfl]
      exact bind_iff.2 ⟨es, hr, bind_iff.2 ⟨_, hn, rfl⟩⟩
    | payload =>
      obtain ⟨rest, ht, hu⟩ := unit_iff.2 h
      refine bind_iff.2 ⟨_, ht, ?_⟩
      dsimp only
      rw [if_neg (by decide), if_neg (by decide), if_neg (by decide), if_pos rfl]
      exact Option.map_eq_some_iff.2 ⟨(), hu, rfl⟩
    | union on t =>
      obtain ⟨es, hv, ha, hb⟩ := h
      obtain ⟨rest, ht, es, hr, ha, hb⟩ := (variant_two (tag := "union") (k := "on")
        (l := "item_type") (by decide) (by decide)).2
        ⟨es, hv, ⟨_, ha, string_iff.2 rfl⟩, _, hb, string_iff.2 rfl⟩
      refine bind_iff.2 ⟨_, ht, ?_⟩
      dsimp only
      rw [if_neg (by decide), if_neg (by decide), if_neg (by decide), if_neg (by decide), if_pos rfl]
      exact bind_iff.2 ⟨es, hr, bind_iff.2 ⟨_, ha, bind_iff.2 ⟨_, hb, rfl⟩⟩⟩

theorem sField_iff {s : Serde w} {j : Json} {f : Model.SField} : sField s j = some f ↔ IsSField s j f := by
  constructor
  · intro h
    obtain ⟨es, hr, h⟩ := bind_iff.1 h
    obtain ⟨n, hn, h⟩ := bind_iff.1 h
    obtain ⟨i, hi, h⟩ := bind_iff.1 h
    obtain ⟨v, hv, h⟩ := bind_iff.1 h
    obtain ⟨l, hl, h⟩ := bind_iff.1 h
    cases h
    obtain ⟨w, hw, hi⟩ := required_iff.1 hi
    exact ⟨es, record_iff.1 hr, required_string_iff.1 hn, ⟨w, hw, fieldTy_iff.1 hi⟩,
      (optional_iff fun _ _ => fieldView_iff).1 hv, (optional_iff fun _ _ => usize_iff).1 hl⟩
  · rintro ⟨es, hm, hn, ⟨w, hw, hi⟩, hv, hl⟩
    exact bind_iff.2 ⟨es, record_iff.2 hm, bind_iff.2 ⟨_, required_string_iff.2 hn,
      bind_iff.2 ⟨_, required_iff.2 ⟨w, hw, fieldTy_iff.2 hi⟩,
      bind_iff.2 ⟨_, (optional_iff fun _ _ => fieldView_iff).2 hv,
      bind_iff.2 ⟨_, (optional_iff fun _ _ => usize_iff).2 hl, rfl⟩⟩⟩⟩⟩

theorem structure_iff {s : Serde w} {j : Json} {m : Model.Structure} :
    structure_ s j = some m ↔ IsStructure s j m := by
  constructor
  · intro h
    obtain ⟨es, hr, h⟩ := bind_iff.1 h
    obtain ⟨n, hn, h⟩ := bind_iff.1 h
    obtain ⟨i, hi, h⟩ := bind_iff.1 h
    cases h
    obtain ⟨w, hw, hi⟩ := required_iff.1 hi
    exact ⟨es, record_iff.1 hr, required_string_iff.1 hn, w, hw, (vec_iff fun _ _ => sField_iff).1 hi⟩
  · rintro ⟨es, hm, hn, w, hw, hi⟩
    exact bind_iff.2 ⟨es, record_iff.2 hm, bind_iff.2 ⟨_, required_string_iff.2 hn,
      bind_iff.2 ⟨_, required_iff.2 ⟨w, hw, (vec_iff fun _ _ => sField_iff).2 hi⟩, rfl⟩⟩⟩

theorem mField_iff {s : Serde w} {j : Json} {f : Model.MField} : mField s j = some f ↔ IsMField s j f := by
  constructor
  · intro h
    obtain ⟨es, hr, h⟩ := bind_iff.1 h
    obtain ⟨n, hn, h⟩ := bind_iff.1 h
    obtain ⟨i, hi, h⟩ := bind_iff.1 h
    obtain ⟨v, hv, h⟩ := bind_iff.1 h
    cases h
    obtain ⟨w, hw, hi⟩ := required_iff.1 hi
    exact ⟨es, record_iff.1 hr, required_string_iff.1 hn, ⟨w, hw, mFieldTy_iff.1 hi⟩,
      (optional_iff fun _ _ => boolean_iff).1 hv⟩
  · rintro ⟨es, hm, hn, ⟨w, hw, hi⟩, hv⟩
    exact bind_iff.2 ⟨es, record_iff.2 hm, bind_iff.2 ⟨_, required_string_iff.2 hn,
      bind_iff.2 ⟨_, required_iff.2 ⟨w, hw, mFieldTy_iff.2 hi⟩,
      bind_iff.2 ⟨_, (optional_iff fun _ _ => boolean_iff).2 hv, rfl⟩⟩⟩⟩

theorem message_iff {s : Serde w} {j : Json} {m : Model.Message} :
    message s j = some m ↔ IsMessage s j m := by
  constructor
  · intro h
    obtain ⟨es, hr, h⟩ := bind_iff.1 h
    obtain ⟨n, hn, h⟩ := bind_iff.1 h
    obtain ⟨i, hi, h⟩ := bind_iff.1 h
    cases h
    obtain ⟨w, hw, hi⟩ := required_iff.1 hi
    exact ⟨es, record_iff.1 hr, required_string_iff.1 hn, w, hw, (vec_iff fun _ _ => mField_iff).1 hi⟩
  · rintro ⟨es, hm, hn, w, hw, hi⟩
    exact bind_iff.2 ⟨es, record_iff.2 hm, bind_iff.2 ⟨_, required_string_iff.2 hn,
      bind_iff.2 ⟨_, required_iff.2 ⟨w, hw, (vec_iff fun _ _ => mField_iff).2 hi⟩, rfl⟩⟩⟩

theorem uCase_iff {s : Serde w} {j : Json} {c : Model.UCase} : uCase s j = some c ↔ IsCase s j c := by
  constructor
  · intro h
    obtain ⟨es, hr, h⟩ := bind_iff.1 h
    obtain ⟨n, hn, h⟩ := bind_iff.1 h
    obtain ⟨i, hi, h⟩ := bind_iff.1 h
    obtain ⟨v, hv, h⟩ := bind_iff.1 h
    cases h
    exact ⟨es, record_iff.1 hr, required_string_iff.1 hn, required_string_iff.1 hi,
      (optional_iff fun _ _ => string_iff).1 hv⟩
  · rintro ⟨es, hm, hn, hi, hv⟩
    exact bind_iff.2 ⟨es, record_iff.2 hm, bind_iff.2 ⟨_, required_string_iff.2 hn,
      bind_iff.2 ⟨_, required_string_iff.2 hi,
      bind_iff.2 ⟨_, (optional_iff fun _ _ => string_iff).2 hv, rfl⟩⟩⟩⟩

theorem union_iff {s : Serde w} {j : Json} {u : Model.Union} : union s j = some u ↔ IsUnion s j u := by
  constructor
  · intro h
    obtain ⟨es, hr, h⟩ := bind_iff.1 h
    obtain ⟨n, hn, h⟩ := bind_iff.1 h
    obtain ⟨d, hd, h⟩ := bind_iff.1 h
    obtain ⟨i, hi, h⟩ := bind_iff.1 h
    cases h
    obtain ⟨w, hw, hi⟩ := required_iff.1 hi
    exact ⟨es, record_iff.1 hr, required_string_iff.1 hn, required_string_iff.1 hd, w, hw,
      (vec_iff fun _ _ => uCase_iff).1 hi⟩
  · rintro ⟨es, hm, hn, hd, w, hw, hi⟩
    exact bind_iff.2 ⟨es, record_iff.2 hm, bind_iff.2 ⟨_, required_string_iff.2 hn,
      bind_iff.2 ⟨_, required_string_iff.2 hd,
      bind_iff.2 ⟨_, required_iff.2 ⟨w, hw, (vec_iff fun _ _ => uCase_iff).2 hi⟩, rfl⟩⟩⟩⟩

theorem import_iff {s : Serde w} {j : Json} {i : Model.Import} :
    Proto.Input.import s j = some i ↔ IsImport s j i := by
  constructor
  · intro h
    obtain ⟨es, hr, h⟩ := bind_iff.1 h
    obtain ⟨n, hn, h⟩ := bind_iff.1 h
    obtain ⟨d, hd, h⟩ := bind_iff.1 h
    cases h
    exact ⟨es, record_iff.1 hr, required_string_iff.1 hn, required_string_iff.1 hd⟩
  · rintro ⟨es, hm, hn, hd⟩
    exact bind_iff.2 ⟨es, record_iff.2 hm, bind_iff.2 ⟨_, required_string_iff.2 hn,
      bind_iff.2 ⟨_, required_string_iff.2 hd, rfl⟩⟩⟩

theorem endianness_iff {s : Serde w} {v : Json} {e : Endian} :
    endianness s v = some e ↔ IsEndian s v e := by
  cases v with
  | str n =>
    constructor
    · intro h
      unfold endianness at h
      dsimp only at h
      split at h
      · next hc => cases h; subst hc; exact .inl ⟨rfl, rfl⟩
      · split at h
        · next hc => cases h; subst hc; exact .inr (.inl ⟨rfl, rfl⟩)
        · cases h
    · rintro (⟨h, rfl⟩ | ⟨h, rfl⟩ | ⟨h, _⟩)
      · cases h; unfold endianness; dsimp only; rw [if_pos rfl]
      · cases h; unfold endianness; dsimp only; rw [if_neg (by decide), if_pos rfl]
      · exact absurd rfl (h n)
  | _ => simp [endianness, IsEndian]

/-- Inserting every member: the last one of a name stays. -/
theorem mem_insertAll {l : List (Name × Nat)} {n : Name} {x : Nat} :
    (n, x) ∈ insertAll l ↔ ∃ pre post, l = pre ++ (n, x) :: post ∧ ∀ e ∈ post, e.1 ≠ n := by
  induction l with
  | nil => simp [insertAll]
  | cons e l ih =>
    obtain ⟨k, y⟩ := e
    have hstep : ((∃ pre post, (k, y) :: l = pre ++ (n, x) :: post ∧ ∀ e ∈ post, e.1 ≠ n) ↔
        ((k = n ∧ y = x ∧ ∀ e ∈ l, e.1 ≠ n) ∨
          ∃ pre post, l = pre ++ (n, x) :: post ∧ ∀ e ∈ post, e.1 ≠ n)) := by
      constructor
      · rintro ⟨pre, post, heq, hne⟩
        cases pre with
        | nil => cases heq; exact .inl ⟨rfl, rfl, hne⟩
        | cons p pre => cases heq; exact .inr ⟨pre, post, rfl, hne⟩
      · rintro (⟨rfl, rfl, hne⟩ | ⟨pre, post, rfl, hne⟩)
        · exact ⟨[], l, rfl, hne⟩
        · exact ⟨(k, y) :: pre, post, rfl, hne⟩
    rw [hstep, insertAll]
    by_cases hr : l.any (fun e => decide (e.1 = k)) = true
    · rw [if_pos hr, ih]
      constructor
      · exact .inr
      · rintro (⟨rfl, rfl, hne⟩ | h)
        · obtain ⟨e, he, hk⟩ := List.any_eq_true.1 hr
          exact absurd (of_decide_eq_true hk) (hne e he)
        · exact h
    · rw [if_neg hr, List.mem_cons, ih, Prod.mk.injEq]
      constructor
      · rintro (⟨rfl, rfl⟩ | h)
        · refine .inl ⟨rfl, rfl, fun e he hk => hr ?_⟩
          exact List.any_eq_true.2 ⟨e, he, decide_eq_true hk⟩
        · exact .inr h
      · rintro (⟨rfl, rfl, _⟩ | h)
        · exact .inl ⟨rfl, rfl⟩
        · exact .inr h

theorem insertAll_nodup (l : List (Name × Nat)) : ((insertAll l).map Prod.fst).Nodup := by
  induction l with
  | nil => simp [insertAll]
  | cons e l ih =>
    obtain ⟨k, y⟩ := e
    rw [insertAll]
    split
    · exact ih
    · next hr =>
      rw [List.map_cons, List.nodup_cons]
      refine ⟨?_, ih⟩
      intro hm
      obtain ⟨⟨n, x⟩, hm, hk⟩ := List.mem_map.1 hm
      obtain ⟨pre, post, rfl, _⟩ := mem_insertAll.1 hm
      exact hr (List.any_eq_true.2 ⟨(n, x), by simp, decide_eq_true hk⟩)

theorem members_of_mapM {s : Serde w} {es : List Entry} {l : List (Name × Nat)}
    (h : List.Forall₂ (fun (e : Entry) a => (usize s e.2).map (fun x => (e.1, x)) = some a) es l) :
    (∀ e ∈ es, ∃ x, IsNumber s e.2 x) ∧
    ∀ n x, ((∃ pre post, l = pre ++ (n, x) :: post ∧ ∀ e ∈ post, e.1 ≠ n) ↔
      ∃ pre v post, es = pre ++ (n, v) :: post ∧ IsNumber s v x ∧ ∀ e ∈ post, e.1 ≠ n) := by
  induction h with
  | nil => simp
  | @cons e a es l ha hl ih =>
    obtain ⟨ih1, ih2⟩ := ih
    obtain ⟨x0, hx0, rfl⟩ := Option.map_eq_some_iff.1 ha
    rw [usize_iff] at hx0
    have hkeys : ∀ n, (∀ e ∈ l, e.1 ≠ n) ↔ ∀ e ∈ es, e.1 ≠ n := by
      intro n
      clear ih1 ih2
      induction hl with
      | nil => simp
      | cons h1 _ ih =>
        obtain ⟨_, _, rfl⟩ := Option.map_eq_some_iff.1 h1
        simp only [List.forall_mem_cons, ih]
    refine ⟨?_, ?_⟩
    · intro e' he'
      rcases List.mem_cons.1 he' with rfl | he'
      · exact ⟨x0, hx0⟩
      · exact ih1 e' he'
    · intro n x
      constructor
      · rintro ⟨pre, post, heq, hne⟩
        cases pre with
        | nil =>
          cases heq
          exact ⟨[], e.2, es, rfl, hx0, (hkeys _).1 hne⟩
        | cons p pre =>
          cases heq
          obtain ⟨pre', v, post', heq, hv, hn⟩ := (ih2 n x).1 ⟨pre, post, rfl, hne⟩
          exact ⟨e :: pre', v, post', by rw [heq]; rfl, hv, hn⟩
      · rintro ⟨pre, v, post, heq, hv, hne⟩
        cases pre with
        | nil =>
          cases heq
          obtain ⟨q, h1, h2⟩ := hv
          obtain ⟨q', h3, h4⟩ := hx0
          rw [h1] at h3
          cases h3
          rw [h2] at h4
          cases h4
          exact ⟨[], l, rfl, (hkeys _).2 hne⟩
        | cons p pre =>
          cases heq
          obtain ⟨pre', post', heq, hn⟩ := (ih2 n x).2 ⟨pre, v, post, rfl, hv, hne⟩
          exact ⟨_ :: pre', post', by rw [heq]; rfl, hn⟩

theorem variants_sound {s : Serde w} {v : Json} {l : List (Name × Nat)} (h : variants s v = some l) :
    IsVariants s v l := by
  cases v with
  | obj es =>
    obtain ⟨m, hm, h⟩ := bind_iff.1 h
    cases h
    obtain ⟨h1, h2⟩ := members_of_mapM (mapM_iff.1 hm)
    refine ⟨es, rfl, h1, ?_, ?_⟩
    · exact ((s.order_perm _).map _).nodup_iff.2 (insertAll_nodup m)
    · intro n x
      rw [(s.order_perm _).mem_iff, mem_insertAll, h2]
  | _ => cases h

theorem variants_complete {s : Serde w} {v : Json} {l : List (Name × Nat)} (h : IsVariants s v l) :
    ∃ l', variants s v = some l' ∧ l'.Perm l := by
  obtain ⟨es, rfl, h1, h2, h3⟩ := h
  have hm : ∃ m, es.mapM (fun e => (usize s e.2).map (fun x => (e.1, x))) = some m := by
    clear h3
    induction es with
    | nil => exact ⟨[], rfl⟩
    | cons e es ih =>
      obtain ⟨m, hm⟩ := ih fun e he => h1 e (List.mem_cons_of_mem _ he)
      obtain ⟨x, hx⟩ := h1 e List.mem_cons_self
      refine ⟨(e.1, x) :: m, mapM_iff.2 (.cons ?_ (mapM_iff.1 hm))⟩
      exact Option.map_eq_some_iff.2 ⟨x, usize_iff.2 hx, rfl⟩
  obtain ⟨m, hm⟩ := hm
  have hv : variants s (.obj es) = some (s.order (insertAll m)) := bind_iff.2 ⟨m, hm, rfl⟩
  refine ⟨_, hv, ?_⟩
  obtain ⟨es', he, _, h4, h5⟩ := variants_sound hv
  cases he
  refine (List.perm_ext_iff_of_nodup (List.Nodup.of_map _ h4) (List.Nodup.of_map _ h2)).2 ?_
  rintro ⟨n, x⟩
  rw [h5, h3]

theorem enum_sound {s : Serde w} {j : Json} {m : Model.Enum} (h : enum s j = some m) : IsEnum s j m := by
  obtain ⟨es, hr, h⟩ := bind_iff.1 h
  obtain ⟨n, hn, h⟩ := bind_iff.1 h
  obtain ⟨i, hi, h⟩ := bind_iff.1 h
  cases h
  obtain ⟨w, hw, hi⟩ := required_iff.1 hi
  exact ⟨es, record_iff.1 hr, required_string_iff.1 hn, w, hw, variants_sound hi⟩

theorem enum_complete {s : Serde w} {j : Json} {m : Model.Enum} (h : IsEnum s j m) :
    ∃ m', enum s j = some m' ∧ SameEnum m' m := by
  obtain ⟨es, hm, hn, w, hw, hi⟩ := h
  obtain ⟨l, hl, hp⟩ := variants_complete hi
  exact ⟨⟨m.name, l⟩, bind_iff.2 ⟨es, record_iff.2 hm, bind_iff.2 ⟨_, required_string_iff.2 hn,
      bind_iff.2 ⟨_, required_iff.2 ⟨w, hw, hl⟩, rfl⟩⟩⟩, rfl, hp⟩

/-- The variants of an enum are only determined up to their order. -/
theorem isEnum_same {s : Serde w} {j : Json} {m m' : Model.Enum} (h : IsEnum s j m) (hs : SameEnum m m') :
    IsEnum s j m' := by
  obtain ⟨es, hm, hn, w, hw, vs, hvs, h1, h2, h3⟩ := h
  obtain ⟨hname, hp⟩ := hs
  refine ⟨es, hm, by rw [← hname]; exact hn, w, hw, vs, hvs, h1, (hp.map _).nodup_iff.1 h2, ?_⟩
  intro n x
  rw [← hp.mem_iff, h3]

theorem mayItems_iff {α : Type} {de : Json → Option α} {P : Json → α → Prop}
    (hP : ∀ v a, de v = some a ↔ P v a) {es : List Entry} {k : String} {l : List α} :
    (∃ o, optionalField es k.toList (vec de) = some o ∧ o.getD [] = l) ↔ MayItems es k P l := by
  simp only [optional_iff (fun _ _ => vec_iff hP)]
  constructor
  · rintro ⟨o, ho, rfl⟩
    cases o with
    | none => exact .inl ⟨rfl, ho⟩
    | some l =>
      obtain ⟨v, _, hh, hv⟩ := ho
      exact .inr ⟨v, hh, hv⟩
  · rintro (⟨rfl, h⟩ | ⟨v, hh, hv⟩)
    · exact ⟨none, h, rfl⟩
    · refine ⟨some l, ⟨v, ?_, hh, hv⟩, rfl⟩
      rintro rfl
      obtain ⟨_, h, _⟩ := hv
      cases h

theorem protocol_sound {s : Serde w} {j : Json} {m : Model.Protocol} (h : protocol s j = some m) :
    IsProtocol s j m := by
  obtain ⟨es, hr, h⟩ := bind_iff.1 h
  obtain ⟨n, hn, h⟩ := bind_iff.1 h
  obtain ⟨e, he, h⟩ := bind_iff.1 h
  obtain ⟨i, hi, h⟩ := bind_iff.1 h
  obtain ⟨st, hst, h⟩ := bind_iff.1 h
  obtain ⟨ms, hms, h⟩ := bind_iff.1 h
  obtain ⟨en, hen, h⟩ := bind_iff.1 h
  obtain ⟨un, hun, h⟩ := bind_iff.1 h
  cases h
  refine ⟨es, record_iff.1 hr, required_string_iff.1 hn, (optional_iff fun _ _ => endianness_iff).1 he,
    (mayItems_iff fun _ _ => import_iff).1 ⟨i, hi, rfl⟩,
    (mayItems_iff fun _ _ => structure_iff).1 ⟨st, hst, rfl⟩,
    (mayItems_iff fun _ _ => message_iff).1 ⟨ms, hms, rfl⟩, ?_,
    (mayItems_iff fun _ _ => union_iff).1 ⟨un, hun, rfl⟩⟩
  rcases (mayItems_iff fun _ _ => Iff.rfl).1 ⟨en, hen, rfl⟩ with h | ⟨v, hh, xs, hv, hx⟩
  · exact .inl h
  · exact .inr ⟨v, hh, xs, hv, hx.imp fun _ _ => enum_sound⟩

theorem forall₂_complete {α : Type} {P Q : Json → α → Prop} {S : α → α → Prop}
    (h : ∀ j a, P j a → ∃ b, Q j b ∧ S b a) {xs : List Json} {l : List α} (hl : List.Forall₂ P xs l) :
    ∃ l', List.Forall₂ Q xs l' ∧ List.Forall₂ S l' l := by
  induction hl with
  | nil => exact ⟨[], .nil, .nil⟩
  | cons ha _ ih =>
    obtain ⟨b, hb, hs⟩ := h _ _ ha
    obtain ⟨l', h1, h2⟩ := ih
    exact ⟨b :: l', .cons hb h1, .cons hs h2⟩

theorem protocol_complete {s : Serde w} {j : Json} {m : Model.Protocol} (h : IsProtocol s j m) :
    ∃ m', protocol s j = some m' ∧ Same m' m := by
  obtain ⟨es, hm, hn, he, hi, hst, hms, hen, hun⟩ := h
  obtain ⟨i, hi, hi'⟩ := (mayItems_iff fun _ _ => import_iff).2 hi
  obtain ⟨st, hst, hst'⟩ := (mayItems_iff fun _ _ => structure_iff).2 hst
  obtain ⟨ms, hms, hms'⟩ := (mayItems_iff fun _ _ => message_iff).2 hms
  obtain ⟨un, hun, hun'⟩ := (mayItems_iff fun _ _ => union_iff).2 hun
  have : ∃ l, MayItems es "enums" (fun v a => enum s v = some a) l ∧ List.Forall₂ SameEnum l m.enums := by
    rcases hen with ⟨hl, h⟩ | ⟨v, hh, xs, hv, hx⟩
    · exact ⟨[], .inl ⟨rfl, h⟩, by rw [hl]; exact .nil⟩
    · obtain ⟨l, h1, h2⟩ := forall₂_complete (P := IsEnum s)
        (Q := fun v a => enum s v = some a) (fun _ _ h => enum_complete h) hx
      exact ⟨l, .inr ⟨v, hh, xs, hv, h1⟩, h2⟩
  obtain ⟨l, hl, hs⟩ := this
  obtain ⟨en, hen, hen'⟩ := (mayItems_iff fun _ _ => Iff.rfl).2 hl
  refine ⟨_, bind_iff.2 ⟨es, record_iff.2 hm, bind_iff.2 ⟨_, required_string_iff.2 hn,
    bind_iff.2 ⟨_, (optional_iff fun _ _ => endianness_iff).2 he, bind_iff.2 ⟨_, hi,
    bind_iff.2 ⟨_, hst, bind_iff.2 ⟨_, hms, bind_iff.2 ⟨_, hen, bind_iff.2 ⟨_, hun, rfl⟩⟩⟩⟩⟩⟩⟩⟩, ?_⟩
  exact ⟨rfl, rfl, hi', hst', hms', by rw [hen']; exact hs, hun'⟩

theorem isProtocol_same {s : Serde w} {j : Json} {m m' : Model.Protocol} (h : IsProtocol s j m)
    (hs : Same m m') : IsProtocol s j m' := by
  obtain ⟨es, hm, hn, he, hi, hst, hms, hen, hun⟩ := h
  obtain ⟨s1, s2, s3, s4, s5, s6, s7⟩ := hs
  refine ⟨es, hm, s1 ▸ hn, s2 ▸ he, s3 ▸ hi, s4 ▸ hst, s5 ▸ hms, ?_, s7 ▸ hun⟩
  rcases hen with ⟨hl, h⟩ | ⟨v, hh, xs, hv, hx⟩
  · rw [hl] at s6
    cases hm' : m'.enums with
    | nil => exact .inl ⟨rfl, h⟩
    | cons _ _ => rw [hm'] at s6; cases s6
  · refine .inr ⟨v, hh, xs, hv, ?_⟩
    clear hv hh hm hn he hi hst hms hun s1 s2 s3 s4 s5 s7
    generalize m.enums = l at *
    generalize m'.enums = l' at *
    induction hx generalizing l' with
    | nil => cases s6; exact .nil
    | cons ha _ ih =>
      cases s6 with
      | cons hb hbs => exact .cons (isEnum_same ha hb) (ih _ hbs)

/-- C71: a document is accepted as a protocol exactly when it describes one, and what is read is what
it describes; only the order of the variants of an enum is left open. -/
theorem C71_meaning (s : Serde w) (j : Json) (m : Model.Protocol) :
    (∃ m', protocol s j = some m' ∧ Same m' m) ↔ IsProtocol s j m := by
  constructor
  · rintro ⟨m', h, hs⟩
    exact isProtocol_same (protocol_sound h) hs
  · exact protocol_complete

/-- C71: a document describes at most one protocol. -/
theorem C71_unique (s : Serde w) (j : Json) (a b : Model.Protocol) (ha : IsProtocol s j a)
    (hb : IsProtocol s j b) :
    a.name = b.name ∧ a.endianness = b.endianness ∧ a.imports = b.imports ∧ a.structs = b.structs ∧
    a.messages = b.messages ∧ a.unions = b.unions ∧ List.Forall₂ SameEnum a.enums b.enums := by
  obtain ⟨a', h1, p1, p2, p3, p4, p5, p6, p7⟩ := protocol_complete ha
  obtain ⟨b', h2, q1, q2, q3, q4, q5, q6, q7⟩ := protocol_complete hb
  rw [h1] at h2
  cases h2
  refine ⟨p1 ▸ q1, p2 ▸ q2, p3 ▸ q3, p4 ▸ q4, p5 ▸ q5, p7 ▸ q7, ?_⟩
  clear h1 ha hb p1 p2 p3 p4 p5 p7 q1 q2 q3 q4 q5 q7
  generalize a'.enums = l at *
  generalize a.enums = la at *
  generalize b.enums = lb at *
  induction l generalizing la lb with
  | nil => cases p6; cases q6; exact .nil
  | cons e l ih =>
    cases p6 with
    | cons h1 h2 =>
      cases q6 with
      | cons h3 h4 => exact .cons ⟨h1.1 ▸ h3.1, h1.2.symm.trans h3.2⟩ (ih _ h2 _ h4)

/-- C71: a document that describes nothing is refused. -/
theorem C71_refused (s : Serde w) (j : Json) :
    protocol s j = none ↔ ∀ m, ¬ IsProtocol s j m := by
  constructor
  · intro h m hm
    obtain ⟨m', h', _⟩ := protocol_complete hm
    rw [h] at h'
    cases h'
  · intro h
    cases hp : protocol s j with
    | none => rfl
    | some m => exact absurd (protocol_sound hp) (h m)

/-- C71: the names of an enum's variants are distinct once it is read. -/
theorem C71_variant_names {s : Serde w} {j : Json} {m : Model.Protocol} (h : protocol s j = some m)
    {e : Model.Enum} (he : e ∈ m.enums) : (e.variants.map Prod.fst).Nodup := by
  obtain ⟨es, _, _, _, _, _, _, hen, _⟩ := protocol_sound h
  rcases hen with ⟨hl, _⟩ | ⟨v, _, xs, _, hx⟩
  · rw [hl] at he; cases he
  · obtain ⟨i, hi, rfl⟩ := List.mem_iff_getElem.1 he
    obtain ⟨_, _, _, w, _, vs, _, _, hn, _⟩ := (List.forall₂_iff_get.1 hx).2 i
      (by rw [hx.length_eq]; exact hi) hi
    exact hn

/-- C71: the value of a variant in the compiled enum is the last one the document gives it. -/
theorem C71_variant_values {s : Serde w} {j : Json} {m : Model.Enum} (h : Proto.Input.enum s j = some m)
    {e : Enum} (he : Enum.fromModel m = .ok e) :
    ∃ es vs, Members s ["name", "variants"] j es ∧ Has es "variants" (.obj vs) ∧
      ∀ n x, e.variants.lookup n = some x ↔
        ∃ pre v post, vs = pre ++ (n, v) :: post ∧ IsNumber s v x ∧ ∀ e ∈ post, e.1 ≠ n := by
  obtain ⟨es, hm, _, w, hw, vs, rfl, _, hn, hv⟩ := enum_sound h
  refine ⟨es, vs, hm, hw, fun n x => ?_⟩
  rw [C46_lookup he hn, hv]

/-- C71: loading a file appends the protocol it describes, and nothing else changes. -/
theorem C71_load {s : Serde w} {fs : Files} {l l' : Loader} {path : Name}
    (h : load s fs l path = .ok l') :
    ∃ content j m, fs.read path = some content ∧ fs.json5 content = some j ∧ IsProtocol s j m ∧
      l'.models = l.models ++ [m] ∧ l'.importedModels = l.importedModels := by
  obtain ⟨m, hm, h⟩ := Res.bind_eq_ok.1 h
  cases h
  unfold model at hm
  split at hm
  · cases hm
  · next content hc =>
    split at hm
    · cases hm
    · next m' hb =>
      cases hm
      obtain ⟨j, hj, hb⟩ := Option.bind_eq_some_iff.1 hb
      exact ⟨content, j, m, hc, hj, protocol_sound hb, rfl, rfl⟩

/-- C71: importing a file appends the protocol it describes under the given path. -/
theorem C71_import {s : Serde w} {fs : Files} {l l' : Loader} {path importPath : Name}
    (h : import' s fs l path importPath = .ok l') :
    ∃ content j m, fs.read path = some content ∧ fs.json5 content = some j ∧ IsProtocol s j m ∧
      l'.importedModels = l.importedModels ++ [(importPath, m)] ∧ l'.models = l.models := by
  obtain ⟨m, hm, h⟩ := Res.bind_eq_ok.1 h
  cases h
  unfold model at hm
  split at hm
  · cases hm
  · next content hc =>
    split at hm
    · cases hm
    · next m' hb =>
      cases hm
      obtain ⟨j, hj, hb⟩ := Option.bind_eq_some_iff.1 hb
      exact ⟨content, j, m, hc, hj, protocol_sound hb, rfl, rfl⟩

theorem model_failure (s : Serde w) (fs : Files) (path : Name) :
    (model s fs path = .err .io ↔ fs.read path = none) ∧
    (model s fs path = .err .model ↔ ∃ content, fs.read path = some content ∧
      ∀ j, fs.json5 content = some j → ∀ m, ¬ IsProtocol s j m) ∧
    model s fs path ≠ .panic := by
  unfold model
  cases hc : fs.read path with
  | none => simp
  | some content =>
    cases hj : fs.json5 content with
    | none => simp [hj]
    | some j =>
      cases hp : protocol s j with
      | none => simpa [hj, hp] using (C71_refused s j).1 hp
      | some m =>
        simp only [hj, hp, Option.bind_some]
        refine ⟨by simp, ⟨fun h => (nomatch h), ?_⟩, by simp⟩
        rintro ⟨c, hcc, h⟩
        cases hcc
        exact absurd (protocol_sound hp) (h j hj m)

/-- C71: a file is refused exactly when it cannot be read, or when it describes no protocol; the two
are reported apart, and loading never panics. -/
theorem C71_failure (s : Serde w) (fs : Files) (l : Loader) (path : Name) :
    (load s fs l path = .err .io ↔ fs.read path = none) ∧
    (load s fs l path = .err .model ↔ ∃ content, fs.read path = some content ∧
      ∀ j, fs.json5 content = some j → ∀ m, ¬ IsProtocol s j m) ∧
    load s fs l path ≠ .panic := by
  obtain ⟨h1, h2, h3⟩ := model_failure s fs path
  rw [← h1, ← h2]
  unfold load
  cases hm : model s fs path with
  | ok m => simp
  | err e => simp
  | panic => exact absurd hm h3

/-- C71: as `C71_failure`, for imports. -/
theorem C71_import_failure (s : Serde w) (fs : Files) (l : Loader) (path importPath : Name) :
    (import' s fs l path importPath = .err .io ↔ fs.read path = none) ∧
    (import' s fs l path importPath = .err .model ↔ ∃ content, fs.read path = some content ∧
      ∀ j, fs.json5 content = some j → ∀ m, ¬ IsProtocol s j m) ∧
    import' s fs l path importPath ≠ .panic := by
  obtain ⟨h1, h2, h3⟩ := model_failure s fs path
  rw [← h1, ← h2]
  unfold import'
  cases hm : model s fs path with
  | ok m => simp
  | err e => simp
  | panic => exact absurd hm h3

/-! ## C72 -/

/-- Two objects that agree on the given members. -/
def Agree (keys : List String) (es es' : List Entry) : Prop :=
  ∀ k ∈ keys, (Lacks es k ↔ Lacks es' k) ∧ ∀ v, Has es k v ↔ Has es' k v

theorem Agree.perm {keys : List String} {es es' : List Entry} (h : es.Perm es') : Agree keys es es' := by
  intro k _
  have hp := h.filter (fun e => decide (e.1 = k.toList))
  constructor
  · rw [← filter_eq_nil, ← filter_eq_nil]
    exact ⟨fun hn => List.perm_nil.1 (hn ▸ hp).symm, fun hn => List.perm_nil.1 (hn ▸ hp)⟩
  · intro v
    rw [← filter_eq_singleton, ← filter_eq_singleton]
    exact ⟨fun hn => List.perm_singleton.1 (hn ▸ hp).symm, fun hn => List.perm_singleton.1 (hn ▸ hp)⟩

theorem Agree.extra {keys : List String} {es ex : List Entry} (h : ∀ e ∈ ex, ∀ k ∈ keys, e.1 ≠ k.toList) :
    Agree keys es (es ++ ex) := by
  intro k hk
  have hf : ex.filter (fun e => decide (e.1 = k.toList)) = [] :=
    filter_eq_nil.2 fun e he => h e he k hk
  constructor
  · rw [← filter_eq_nil, ← filter_eq_nil, List.filter_append, hf, List.append_nil]
  · intro v
    rw [← filter_eq_singleton, ← filter_eq_singleton, List.filter_append, hf, List.append_nil]

theorem Agree.field {α : Type} {keys : List String} {es es' : List Entry} (h : Agree keys es es')
    {k : String} (hk : k ∈ keys) (de : Json → Option α) (absent : Option α) :
    field es k.toList de absent = field es' k.toList de absent := by
  apply Option.ext
  intro a
  rw [field_iff, field_iff]
  simp only [(h k hk).1, (h k hk).2]

theorem Agree.required {α : Type} {keys : List String} {es es' : List Entry} (h : Agree keys es es')
    {k : String} (hk : k ∈ keys) (de : Json → Option α) :
    requiredField es k.toList de = requiredField es' k.toList de := h.field hk de none

theorem Agree.optional {α : Type} {keys : List String} {es es' : List Entry} (h : Agree keys es es')
    {k : String} (hk : k ∈ keys) (de : Json → Option α) :
    optionalField es k.toList de = optionalField es' k.toList de := h.field hk _ _

theorem variant_obj {tag : String} {keys : List String} {es e : List Entry} :
    Variant tag keys (.obj es) e ↔ e = es ∧ Has es "type" (.str tag.toList) := by
  constructor
  · rintro (⟨h, ht⟩ | ⟨xs, h, _⟩)
    · cases h; exact ⟨rfl, ht⟩
    · cases h
  · rintro ⟨rfl, ht⟩
    exact .inl ⟨rfl, ht⟩

theorem may_congr {α : Type} {keys : List String} {es es' : List Entry} (h : Agree keys es es')
    {k : String} (hk : k ∈ keys) (P : Json → α → Prop) (o : Option α) : May es k P o ↔ May es' k P o := by
  cases o <;> simp only [May, (h k hk).1, (h k hk).2]

/-- C72: the order of members and members that are not known do not matter: what is read from an
object depends only on the known members it has. -/
theorem C72_members (s : Serde w) (es es' : List Entry) :
    (Agree ["type", "name", "min", "max", "multiplier"] es es' →
      fieldView (.obj es) = fieldView (.obj es')) ∧
    (Agree ["type", "bits", "item_type"] es es' → fieldTy s (.obj es) = fieldTy s (.obj es')) ∧
    (Agree ["name", "info", "view", "array_len"] es es' → sField s (.obj es) = sField s (.obj es')) ∧
    (Agree ["name", "fields"] es es' → structure_ s (.obj es) = structure_ s (.obj es')) ∧
    (Agree ["type", "item_type", "max_len", "on"] es es' →
      mFieldTy s (.obj es) = mFieldTy s (.obj es')) ∧
    (Agree ["name", "info", "optional"] es es' → mField s (.obj es) = mField s (.obj es')) ∧
    (Agree ["name", "fields"] es es' → message s (.obj es) = message s (.obj es')) ∧
    (Agree ["name", "case", "item_type"] es es' → uCase s (.obj es) = uCase s (.obj es')) ∧
    (Agree ["name", "discriminant", "cases"] es es' → union s (.obj es) = union s (.obj es')) ∧
    (Agree ["protocol", "type"] es es' →
      Proto.Input.import s (.obj es) = Proto.Input.import s (.obj es')) ∧
    (Agree ["name", "variants"] es es' → enum s (.obj es) = enum s (.obj es')) ∧
    (Agree ["name", "endianness", "imports", "structs", "messages", "enums", "unions"] es es' →
      protocol s (.obj es) = protocol s (.obj es')) := by
  refine ⟨?_, ?_, ?_, ?_, ?_, ?_, ?_, ?_, ?_, ?_, ?_, ?_⟩ <;> intro h
  · apply Option.ext
    intro v
    rw [fieldView_iff, fieldView_iff]
    cases v <;> simp only [IsView, variant_obj, (h "type" (by decide)).2, (h "name" (by decide)).2,
      (h "min" (by decide)).2, (h "max" (by decide)).2, (h "multiplier" (by decide)).2,
      and_assoc, exists_eq_left]
  · apply Option.ext
    intro v
    rw [fieldTy_iff, fieldTy_iff]
    have hb : ∀ tag n, IsBits s tag (.obj es) n ↔ IsBits s tag (.obj es') n := by
      intro tag n
      constructor
      · rintro ⟨e, q, hv, hq, hn⟩
        obtain ⟨rfl, ht⟩ := variant_obj.1 hv
        exact ⟨es', q, variant_obj.2 ⟨rfl, ((h "type" (by decide)).2 _).1 ht⟩,
          ((h "bits" (by decide)).2 _).1 hq, hn⟩
      · rintro ⟨e, q, hv, hq, hn⟩
        obtain ⟨rfl, ht⟩ := variant_obj.1 hv
        exact ⟨es, q, variant_obj.2 ⟨rfl, ((h "type" (by decide)).2 _).2 ht⟩,
          ((h "bits" (by decide)).2 _).2 hq, hn⟩
    cases v <;> simp only [IsTy, hb, variant_obj, (h "type" (by decide)).2,
      (h "item_type" (by decide)).2, and_assoc, exists_eq_left]
  · simp only [sField, record, h.required (k := "name") (by decide),
      h.required (k := "info") (by decide), h.optional (k := "view") (by decide),
      h.optional (k := "array_len") (by decide), Option.bind_eq_bind, Option.bind_some]
  · simp only [structure_, record, h.required (k := "name") (by decide),
      h.required (k := "fields") (by decide), Option.bind_eq_bind, Option.bind_some]
  · apply Option.ext
    intro v
    rw [mFieldTy_iff, mFieldTy_iff]
    cases v with
    | item t => simp only [IsMTy, variant_obj, (h "type" (by decide)).2,
        (h "item_type" (by decide)).2, and_assoc, exists_eq_left]
    | payload => simp only [IsMTy, variant_obj, (h "type" (by decide)).2, exists_eq_left]
    | union on t => simp only [IsMTy, variant_obj, (h "type" (by decide)).2, (h "on" (by decide)).2,
        (h "item_type" (by decide)).2, and_assoc, exists_eq_left]
    | string n => simp only [IsMTy, variant_obj, (h "type" (by decide)).2,
        may_congr h (k := "max_len") (by decide), and_assoc, exists_eq_left]
    | list n t =>
      constructor
      · rintro ⟨e, q, hv, hq, hn, ht⟩
        obtain ⟨rfl, hy⟩ := variant_obj.1 hv
        exact ⟨es', q, variant_obj.2 ⟨rfl, ((h "type" (by decide)).2 _).1 hy⟩,
          ((h "max_len" (by decide)).2 _).1 hq, hn, ((h "item_type" (by decide)).2 _).1 ht⟩
      · rintro ⟨e, q, hv, hq, hn, ht⟩
        obtain ⟨rfl, hy⟩ := variant_obj.1 hv
        exact ⟨es, q, variant_obj.2 ⟨rfl, ((h "type" (by decide)).2 _).2 hy⟩,
          ((h "max_len" (by decide)).2 _).2 hq, hn, ((h "item_type" (by decide)).2 _).2 ht⟩
  · simp only [mField, record, h.required (k := "name") (by decide),
      h.required (k := "info") (by decide), h.optional (k := "optional") (by decide),
      Option.bind_eq_bind, Option.bind_some]
  · simp only [message, record, h.required (k := "name") (by decide),
      h.required (k := "fields") (by decide), Option.bind_eq_bind, Option.bind_some]
  · simp only [uCase, record, h.required (k := "name") (by decide),
      h.required (k := "case") (by decide), h.optional (k := "item_type") (by decide),
      Option.bind_eq_bind, Option.bind_some]
  · simp only [union, record, h.required (k := "name") (by decide),
      h.required (k := "discriminant") (by decide), h.required (k := "cases") (by decide),
      Option.bind_eq_bind, Option.bind_some]
  · simp only [Proto.Input.import, record, h.required (k := "protocol") (by decide),
      h.required (k := "type") (by decide), Option.bind_eq_bind, Option.bind_some]
  · simp only [enum, record, h.required (k := "name") (by decide),
      h.required (k := "variants") (by decide), Option.bind_eq_bind, Option.bind_some]
  · simp only [protocol, record, h.required (k := "name") (by decide),
      h.optional (k := "endianness") (by decide), h.optional (k := "imports") (by decide),
      h.optional (k := "structs") (by decide), h.optional (k := "messages") (by decide),
      h.optional (k := "enums") (by decide), h.optional (k := "unions") (by decide),
      Option.bind_eq_bind, Option.bind_some]

/-- C72: members of an object can be reordered, and unknown members can be added. -/
theorem C72_agree (keys : List String) (es es' : List Entry) :
    (es.Perm es' → Agree keys es es') ∧
    ∀ ex : List Entry, (∀ e ∈ ex, ∀ k ∈ keys, e.1 ≠ k.toList) → Agree keys es (es ++ ex) :=
  ⟨.perm, fun _ => .extra⟩

/-- A missing member and one that is `null`. -/
theorem optional_null {α : Type} (es : List Entry) (k l : String) (h : Lacks es k) (de : Json → Option α) :
    optionalField ((k.toList, .null) :: es) l.toList de = optionalField es l.toList de := by
  apply Option.ext
  intro o
  unfold optionalField
  rw [field_iff, field_iff]
  by_cases hk : k.toList = l.toList
  · have hl : Lacks es l := fun e he => hk ▸ h e he
    have hh : ∀ v, Has ((k.toList, .null) :: es) l v ↔ v = .null := by
      intro v
      rw [← filter_eq_singleton, List.filter_cons_of_pos (by exact decide_eq_true hk),
        filter_eq_nil.2 hl, hk]
      constructor
      · intro h; cases h; rfl
      · rintro rfl; rfl
    have hn : ∀ v, ¬ Has es l v := by
      rintro v ⟨pre, post, rfl, _⟩
      exact hl (l.toList, v) (by simp) rfl
    have hnl : ¬ Lacks ((k.toList, .null) :: es) l := fun h => h (k.toList, .null) (by simp) hk
    simp only [hnl, hl, hh, hn, false_and, true_and, false_or, exists_eq_left, exists_false, or_false]
    rfl
  · have hh : ∀ v, Has ((k.toList, .null) :: es) l v ↔ Has es l v := by
      intro v
      rw [← filter_eq_singleton, ← filter_eq_singleton,
        List.filter_cons_of_neg (by simpa using hk)]
    have hn : Lacks ((k.toList, .null) :: es) l ↔ Lacks es l := by
      rw [← filter_eq_nil, ← filter_eq_nil, List.filter_cons_of_neg (by simpa using hk)]
    simp only [hh, hn]

theorem required_null {α : Type} (es : List Entry) (k l : String) (h : l.toList ≠ k.toList)
    (de : Json → Option α) :
    requiredField ((k.toList, .null) :: es) l.toList de = requiredField es l.toList de := by
  unfold requiredField field
  rw [List.filter_cons_of_neg (by simpa using Ne.symm h)]

/-- C72: leaving out a member that may be left out is the same as setting it to `null`. -/
theorem C72_null (s : Serde w) (es : List Entry) (k : String) (hk : Lacks es k) :
    (k ∈ ["endianness", "imports", "structs", "messages", "enums", "unions"] →
      protocol s (.obj ((k.toList, .null) :: es)) = protocol s (.obj es)) ∧
    (k ∈ ["view", "array_len"] → sField s (.obj ((k.toList, .null) :: es)) = sField s (.obj es)) ∧
    (k = "optional" → mField s (.obj ((k.toList, .null) :: es)) = mField s (.obj es)) ∧
    (k = "item_type" → uCase s (.obj ((k.toList, .null) :: es)) = uCase s (.obj es)) := by
  refine ⟨?_, ?_, ?_, ?_⟩
  · intro hm
    have hne : "name".toList ≠ k.toList := by
      intro h
      rw [String.toList_inj] at h
      subst h
      exact absurd hm (by decide)
    simp only [protocol, record, optional_null es k _ hk, required_null es k "name" hne,
      Option.bind_eq_bind, Option.bind_some]
  · intro hm
    have hne : "name".toList ≠ k.toList := by
      intro h
      rw [String.toList_inj] at h
      subst h
      exact absurd hm (by decide)
    have hne2 : "info".toList ≠ k.toList := by
      intro h
      rw [String.toList_inj] at h
      subst h
      exact absurd hm (by decide)
    simp only [sField, record, optional_null es k _ hk, required_null es k "name" hne,
      required_null es k "info" hne2, Option.bind_eq_bind, Option.bind_some]
  · rintro rfl
    simp only [mField, record, optional_null es "optional" _ hk,
      required_null es "optional" "name" (by decide), required_null es "optional" "info" (by decide), Option.bind_eq_bind, Option.bind_some]
  · rintro rfl
    simp only [uCase, record, optional_null es "item_type" _ hk,
      required_null es "item_type" "name" (by decide), required_null es "item_type" "case" (by decide), Option.bind_eq_bind, Option.bind_some]

/-! ## C73 -/

theorem has_object {es : List (String × Json)} {names : List String} (hn : names.Nodup) {k : String}
    {v : Json} (hm : (k, v) ∈ es) (he : es.map Prod.fst = names := by rfl) : Has (es.map fun e => (e.1.toList, e.2)) k v := by
  subst he
  obtain ⟨pre, post, rfl⟩ := List.append_of_mem hm
  refine ⟨pre.map fun e => (e.1.toList, e.2), post.map fun e => (e.1.toList, e.2), by simp, ?_⟩
  rw [← List.map_append]
  intro e he hk
  obtain ⟨⟨k', v'⟩, hm', rfl⟩ := List.mem_map.1 he
  have hk : k' = k := String.toList_inj.1 hk
  subst hk
  rw [List.map_append, List.map_cons] at hn
  have := List.nodup_append.1 hn
  rcases List.mem_append.1 hm' with he | he
  · exact this.2.2 _ (List.mem_map.2 ⟨_, he, rfl⟩) _ (List.mem_cons_self) rfl
  · exact (List.nodup_cons.1 this.2.1).1 (List.mem_map.2 ⟨_, he, rfl⟩)

theorem may_object {α : Type} {es : List (String × Json)} {names : List String} (hn : names.Nodup)
    {k : String} {P : Json → α → Prop} {f : α → Json} {o : Option α} (hm : (k, maybe f o) ∈ es)
    (hP : ∀ a, o = some a → f a ≠ .null ∧ P (f a) a) (he : es.map Prod.fst = names := by rfl) :
    May (es.map fun e => (e.1.toList, e.2)) k P o := by
  cases o with
  | none => exact .inr (has_object hn hm he)
  | some a => exact ⟨_, (hP a rfl).1, has_object hn hm he, (hP a rfl).2⟩

theorem variant_object {es : List (String × Json)} {names : List String} (hn : names.Nodup)
    {tag : String} {keys : List String} (hm : ("type", .str tag.toList) ∈ es)
    (he : es.map Prod.fst = names := by rfl) :
    Variant tag keys (object es) (es.map fun e => (e.1.toList, e.2)) :=
  .inl ⟨rfl, has_object hn hm he⟩

theorem items_map {α : Type} {P : Json → α → Prop} {f : α → Json} {l : List α}
    (h : ∀ a ∈ l, P (f a) a) : Items P (.arr (l.map f)) l := by
  refine ⟨_, rfl, ?_⟩
  induction l with
  | nil => exact .nil
  | cons a l ih =>
    exact .cons (h a List.mem_cons_self) (ih fun b hb => h b (List.mem_cons_of_mem _ hb))

/-- A listed member. -/
local macro "member" : tactic =>
  `(tactic| repeat (first | exact List.Mem.head _ | apply List.Mem.tail))

theorem isView_of (v : Model.FieldView) : IsView (ofView v) v := by
  cases v with
  | enum n =>
    have hn : ["type", "name"].Nodup := by decide
    exact ⟨_, variant_object hn (by member), has_object hn (by member)⟩
  | floatRange a b =>
    have hn : ["type", "min", "max"].Nodup := by decide
    exact ⟨_, variant_object hn (by member), has_object hn (by member), has_object hn (by member)⟩
  | floatMultiplier m =>
    have hn : ["type", "multiplier"].Nodup := by decide
    exact ⟨_, variant_object hn (by member), has_object hn (by member)⟩

/-- Numbers that every reader reads exactly fit in 64 bits. -/
theorem small_lt {n : Nat} (h : n ≤ 2 ^ 53) : n < 2 ^ usizeBits := Nat.lt_of_le_of_lt h (by decide)

theorem isTy_of (s : Serde w) (v : Model.FieldTy) (h : ∀ n, v.bitSize? = some n → n ≤ 2 ^ 53 ∧ n < 2 ^ w) :
    IsTy s (ofTy v) v := by
  have hn : ["type", "bits"].Nodup := by decide
  have hn' : ["type", "item_type"].Nodup := by decide
  cases v with
  | struct t => exact ⟨_, variant_object hn' (by member), has_object hn' (by member)⟩
  | _ => exact ⟨_, _, variant_object hn (by member), has_object hn (by member),
      s.usizeBuffered_exact _ (h _ rfl).1 (h _ rfl).2⟩

theorem isMTy_of (s : Serde w) (v : Model.MFieldTy) (h1 : ∀ n t, v = .list n t → n ≤ 2 ^ 53 ∧ n < 2 ^ w)
    (h2 : ∀ n, v = .string (some n) → n ≤ 2 ^ 53 ∧ n < 2 ^ w) : IsMTy s (ofMTy v) v := by
  cases v with
  | item t =>
    have hn : ["type", "item_type"].Nodup := by decide
    exact ⟨_, variant_object hn (by member), has_object hn (by member)⟩
  | list n t =>
    have hn : ["type", "max_len", "item_type"].Nodup := by decide
    exact ⟨_, _, variant_object hn (by member), has_object hn (by member),
      s.usizeBuffered_exact _ (h1 _ _ rfl).1 (h1 _ _ rfl).2, has_object hn (by member)⟩
  | string n =>
    have hn : ["type", "max_len"].Nodup := by decide
    refine ⟨_, variant_object hn (by member), may_object (f := fun n => .num (n : Nat)) hn (by member) ?_⟩
    rintro a rfl
    exact ⟨by simp, _, rfl, s.usizeBuffered_exact _ (h2 _ rfl).1 (h2 _ rfl).2⟩
  | payload =>
    have hn : ["type"].Nodup := by decide
    exact ⟨_, variant_object hn (by member)⟩
  | union on t =>
    have hn : ["type", "on", "item_type"].Nodup := by decide
    exact ⟨_, variant_object hn (by member), has_object hn (by member), has_object hn (by member)⟩

theorem isProtocol_of (s : Serde w) (m : Model.Protocol) (h : WritableOn w m) :
    IsProtocol s (ofProtocol m) m := by
  obtain ⟨hst, hms, hen⟩ := h
  have hn : ["name", "endianness", "imports", "structs", "messages", "enums", "unions"].Nodup := by
    decide
  refine ⟨_, .inl rfl, has_object hn (by member), may_object (f := ofEndian) hn (by member) ?_,
    .inr ⟨_, has_object hn (by member), items_map ?_⟩, .inr ⟨_, has_object hn (by member), items_map ?_⟩,
    .inr ⟨_, has_object hn (by member), items_map ?_⟩, .inr ⟨_, has_object hn (by member), items_map ?_⟩,
    .inr ⟨_, has_object hn (by member), items_map ?_⟩⟩
  · rintro (_ | _) _
    · exact ⟨by simp [ofEndian], .inl ⟨rfl, rfl⟩⟩
    · exact ⟨by simp [ofEndian], .inr (.inl ⟨rfl, rfl⟩)⟩
  · intro i _
    have hn : ["protocol", "type"].Nodup := by decide
    exact ⟨_, .inl rfl, has_object hn (by member), has_object hn (by member)⟩
  · intro st hs
    have hn : ["name", "fields"].Nodup := by decide
    refine ⟨_, .inl rfl, has_object hn (by member), _, has_object hn (by member), items_map ?_⟩
    intro f hf
    have hn : ["name", "info", "view", "array_len"].Nodup := by decide
    refine ⟨_, .inl rfl, has_object hn (by member), ⟨_, has_object hn (by member),
      isTy_of s f.info (hst st hs f hf).1⟩, may_object (f := ofView) hn (by member) ?_,
      may_object (f := fun n => .num (n : Nat)) hn (by member) ?_⟩
    · intro v _
      exact ⟨by cases v <;> simp [ofView, object], isView_of v⟩
    · intro n hl
      exact ⟨by simp, _, rfl, s.usize_exact _ ((hst st hs f hf).2 n hl).1 ((hst st hs f hf).2 n hl).2⟩
  · intro msg hm
    have hn : ["name", "fields"].Nodup := by decide
    refine ⟨_, .inl rfl, has_object hn (by member), _, has_object hn (by member), items_map ?_⟩
    intro f hf
    have hn : ["name", "info", "optional"].Nodup := by decide
    refine ⟨_, .inl rfl, has_object hn (by member), ⟨_, has_object hn (by member),
      isMTy_of s f.info (hms msg hm f hf).1 (hms msg hm f hf).2⟩,
      may_object (f := .bool) hn (by member) ?_⟩
    intro b _
    exact ⟨by simp, rfl⟩
  · intro e he
    have hn : ["name", "variants"].Nodup := by decide
    refine ⟨_, .inl rfl, has_object hn (by member), _, has_object hn (by member), _, rfl, ?_,
      (hen e he).1, ?_⟩
    · intro v hv
      obtain ⟨x, hx, rfl⟩ := List.mem_map.1 hv
      exact ⟨x.2, _, rfl, s.usize_exact _ ((hen e he).2 x hx).1 ((hen e he).2 x hx).2⟩
    · intro n x
      constructor
      · intro hm
        obtain ⟨pre, post, heq⟩ := List.append_of_mem hm
        refine ⟨_, _, _, by rw [heq, List.map_append, List.map_cons],
          ⟨_, rfl, s.usize_exact _ ((hen e he).2 _ hm).1 ((hen e he).2 _ hm).2⟩, ?_⟩
        intro v hv hk
        obtain ⟨x, hx, rfl⟩ := List.mem_map.1 hv
        have hnd := (hen e he).1
        rw [heq, List.map_append, List.map_cons] at hnd
        exact (List.nodup_cons.1 (List.nodup_append.1 hnd).2.1).1 (List.mem_map.2 ⟨x, hx, hk⟩)
      · rintro ⟨pre, v, post, heq, ⟨q, rfl, hq⟩, _⟩
        have hm : (n, Json.num q) ∈ e.variants.map fun e => (e.1, Json.num e.2) := by
          rw [heq]; simp
        obtain ⟨⟨n', x'⟩, hm', hw⟩ := List.mem_map.1 hm
        cases hw
        rw [s.usize_exact _ ((hen e he).2 _ hm').1 ((hen e he).2 _ hm').2] at hq
        cases hq
        exact hm'
  · intro u hu
    have hn : ["name", "discriminant", "cases"].Nodup := by decide
    refine ⟨_, .inl rfl, has_object hn (by member), has_object hn (by member), _, has_object hn (by member),
      items_map ?_⟩
    intro c hc
    have hn : ["name", "case", "item_type"].Nodup := by decide
    refine ⟨_, .inl rfl, has_object hn (by member), has_object hn (by member),
      may_object (f := .str) hn (by member) ?_⟩
    intro b _
    exact ⟨by simp, rfl⟩

/-- Such numbers fit in 64 bits. -/
theorem writableOn_64 {m : Model.Protocol} (h : Writable m) : WritableOn usizeBits m :=
  ⟨fun st hs f hf => ⟨fun n hn => ⟨(h.1 st hs f hf).1 n hn, small_lt ((h.1 st hs f hf).1 n hn)⟩,
      fun n hn => ⟨(h.1 st hs f hf).2 n hn, small_lt ((h.1 st hs f hf).2 n hn)⟩⟩,
    fun msg hm f hf => ⟨fun n t hn => ⟨(h.2.1 msg hm f hf).1 n t hn, small_lt ((h.2.1 msg hm f hf).1 n t hn)⟩,
      fun n hn => ⟨(h.2.1 msg hm f hf).2 n hn, small_lt ((h.2.1 msg hm f hf).2 n hn)⟩⟩,
    fun e he => ⟨(h.2.2 e he).1, fun v hv => ⟨(h.2.2 e he).2 v hv, small_lt ((h.2.2 e he).2 v hv)⟩⟩⟩

/-- C73: on a host with words of `w` bits, every protocol whose numbers fit a word can be described. -/
theorem C73_host (s : Serde w) (m : Model.Protocol) (h : WritableOn w m) :
    ∃ m', protocol s (ofProtocol m) = some m' ∧ Same m' m :=
  protocol_complete (isProtocol_of s m h)

/-- C73: every protocol can be described: reading the description written for it gives it back. -/
theorem C73_roundtrip (s : Serde) (m : Model.Protocol) (h : Writable m) :
    ∃ m', protocol s (ofProtocol m) = some m' ∧ Same m' m :=
  C73_host s m (writableOn_64 h)

/-- C73: without enums, exactly that protocol is read. -/
theorem C73_exact (s : Serde) (m : Model.Protocol) (h : Writable m) (he : m.enums = []) :
    protocol s (ofProtocol m) = some m := by
  obtain ⟨m', hm, s1, s2, s3, s4, s5, s6, s7⟩ := C73_roundtrip s m h
  rw [hm]
  rw [he] at s6
  cases hm' : m'.enums with
  | cons _ _ => rw [hm'] at s6; cases s6
  | nil =>
    obtain ⟨_, _, _, _, _, _, _⟩ := m
    obtain ⟨_, _, _, _, _, _, _⟩ := m'
    simp_all

/-! ## Examples -/

namespace Ex

/-- A whole number below 2⁶⁴. -/
def whole (q : Rat) : Option Nat :=
  if q.den = 1 ∧ 0 ≤ q.num ∧ q.num.toNat < 2 ^ usizeBits then some q.num.toNat else none

theorem whole_exact (n : Nat) (_ : n ≤ 2 ^ 53) (hr : n < 2 ^ usizeBits) : whole n = some n := by
  unfold whole
  rw [if_pos ⟨by simp, by simp, by simpa using hr⟩]
  simp

theorem whole_range (q : Rat) (n : Nat) (h : whole q = some n) : n < 2 ^ usizeBits := by
  unfold whole at h
  split at h
  · next hc => cases h; exact hc.2.2
  · cases h

/-- A strict reader. -/
def strict : Serde where
  usize := whole
  usizeBuffered := whole
  endianness _ := none
  trailing := false
  order := List.reverse
  usize_exact := whole_exact
  usizeBuffered_exact := whole_exact
  usize_range := whole_range
  usizeBuffered_range := whole_range
  order_perm := List.reverse_perm

/-- A document with an unknown member, a repeated variant and members out of order. -/
def document : Json := object [
  ("comment", .str "anything".toList),
  ("structs", .arr [object [
    ("fields", .arr [
      object [("info", object [("bits", .num 3), ("type", .str "unsigned".toList)]),
        ("name", .str "kind".toList),
        ("view", object [("type", .str "enum".toList), ("name", .str "Kind".toList)])],
      object [("name", .str "scale".toList),
        ("info", object [("type", .str "float".toList), ("bits", .num 17)]),
        ("view", object [("type", .str "float-range".toList), ("min", .num 0), ("max", .num 10)])]]),
    ("name", .str "Header".toList)]]),
  ("enums", .arr [object [("name", .str "Kind".toList),
    ("variants", object [("A", .num 0), ("B", .num 5), ("A", .num 7)])]]),
  ("imports", .arr [.arr [.str "other".toList, .str "Item".toList]]),
  ("messages", .null),
  ("endianness", .str "big".toList),
  ("name", .str "proto".toList)]

/-- What it describes. -/
def described : Model.Protocol where
  name := "proto".toList
  endianness := some .big
  imports := [⟨"other".toList, "Item".toList⟩]
  structs := [⟨"Header".toList, [
    { name := "kind".toList, info := .unsigned 3, view := some (.enum "Kind".toList) },
    { name := "scale".toList, info := .float 17, view := some (.floatRange 0 10) }]⟩]
  enums := [⟨"Kind".toList, [("A".toList, 7), ("B".toList, 5)]⟩]

theorem reads : protocol strict document = some described := by decide +kernel

/-- Both halves of `C71_meaning` apply. -/
theorem describes : IsProtocol strict document described :=
  (C71_meaning strict document described).1 ⟨described, reads, by
    refine ⟨rfl, rfl, rfl, rfl, rfl, ?_, rfl⟩
    exact .cons ⟨rfl, .refl _⟩ .nil⟩

/-- The member is called `item_type`, unlike the variants. -/
theorem kebab_refused : fieldTy strict (object [("type", .str "struct".toList),
    ("item-type", .str "Header".toList)]) = none := by decide +kernel

/-- A repeated member is refused. -/
theorem repeated_refused : fieldTy strict (object [("type", .str "unsigned".toList),
    ("bits", .num 3), ("bits", .num 3)]) = none := by decide +kernel

/-- A misspelled byte order is refused, it does not fall back to the default. -/
theorem byte_order_refused : protocol strict (object [("name", .str "p".toList),
    ("endianness", .str "Big".toList)]) = none := by decide +kernel

/-- A negative number of bits is refused. -/
theorem negative_refused : fieldTy strict (object [("type", .str "unsigned".toList),
    ("bits", .num (-3))]) = none := by decide +kernel

/-- The hypotheses of `C73_roundtrip` can be met. -/
theorem writable : Writable described := by
  refine ⟨?_, ?_, ?_⟩
  · intro st hst
    simp only [described, List.mem_singleton] at hst
    subst hst
    intro f hf
    simp only [List.mem_cons, List.not_mem_nil, or_false] at hf
    rcases hf with rfl | rfl <;> simp [Model.FieldTy.bitSize?]
  · simp [described]
  · intro e he
    simp only [described, List.mem_singleton] at he
    subst he
    exact ⟨by decide, by decide⟩

theorem writes : ∃ m', protocol strict (ofProtocol described) = some m' ∧ Same m' described :=
  C73_roundtrip strict described writable

end Ex

end Proto.Props.Input
