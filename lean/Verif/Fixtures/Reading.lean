import Verif.Compiler.Input
import Verif.Base.Lit

/-!
# Documents whose numbers are small

Every reader of JSON5 reads a document at least as the one below, which accepts whole numbers up to
2^53 only.
-/

namespace Proto.Fix

open Proto.Input

/-- Whole numbers up to 2^53. -/
def small (q : Rat) : Option Nat :=
  if q.den = 1 ∧ 0 ≤ q.num ∧ q.num.toNat ≤ 2 ^ 53 then some q.num.toNat else none

theorem small_exact (n : Nat) (h : n ≤ 2 ^ 53) : small n = some n := by
  unfold small
  rw [if_pos ⟨by simp, by simp, by simpa using h⟩]
  simp

theorem small_range (q : Rat) (n : Nat) (h : small q = some n) : n < 2 ^ usizeBits := by
  unfold small at h
  split at h
  · next hc => cases h; exact Nat.lt_of_le_of_lt hc.2.2 (by decide)
  · cases h

theorem small_eq {q : Rat} {n : Nat} (h : small q = some n) : q = (n : Rat) ∧ n ≤ 2 ^ 53 := by
  unfold small at h
  split at h
  · next hc =>
    cases h
    refine ⟨?_, hc.2.2⟩
    have h1 : ((q.num.toNat : Nat) : Rat) = (q.num : Rat) := by
      rw [show ((q.num.toNat : Nat) : Rat) = (((q.num.toNat : Nat) : Int) : Rat) from rfl,
        Int.toNat_of_nonneg hc.2.1]
    rw [h1]
    exact Rat.ext (by simp) (by simpa using hc.1)
  · cases h

/-- A reader that refuses what is not sure to be accepted; the rest is as in `s`. -/
def least (s : Serde) : Serde where
  usize := small
  usizeBuffered := small
  endianness _ := none
  trailing := s.trailing
  order := s.order
  usize_exact n h _ := small_exact n h
  usizeBuffered_exact n h _ := small_exact n h
  usize_range := small_range
  usizeBuffered_range := small_range
  order_perm := s.order_perm

/-- Whatever the first reads, the second reads the same. -/
def Below {α : Type} (f g : Json → Option α) : Prop := ∀ j x, f j = some x → g j = some x

theorem Below.refl {α : Type} (f : Json → Option α) : Below f f := fun _ _ h => h

theorem Below.nullable {α : Type} {f g : Json → Option α} (h : Below f g) :
    Below (nullable f) (nullable g) := by
  intro j x hx
  cases j with
  | null => exact hx
  | _ =>
    simp only [Input.nullable, Option.map_eq_some_iff] at hx ⊢
    obtain ⟨a, ha, rfl⟩ := hx
    exact ⟨a, h _ _ ha, rfl⟩

theorem Below.vec {α : Type} {f g : Json → Option α} (h : Below f g) : Below (vec f) (vec g) := by
  intro j x hx
  cases j with
  | arr xs =>
    simp only [Input.vec] at hx ⊢
    induction xs generalizing x with
    | nil => exact hx
    | cons a xs ih =>
      simp only [List.mapM_cons, Option.bind_eq_bind, Option.bind_eq_some_iff] at hx ⊢
      obtain ⟨y, hy, ys, hys, e⟩ := hx
      exact ⟨y, h _ _ hy, ys, ih _ hys, e⟩
  | _ => cases hx

theorem Below.field {α : Type} {f g : Json → Option α} (h : Below f g) {es : List Entry} {k : Name}
    {d : Option α} {x : α} (hx : field es k f d = some x) : Input.field es k g d = some x := by
  unfold Input.field at hx ⊢
  split
  · next he => rw [he] at hx; exact hx
  · next he => rw [he] at hx; exact h _ _ hx
  · next h1 h2 =>
    split at hx
    · next he => exact absurd he h1
    · next he => exact absurd he (h2 _)
    · cases hx

/-- What the first reader reads, the second reads alike, on hosts that may differ; whether arrays may have
too many elements and the order of `HashMap`s are the same for both. -/
structure Under {w w' : Nat} (s : Serde w) (s' : Serde w') : Prop where
  usize : ∀ q n, s.usize q = some n → s'.usize q = some n
  usizeBuffered : ∀ q n, s.usizeBuffered q = some n → s'.usizeBuffered q = some n
  endianness : ∀ j e, s.endianness j = some e → s'.endianness j = some e
  trailing : s.trailing = s'.trailing
  order : s.order = s'.order

theorem least_under (s : Serde) : Under (least s) s where
  usize q n h := by
    obtain ⟨rfl, hn⟩ := small_eq h
    exact s.usize_exact _ hn (Nat.lt_of_le_of_lt hn (by decide))
  usizeBuffered q n h := by
    obtain ⟨rfl, hn⟩ := small_eq h
    exact s.usizeBuffered_exact _ hn (Nat.lt_of_le_of_lt hn (by decide))
  endianness _ _ h := by cases h
  trailing := rfl
  order := rfl

namespace Under

variable {w w' : Nat} {s : Serde w} {s' : Serde w'} (u : Under s s')

include u

theorem usize_below : Below (Input.usize s) (Input.usize s') := by
  intro j x hx
  cases j with
  | num q => exact u.usize _ _ hx
  | _ => cases hx

theorem usizeBuffered_below : Below (Input.usizeBuffered s) (Input.usizeBuffered s') := by
  intro j x hx
  cases j with
  | num q => exact u.usizeBuffered _ _ hx
  | _ => cases hx

theorem record {keys : List Name} {j : Json} {es : List Entry} (h : record s.trailing keys j = some es) :
    Input.record s'.trailing keys j = some es := u.trailing ▸ h

theorem bits_below : Below (bits s) (bits s') := by
  intro j x hx
  unfold bits at hx ⊢
  simp only [Option.bind_eq_bind, Option.bind_eq_some_iff] at hx ⊢
  obtain ⟨es, he, hx⟩ := hx
  exact ⟨es, he, u.usizeBuffered_below.field hx⟩

theorem fieldTy_below : Below (fieldTy s) (fieldTy s') := by
  intro j x hx
  unfold fieldTy at hx ⊢
  simp only [Option.bind_eq_bind, Option.bind_eq_some_iff] at hx ⊢
  obtain ⟨⟨tag, r⟩, he, hx⟩ := hx
  refine ⟨_, he, ?_⟩
  dsimp only at hx ⊢
  have hm : ∀ (c : Nat → Model.FieldTy), (bits s r).map c = some x →
      (bits s' r).map c = some x := by
    intro c h
    simp only [Option.map_eq_some_iff] at h ⊢
    obtain ⟨a, ha, rfl⟩ := h
    exact ⟨a, u.bits_below _ _ ha, rfl⟩
  by_cases h1 : tag = "signed".toList
  · rw [if_pos h1] at hx ⊢; exact hm _ hx
  rw [if_neg h1] at hx ⊢
  by_cases h2 : tag = "unsigned".toList
  · rw [if_pos h2] at hx ⊢; exact hm _ hx
  rw [if_neg h2] at hx ⊢
  by_cases h3 : tag = "float".toList
  · rw [if_pos h3] at hx ⊢; exact hm _ hx
  rw [if_neg h3] at hx ⊢
  by_cases h4 : tag = "boolean".toList
  · rw [if_pos h4] at hx ⊢; exact hm _ hx
  rw [if_neg h4] at hx ⊢
  exact hx

theorem sField_below : Below (sField s) (sField s') := by
  intro j x hx
  unfold sField at hx ⊢
  simp only [Option.bind_eq_bind, Option.bind_eq_some_iff] at hx ⊢
  obtain ⟨es, h0, a, h1, b, h2, c, h3, d, h4, h5⟩ := hx
  exact ⟨es, u.record h0, a, h1, b, u.fieldTy_below.field h2, c, h3, d, u.usize_below.nullable.field h4, h5⟩

theorem structure_below : Below (structure_ s) (structure_ s') := by
  intro j x hx
  unfold structure_ at hx ⊢
  simp only [Option.bind_eq_bind, Option.bind_eq_some_iff] at hx ⊢
  obtain ⟨es, h0, a, h1, b, h2, h3⟩ := hx
  exact ⟨es, u.record h0, a, h1, b, u.sField_below.vec.field h2, h3⟩

theorem mFieldTy_below : Below (mFieldTy s) (mFieldTy s') := by
  intro j x hx
  unfold mFieldTy at hx ⊢
  simp only [Option.bind_eq_bind, Option.bind_eq_some_iff] at hx ⊢
  obtain ⟨⟨tag, r⟩, he, hx⟩ := hx
  refine ⟨_, he, ?_⟩
  dsimp only at hx ⊢
  by_cases h1 : tag = "item".toList
  · rw [if_pos h1] at hx ⊢; exact hx
  rw [if_neg h1] at hx ⊢
  by_cases h2 : tag = "list".toList
  · rw [if_pos h2] at hx ⊢
    simp only [Option.bind_eq_some_iff] at hx ⊢
    obtain ⟨es, g0, a, g1, b, g2, g3⟩ := hx
    exact ⟨es, g0, a, u.usizeBuffered_below.field g1, b, g2, g3⟩
  rw [if_neg h2] at hx ⊢
  by_cases h3 : tag = "string".toList
  · rw [if_pos h3] at hx ⊢
    simp only [Option.bind_eq_some_iff] at hx ⊢
    obtain ⟨es, g0, a, g1, g2⟩ := hx
    exact ⟨es, g0, a, u.usizeBuffered_below.nullable.field g1, g2⟩
  rw [if_neg h3] at hx ⊢
  exact hx

theorem mField_below : Below (mField s) (mField s') := by
  intro j x hx
  unfold mField at hx ⊢
  simp only [Option.bind_eq_bind, Option.bind_eq_some_iff] at hx ⊢
  obtain ⟨es, h0, a, h1, b, h2, c, h3, h4⟩ := hx
  exact ⟨es, u.record h0, a, h1, b, u.mFieldTy_below.field h2, c, h3, h4⟩

theorem message_below : Below (message s) (message s') := by
  intro j x hx
  unfold message at hx ⊢
  simp only [Option.bind_eq_bind, Option.bind_eq_some_iff] at hx ⊢
  obtain ⟨es, h0, a, h1, b, h2, h3⟩ := hx
  exact ⟨es, u.record h0, a, h1, b, u.mField_below.vec.field h2, h3⟩

theorem variants_below : Below (variants s) (variants s') := by
  intro j x hx
  cases j with
  | obj es =>
    simp only [variants, Option.bind_eq_bind, Option.bind_eq_some_iff] at hx ⊢
    obtain ⟨l, hl, h⟩ := hx
    refine ⟨l, ?_, u.order ▸ h⟩
    clear h
    induction es generalizing l with
    | nil => exact hl
    | cons e es ih =>
      simp only [List.mapM_cons, Option.bind_eq_bind, Option.bind_eq_some_iff,
        Option.map_eq_some_iff] at hl ⊢
      obtain ⟨y, ⟨n, hn, hy⟩, ys, hys, e⟩ := hl
      exact ⟨y, ⟨n, u.usize_below _ _ hn, hy⟩, ys, ih _ hys, e⟩
  | _ => cases hx

theorem enum_below : Below (enum s) (enum s') := by
  intro j x hx
  unfold enum at hx ⊢
  simp only [Option.bind_eq_bind, Option.bind_eq_some_iff] at hx ⊢
  obtain ⟨es, h0, a, h1, b, h2, h3⟩ := hx
  exact ⟨es, u.record h0, a, h1, b, u.variants_below.field h2, h3⟩

theorem endianness_below : Below (Input.endianness s) (Input.endianness s') := by
  intro j x hx
  cases j with
  | str n => exact hx
  | _ => exact u.endianness _ _ hx

theorem uCase_below : Below (uCase s) (uCase s') := by
  intro j x hx
  unfold uCase at hx ⊢
  simp only [Option.bind_eq_bind, Option.bind_eq_some_iff] at hx ⊢
  obtain ⟨es, h0, h1⟩ := hx
  exact ⟨es, u.record h0, h1⟩

theorem union_below : Below (union s) (union s') := by
  intro j x hx
  unfold union at hx ⊢
  simp only [Option.bind_eq_bind, Option.bind_eq_some_iff] at hx ⊢
  obtain ⟨es, h0, a, h1, b, h2, c, h3, h4⟩ := hx
  exact ⟨es, u.record h0, a, h1, b, h2, c, u.uCase_below.vec.field h3, h4⟩

theorem import_below : Below («import» s) («import» s') := by
  intro j x hx
  unfold «import» at hx ⊢
  simp only [Option.bind_eq_bind, Option.bind_eq_some_iff] at hx ⊢
  obtain ⟨es, h0, h1⟩ := hx
  exact ⟨es, u.record h0, h1⟩

/-- What the first reader accepts, the second reads alike. -/
theorem protocol_below : Below (protocol s) (protocol s') := by
  intro j x hx
  unfold protocol at hx ⊢
  simp only [Option.bind_eq_bind, Option.bind_eq_some_iff] at hx ⊢
  obtain ⟨es, h0, a, h1, b, h2, c, h3, d, h4, e, h5, f, h6, g, h7, h8⟩ := hx
  exact ⟨es, u.record h0, a, h1, b, u.endianness_below.nullable.field h2, c, u.import_below.vec.nullable.field h3, d,
    u.structure_below.vec.nullable.field h4, e, u.message_below.vec.nullable.field h5, f,
    u.enum_below.vec.nullable.field h6, g, u.union_below.vec.nullable.field h7, h8⟩

end Under

/-- What the least reader accepts, every reader with the same `HashMap` reads alike. -/
theorem protocol_below (s : Serde) : Below (protocol (least s)) (protocol s) := (least_under s).protocol_below

end Proto.Fix
