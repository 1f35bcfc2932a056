import Verif.Float.Ieee
import Mathlib.Tactic.Linarith
import Mathlib.Tactic.FieldSimp
import Mathlib.Tactic.Positivity
import Mathlib.Tactic.NormNum

/-!
# Rounding: error, order, exactness
-/

namespace Proto.Ieee

open Proto

/-! ## Rounding to an integer -/

theorem halfEven_cases (x : Rat) : (halfEven x = ⌊x⌋ ∧ x - ⌊x⌋ ≤ 1 / 2) ∨
    (halfEven x = ⌊x⌋ + 1 ∧ 1 / 2 ≤ x - ⌊x⌋) := by
  unfold halfEven
  split
  · exact .inl ⟨rfl, by linarith⟩
  · rename_i h
    split
    · exact .inr ⟨rfl, by linarith⟩
    · rename_i h'
      split
      · exact .inl ⟨rfl, by linarith⟩
      · exact .inr ⟨rfl, by linarith⟩

theorem halfEven_error (x : Rat) : |(halfEven x : Rat) - x| ≤ 1 / 2 := by
  have h1 := Int.floor_le x
  have h2 := Int.lt_floor_add_one x
  rcases halfEven_cases x with ⟨h, h'⟩ | ⟨h, h'⟩
  · rw [h, abs_le]; constructor <;> linarith
  · rw [h, abs_le]; push_cast; constructor <;> linarith

theorem halfEven_int (k : Int) : halfEven (k : Rat) = k := by
  unfold halfEven
  rw [Int.floor_intCast, if_pos (by norm_num)]

theorem halfEven_mono {x y : Rat} (h : x ≤ y) : halfEven x ≤ halfEven y := by
  have hf := Int.floor_le_floor h
  have hx1 := Int.floor_le x
  have hx2 := Int.lt_floor_add_one x
  have hy1 := Int.floor_le y
  have hy2 := Int.lt_floor_add_one y
  by_cases he : ⌊x⌋ = ⌊y⌋
  · have hc : (⌊y⌋ : Rat) = ⌊x⌋ := by rw [he]
    unfold halfEven
    rw [hc, ← he]
    by_cases a : x - ⌊x⌋ < 1 / 2
    · rw [if_pos a]
      split
      · exact le_refl _
      · split
        · omega
        · split <;> omega
    · rw [if_neg a, if_neg (show ¬ y - ⌊x⌋ < 1 / 2 by linarith)]
      by_cases b : 1 / 2 < x - ⌊x⌋
      · rw [if_pos b, if_pos (by linarith)]
      · rw [if_neg b]
        split <;> split <;> first | omega | (split <;> omega)
  · have : ⌊x⌋ + 1 ≤ ⌊y⌋ := by omega
    rcases halfEven_cases x with ⟨a, _⟩ | ⟨a, _⟩ <;> rcases halfEven_cases y with ⟨b, _⟩ | ⟨b, _⟩ <;>
      rw [a, b] <;> omega

theorem halfEven_nonneg {x : Rat} (h : 0 ≤ x) : 0 ≤ halfEven x := by
  have := halfEven_mono h
  rwa [show (0 : Rat) = ((0 : Int) : Rat) by norm_num, halfEven_int] at this

theorem halfEven_neg (x : Rat) : halfEven (-x) = -halfEven x := by
  have hx1 := Int.floor_le x
  have hx2 := Int.lt_floor_add_one x
  by_cases hi : x = ⌊x⌋
  · have e : -x = ((-⌊x⌋ : Int) : Rat) := by push_cast; linarith
    have e2 : halfEven x = ⌊x⌋ := by
      conv_lhs => rw [hi]
      exact halfEven_int _
    rw [e, halfEven_int, e2]
  · have hlt : (⌊x⌋ : Rat) < x := lt_of_le_of_ne hx1 (fun h => hi h.symm)
    have hfl : ⌊-x⌋ = -⌊x⌋ - 1 := by
      rw [Int.floor_eq_iff]; push_cast; constructor <;> linarith
    unfold halfEven
    rw [hfl]
    push_cast
    by_cases a : x - ⌊x⌋ < 1 / 2
    · rw [if_pos a, if_neg (by linarith), if_pos (by linarith)]; omega
    · rw [if_neg a]
      by_cases b : 1 / 2 < x - ⌊x⌋
      · rw [if_pos b, if_pos (by linarith)]; omega
      · rw [if_neg b, if_neg (by linarith), if_neg (by linarith)]
        split <;> split <;> omega

/-! ## Rounding to a format -/

theorem near_neg (f : Fmt) (q : Rat) : f.near (-q) = -f.near q := by
  unfold Fmt.near Fmt.ulp
  rw [abs_neg, neg_div, halfEven_neg]
  push_cast
  ring

theorem near_zero (f : Fmt) : f.near 0 = 0 := by
  unfold Fmt.near
  rw [zero_div, show (0 : Rat) = ((0 : Int) : Rat) by norm_num, halfEven_int]
  simp

theorem pow_pos' (e : Int) : (0 : Rat) < 2 ^ e := zpow_pos (by norm_num) e

theorem near_error (f : Fmt) (q : Rat) : |f.near q - q| ≤ 2 ^ f.ulp q / 2 := by
  have hp := pow_pos' (f.ulp q)
  have h := halfEven_error (q / 2 ^ f.ulp q)
  have e : f.near q - q = ((halfEven (q / 2 ^ f.ulp q) : Rat) - q / 2 ^ f.ulp q) * 2 ^ f.ulp q := by
    unfold Fmt.near
    field_simp
  rw [e, abs_mul, abs_of_pos hp]
  calc _ ≤ 1 / 2 * 2 ^ f.ulp q := mul_le_mul_of_nonneg_right h hp.le
    _ = _ := by ring

/-- Not below the smallest normal number. -/
def Fmt.Normal (f : Fmt) (q : Rat) : Prop := 2 ^ (f.least + f.prec - 1) ≤ |q|

theorem log_bounds {q : Rat} (h : q ≠ 0) :
    (2 : Rat) ^ Int.log 2 |q| ≤ |q| ∧ |q| < (2 : Rat) ^ (Int.log 2 |q| + 1) := by
  have h0 : 0 < |q| := abs_pos.mpr h
  have a := Int.zpow_log_le_self (b := 2) (by norm_num) h0
  have b := Int.lt_zpow_succ_log_self (b := 2) (by norm_num) |q|
  push_cast at a b
  exact ⟨a, b⟩

theorem normal_ulp {f : Fmt} {q : Rat} (hn : f.Normal q) :
    q ≠ 0 ∧ f.ulp q = Int.log 2 |q| - (f.prec - 1 : Int) := by
  have h0 : 0 < |q| := lt_of_lt_of_le (pow_pos' _) hn
  refine ⟨abs_pos.mp h0, ?_⟩
  have : f.least + f.prec - 1 ≤ Int.log 2 |q| := by
    rw [← Int.zpow_le_iff_le_log (by norm_num) h0]
    exact_mod_cast hn
  unfold Fmt.ulp
  omega

/-- The relative error of rounding a normal number is at most half a unit in the last place. -/
theorem near_relative {f : Fmt} {q : Rat} (hn : f.Normal q) :
    |f.near q - q| ≤ |q| * 2 ^ (-(f.prec : Int)) := by
  obtain ⟨h0, hu⟩ := normal_ulp hn
  refine le_trans (near_error f q) ?_
  rw [hu]
  have hb := (log_bounds h0).1
  have e : (2 : Rat) ^ (Int.log 2 |q| - ((f.prec : Int) - 1)) / 2 =
      2 ^ Int.log 2 |q| * 2 ^ (-(f.prec : Int)) := by
    rw [← zpow_add₀ (by norm_num), div_eq_mul_inv, ← zpow_neg_one, ← zpow_add₀ (by norm_num)]
    congr 1
    ring
  rw [e]
  exact mul_le_mul_of_nonneg_right hb (pow_pos' _).le

/-- A number of the format: an integer of at most `prec` digits times a power of two not below the
least. -/
def Fmt.Rep (f : Fmt) (q : Rat) : Prop :=
  ∃ (m e : Int), q = m * 2 ^ e ∧ |m| < 2 ^ f.prec ∧ f.least ≤ e

theorem near_rep {f : Fmt} {q : Rat} (h : f.Rep q) : f.near q = q := by
  obtain ⟨m, e, rfl, hm, he⟩ := h
  by_cases hm0 : m = 0
  · subst hm0; simp [near_zero]
  have hp := pow_pos' e
  have hq0 : (m : Rat) * 2 ^ e ≠ 0 := mul_ne_zero (by exact_mod_cast hm0) hp.ne'
  have hle : f.ulp ((m : Rat) * 2 ^ e) ≤ e := by
    have h0 : 0 < |(m : Rat) * 2 ^ e| := abs_pos.mpr hq0
    have hlt : |(m : Rat) * 2 ^ e| < ((2 : Nat) : Rat) ^ (e + f.prec) := by
      rw [abs_mul, abs_of_pos hp]
      have : (|m| : Rat) < 2 ^ f.prec := by exact_mod_cast hm
      push_cast
      rw [zpow_add₀ (by norm_num), zpow_natCast, mul_comm]
      exact mul_lt_mul_of_pos_left this hp
    have := (Int.lt_zpow_iff_log_lt (b := 2) (by norm_num) h0).mp hlt
    unfold Fmt.ulp
    omega
  obtain ⟨d, hd⟩ := Int.le.dest hle
  unfold Fmt.near
  have hpu := pow_pos' (f.ulp ((m : Rat) * 2 ^ e))
  have e1 : (m : Rat) * 2 ^ e / 2 ^ f.ulp ((m : Rat) * 2 ^ e) = ((m * 2 ^ d : Int) : Rat) := by
    push_cast
    rw [div_eq_iff hpu.ne', mul_assoc, ← zpow_natCast, ← zpow_add₀ (by norm_num), Int.add_comm, hd]
  rw [e1, halfEven_int, ← e1]
  field_simp

/-- Rounding keeps the order. -/
theorem near_mono_nonneg (f : Fmt) (hp : 1 ≤ f.prec) {x y : Rat} (hx : 0 ≤ x) (h : x ≤ y) :
    f.near x ≤ f.near y := by
  by_cases hx0 : x = 0
  · subst hx0
    rw [near_zero]
    exact mul_nonneg (by exact_mod_cast halfEven_nonneg (div_nonneg h (pow_pos' _).le)) (pow_pos' _).le
  have hxp : 0 < x := lt_of_le_of_ne hx (fun h => hx0 h.symm)
  have hyp : 0 < y := lt_of_lt_of_le hxp h
  have hlog : Int.log 2 |x| ≤ Int.log 2 |y| := by
    rw [abs_of_pos hxp, abs_of_pos hyp]; exact Int.log_mono_right hxp h
  by_cases he : f.ulp x = f.ulp y
  · unfold Fmt.near
    rw [he]
    refine mul_le_mul_of_nonneg_right ?_ (pow_pos' _).le
    exact_mod_cast halfEven_mono (div_le_div_of_nonneg_right h (pow_pos' _).le)
  · have hy : f.ulp y = Int.log 2 |y| - ((f.prec : Int) - 1) := by unfold Fmt.ulp at *; omega
    have hlt : f.ulp x < f.ulp y := by unfold Fmt.ulp at *; omega
    have hk : Int.log 2 |x| < Int.log 2 |y| := by unfold Fmt.ulp at *; omega
    have b1 := (log_bounds hx0).2
    have b2 := (log_bounds hyp.ne').1
    rw [abs_of_pos hxp] at b1
    rw [abs_of_pos hyp] at b2
    have up : f.near x ≤ 2 ^ Int.log 2 |y| := by
      have hle : f.ulp x ≤ Int.log 2 |y| := by omega
      obtain ⟨d, hd⟩ := Int.le.dest hle
      have e1 : x / 2 ^ f.ulp x ≤ ((2 ^ d : Int) : Rat) := by
        rw [div_le_iff₀ (pow_pos' _)]
        push_cast
        rw [← zpow_natCast, ← zpow_add₀ (by norm_num), Int.add_comm, hd]
        refine le_trans b1.le ?_
        rw [abs_of_pos hxp] at hk
        exact zpow_le_zpow_right₀ (by norm_num) (by omega)
      have e2 := halfEven_mono e1
      rw [halfEven_int] at e2
      unfold Fmt.near
      calc _ ≤ ((2 ^ d : Int) : Rat) * 2 ^ f.ulp x :=
            mul_le_mul_of_nonneg_right (by exact_mod_cast e2) (pow_pos' _).le
        _ = 2 ^ Int.log 2 |y| := by
            push_cast
            rw [← zpow_natCast, ← zpow_add₀ (by norm_num), Int.add_comm, hd]
    have lo : (2 : Rat) ^ Int.log 2 |y| ≤ f.near y := by
      have hle : f.ulp y ≤ Int.log 2 |y| := by omega
      obtain ⟨d, hd⟩ := Int.le.dest hle
      have e1 : ((2 ^ d : Int) : Rat) ≤ y / 2 ^ f.ulp y := by
        rw [le_div_iff₀ (pow_pos' _)]
        push_cast
        rw [← zpow_natCast, ← zpow_add₀ (by norm_num), Int.add_comm, hd, abs_of_pos hyp]
        exact b2
      have e2 := halfEven_mono e1
      rw [halfEven_int] at e2
      unfold Fmt.near
      calc (2 : Rat) ^ Int.log 2 |y| = ((2 ^ d : Int) : Rat) * 2 ^ f.ulp y := by
            push_cast
            rw [← zpow_natCast, ← zpow_add₀ (by norm_num), Int.add_comm, hd]
        _ ≤ _ := mul_le_mul_of_nonneg_right (by exact_mod_cast e2) (pow_pos' _).le
    exact le_trans up lo

theorem near_nonneg (f : Fmt) {x : Rat} (h : 0 ≤ x) : 0 ≤ f.near x :=
  mul_nonneg (by exact_mod_cast halfEven_nonneg (div_nonneg h (pow_pos' _).le)) (pow_pos' _).le

theorem near_mono (f : Fmt) (hp : 1 ≤ f.prec) {x y : Rat} (h : x ≤ y) : f.near x ≤ f.near y := by
  rcases le_total 0 x with hx | hx
  · exact near_mono_nonneg f hp hx h
  · rcases le_total 0 y with hy | hy
    · have := near_nonneg f (x := -x) (by linarith)
      rw [near_neg] at this
      exact le_trans (by linarith) (near_nonneg f hy)
    · have := near_mono_nonneg f hp (x := -y) (y := -x) (by linarith) (by linarith)
      rw [near_neg, near_neg] at this
      linarith

/-- The result of rounding is a number of the format. -/
theorem rep_near (f : Fmt) (hp : 1 ≤ f.prec) (q : Rat) : f.Rep (f.near q) := by
  by_cases h0 : q = 0
  · subst h0
    rw [near_zero]
    exact ⟨0, f.least, by simp, by positivity, le_refl _⟩
  have hb := (log_bounds h0).2
  have hu : Int.log 2 |q| + 1 ≤ f.ulp q + f.prec := by unfold Fmt.ulp; omega
  have hl : f.least ≤ f.ulp q := by unfold Fmt.ulp; omega
  have hlt : |q / 2 ^ f.ulp q| ≤ ((2 ^ f.prec : Int) : Rat) := by
    rw [abs_div, abs_of_pos (pow_pos' _), div_le_iff₀ (pow_pos' _)]
    push_cast
    rw [← zpow_natCast, ← zpow_add₀ (by norm_num)]
    exact le_trans hb.le (zpow_le_zpow_right₀ (by norm_num) (by omega))
  obtain ⟨l1, l2⟩ := abs_le.mp hlt
  have m2 := halfEven_mono l2
  have m1 := halfEven_mono l1
  rw [halfEven_int] at m2
  rw [halfEven_neg, halfEven_int] at m1
  have hm : |halfEven (q / 2 ^ f.ulp q)| ≤ 2 ^ f.prec := abs_le.mpr ⟨m1, m2⟩
  unfold Fmt.near
  generalize halfEven (q / 2 ^ f.ulp q) = m at hm
  by_cases he : |m| = 2 ^ f.prec
  · refine ⟨m / 2, f.ulp q + 1, ?_, ?_, by omega⟩
    · obtain ⟨k, hk⟩ : ∃ k : Nat, f.prec = k + 1 := ⟨f.prec - 1, by omega⟩
      rw [hk, pow_succ] at he
      have hdvd : m = m / 2 * 2 := by
        rcases abs_choice m with h | h <;> rw [h] at he <;> omega
      rw [zpow_add₀ (by norm_num), zpow_one]
      have : (m : Rat) = ((m / 2 : Int) : Rat) * 2 := by exact_mod_cast hdvd
      rw [this]
      have e2 : (((m / 2 : Int) * 2 : Int)) / 2 = m / 2 := by omega
      ring_nf
    · obtain ⟨k, hk⟩ : ∃ k : Nat, f.prec = k + 1 := ⟨f.prec - 1, by omega⟩
      rw [hk, pow_succ] at he ⊢
      have hpk : (0 : Int) < 2 ^ k := by positivity
      rcases abs_choice m with h | h <;> rw [h] at he <;> rw [abs_lt] <;> constructor <;> omega
  · exact ⟨m, f.ulp q, rfl, lt_of_le_of_ne hm he, hl⟩

theorem near_idem (f : Fmt) (hp : 1 ≤ f.prec) (q : Rat) : f.near (f.near q) = f.near q :=
  near_rep (rep_near f hp q)

/-- Rounding does not leave a range bounded by a power of two. -/
theorem near_le_pow (f : Fmt) (hp : 1 ≤ f.prec) {q : Rat} {k : Int} (hk : f.least ≤ k)
    (h : |q| ≤ 2 ^ k) : |f.near q| ≤ 2 ^ k := by
  have hr : f.Rep ((2 : Rat) ^ k) := ⟨1, k, by simp, by
    have : (1 : Int) < 2 ^ f.prec := one_lt_pow₀ (by norm_num) (by omega)
    simpa using this, hk⟩
  obtain ⟨l1, l2⟩ := abs_le.mp h
  have m2 := near_mono f hp l2
  have m1 := near_mono f hp l1
  rw [near_neg] at m1
  rw [near_rep hr] at m1 m2
  exact abs_le.mpr ⟨m1, m2⟩

theorem round_fin (f : Fmt) (hp : 1 ≤ f.prec) {q : Rat} (hk : f.least ≤ f.top)
    (h : |q| ≤ 2 ^ f.top) : f.round q = .fin (f.near q) := by
  unfold Fmt.round
  rw [if_pos]
  exact lt_of_le_of_lt (near_le_pow f hp hk h) (zpow_lt_zpow_right₀ (by norm_num) (by omega))

/-- A number close to a multiple of the last place rounds to it. -/
theorem near_eq (f : Fmt) (q : Rat) (m e : Int) (h1 : (2 : Rat) ^ (e + f.prec - 1) ≤ |q|)
    (h2 : |q| < 2 ^ (e + f.prec)) (he : f.least ≤ e) (hm : |q / 2 ^ e - m| < 1 / 2) :
    f.near q = m * 2 ^ e := by
  have h0 : 0 < |q| := lt_of_lt_of_le (pow_pos' _) h1
  have l1 : e + f.prec - 1 ≤ Int.log 2 |q| := by
    rw [← Int.zpow_le_iff_le_log (by norm_num) h0]; exact_mod_cast h1
  have l2 : Int.log 2 |q| < e + f.prec := by
    rw [← Int.lt_zpow_iff_log_lt (by norm_num) h0]; exact_mod_cast h2
  have hu : f.ulp q = e := by unfold Fmt.ulp; omega
  unfold Fmt.near
  rw [hu]
  have herr := halfEven_error (q / 2 ^ e)
  have : |(halfEven (q / 2 ^ e) : Rat) - m| < 1 := by
    calc _ = |((halfEven (q / 2 ^ e) : Rat) - q / 2 ^ e) + (q / 2 ^ e - m)| := by ring_nf
      _ ≤ _ := abs_add_le _ _
      _ < 1 := by linarith
  have h3 : |halfEven (q / 2 ^ e) - m| < 1 := by exact_mod_cast this
  have h4 : halfEven (q / 2 ^ e) = m := by
    have := Int.abs_lt_one_iff.mp h3; omega
  rw [h4]

end Proto.Ieee
