import Verif.Float.Lemmas
import Mathlib.Tactic.Ring

/-!
# Rounding takes the nearest number, the even one of two
-/

namespace Proto.Ieee

theorem halfEven_nearest (t : Rat) (k : Int) : |(halfEven t : Rat) - t| ≤ |(k : Rat) - t| := by
  by_cases h : k = halfEven t
  · rw [h]
  have he := halfEven_error t
  have h1 : (1 : Rat) ≤ |(k : Rat) - halfEven t| := by
    exact_mod_cast Int.one_le_abs (sub_ne_zero.mpr h)
  have h2 : |(k : Rat) - halfEven t| ≤ |(k : Rat) - t| + |(halfEven t : Rat) - t| := by
    rw [abs_sub_comm (halfEven t : Rat) t]
    exact abs_sub_le _ _ _
  linarith

theorem halfEven_tie (t : Rat) (h : |(halfEven t : Rat) - t| = 1 / 2) : halfEven t % 2 = 0 := by
  have hf := Int.floor_le t
  have hl := Int.lt_floor_add_one t
  unfold halfEven at h ⊢
  split at h
  · rename_i h1
    rw [if_pos h1, abs_sub_comm, abs_of_nonneg (by linarith)] at *
    linarith
  · rename_i h1
    rw [if_neg h1]
    split at h
    · rename_i h2
      push_cast at h
      rw [abs_of_nonneg (by linarith)] at h
      linarith
    · rename_i h2
      rw [if_neg h2]
      split <;> omega

/-- A number of the format that is not a multiple of the last place of `q` is separated from `q` by a
power of two that is one. -/
theorem Fmt.Rep.multiple {f : Fmt} (hp : 1 ≤ f.prec) {y : Rat} (h : f.Rep y) {q : Rat} (h0 : q ≠ 0) :
    (∃ k : Int, y = k * 2 ^ f.ulp q) ∨
    (|y| < 2 ^ (f.ulp q + f.prec - 1) ∧ (2 : Rat) ^ (f.ulp q + f.prec - 1) ≤ |q|) := by
  obtain ⟨m, e, rfl, hm, he⟩ := h
  by_cases hle : f.ulp q ≤ e
  · obtain ⟨d, hd⟩ := Int.le.dest hle
    left
    refine ⟨m * 2 ^ d, ?_⟩
    push_cast
    rw [mul_assoc, ← zpow_natCast, ← zpow_add₀ (by norm_num), ← hd, Int.add_comm]
  · right
    have hu : f.ulp q = Int.log 2 |q| - (f.prec - 1 : Int) := by unfold Fmt.ulp at hle ⊢; omega
    constructor
    · rw [abs_mul, abs_of_pos (pow_pos' e)]
      have h1 : (|m| : Rat) < 2 ^ f.prec := by exact_mod_cast hm
      calc |(m : Rat)| * 2 ^ e < 2 ^ f.prec * 2 ^ e := mul_lt_mul_of_pos_right h1 (pow_pos' _)
        _ = 2 ^ ((f.prec : Int) + e) := by rw [zpow_add₀ (by norm_num), zpow_natCast]
        _ ≤ _ := zpow_le_zpow_right₀ (by norm_num) (by omega)
    · rw [hu]
      have := (log_bounds h0).1
      have e1 : Int.log 2 |q| - ((f.prec : Int) - 1) + f.prec - 1 = Int.log 2 |q| := by ring
      rwa [e1]

/-- The multiple of the last place chosen is a nearest one. -/
theorem near_multiple (f : Fmt) (q : Rat) (k : Int) : |f.near q - q| ≤ |k * 2 ^ f.ulp q - q| := by
  have hp := pow_pos' (f.ulp q)
  have h := halfEven_nearest (q / 2 ^ f.ulp q) k
  have e : ∀ j : Int, (j : Rat) * 2 ^ f.ulp q - q = ((j : Rat) - q / 2 ^ f.ulp q) * 2 ^ f.ulp q := by
    intro j; field_simp
  unfold Fmt.near
  rw [e, e, abs_mul, abs_mul, abs_of_pos hp]
  exact mul_le_mul_of_nonneg_right h hp.le

/-- A power of two between a smaller number and `q`. -/
theorem between {y q B : Rat} (h1 : |y| < B) (h2 : B ≤ |q|) :
    (|B - q| < |y - q| ∧ 0 ≤ q) ∨ (|-B - q| < |y - q| ∧ q ≤ 0) := by
  obtain ⟨l1, l2⟩ := abs_lt.mp h1
  rcases abs_cases q with ⟨e, hq⟩ | ⟨e, hq⟩ <;> rw [e] at h2
  · left
    refine ⟨?_, hq⟩
    rw [abs_of_nonpos (by linarith : B - q ≤ 0), abs_of_nonpos (by linarith : y - q ≤ 0)]
    linarith
  · right
    refine ⟨?_, hq.le⟩
    rw [abs_of_nonneg (by linarith : 0 ≤ -B - q), abs_of_nonneg (by linarith : 0 ≤ y - q)]
    linarith

/-- A number of the format that is not a multiple of the last place of `q` is farther than the chosen
one. -/
theorem near_far {f : Fmt} (hp : 1 ≤ f.prec) {y q : Rat} (h1 : |y| < 2 ^ (f.ulp q + f.prec - 1))
    (h2 : (2 : Rat) ^ (f.ulp q + f.prec - 1) ≤ |q|) : |f.near q - q| < |y - q| := by
  have e : (2 : Rat) ^ (f.ulp q + f.prec - 1) = ((2 ^ (f.prec - 1) : Int) : Rat) * 2 ^ f.ulp q := by
    push_cast
    rw [← zpow_natCast, ← zpow_add₀ (by norm_num)]
    congr 1
    omega
  rcases between h1 h2 with ⟨h, -⟩ | ⟨h, -⟩
  · refine lt_of_le_of_lt ?_ h
    rw [e]
    exact near_multiple f q _
  · refine lt_of_le_of_lt ?_ h
    have := near_multiple f q (-(2 ^ (f.prec - 1)))
    rw [e]
    push_cast at this ⊢
    rwa [neg_mul] at this

/-- No number of the format is nearer. -/
theorem near_nearest (f : Fmt) (hp : 1 ≤ f.prec) {y : Rat} (h : f.Rep y) (q : Rat) :
    |f.near q - q| ≤ |y - q| := by
  by_cases h0 : q = 0
  · subst h0; rw [near_zero]; simp
  rcases h.multiple hp h0 with ⟨k, rfl⟩ | ⟨h1, h2⟩
  · exact near_multiple f q k
  · exact (near_far hp h1 h2).le

/-- Of two equally near, the chosen one is an even multiple of their distance. -/
theorem near_tie (f : Fmt) (hp : 1 ≤ f.prec) {y : Rat} (h : f.Rep y) {q : Rat} (hne : y ≠ f.near q)
    (heq : |y - q| = |f.near q - q|) :
    ∃ m e : Int, f.near q = (2 * m : Int) * 2 ^ e ∧ |y - f.near q| = 2 ^ e := by
  by_cases h0 : q = 0
  · subst h0
    rw [near_zero] at heq hne
    simp at heq
    exact absurd heq hne
  rcases h.multiple hp h0 with ⟨k, rfl⟩ | ⟨h1, h2⟩
  · have hpos := pow_pos' (f.ulp q)
    have e : ∀ j : Int, (j : Rat) * 2 ^ f.ulp q - q =
        ((j : Rat) - q / 2 ^ f.ulp q) * 2 ^ f.ulp q := by
      intro j; field_simp
    unfold Fmt.near at hne heq
    rw [e, e, abs_mul, abs_mul, abs_of_pos hpos] at heq
    have heq := mul_right_cancel₀ hpos.ne' heq
    have hk : k ≠ halfEven (q / 2 ^ f.ulp q) := fun hh => hne (by rw [hh])
    have herr := halfEven_error (q / 2 ^ f.ulp q)
    have htie := halfEven_tie (q / 2 ^ f.ulp q)
    unfold Fmt.near
    generalize halfEven (q / 2 ^ f.ulp q) = m at *
    generalize q / 2 ^ f.ulp q = t at *
    have g1 : (1 : Rat) ≤ |(k : Rat) - m| := by
      exact_mod_cast Int.one_le_abs (sub_ne_zero.mpr hk)
    have g2 : |(k : Rat) - m| ≤ |(k : Rat) - t| + |(m : Rat) - t| := by
      rw [abs_sub_comm (m : Rat) t]
      exact abs_sub_le _ _ _
    have hm := htie (by linarith)
    have g3 : |(k : Rat) - m| = 1 := by linarith
    refine ⟨m / 2, f.ulp q, ?_, ?_⟩
    · congr 2; omega
    · rw [← sub_mul, abs_mul, g3, abs_of_pos hpos, one_mul]
  · exact absurd heq (near_far hp h1 h2).ne'

/-- The least number that overflows. -/
theorem near_top (f : Fmt) (hp : 1 ≤ f.prec) (hl : f.least + f.prec - 1 ≤ f.top) {q : Rat} (h0 : 0 ≤ q) :
    2 ^ (f.top + 1) ≤ f.near q ↔ 2 ^ (f.top + 1) - 2 ^ (f.top - f.prec) ≤ q := by
  have hB : (2 : Rat) ^ (f.top + 1) = ((2 ^ f.prec : Int) : Rat) * 2 ^ (f.top - f.prec + 1) := by
    push_cast
    rw [← zpow_natCast, ← zpow_add₀ (by norm_num)]
    congr 1
    omega
  have hH : (2 : Rat) ^ (f.top - f.prec) = 1 / 2 * 2 ^ (f.top - f.prec + 1) := by
    rw [zpow_add₀ (by norm_num)]
    norm_num
    ring
  have hpe := pow_pos' (f.top - f.prec + 1)
  have hp1 : ((2 ^ f.prec : Int)) % 2 = 0 := by
    obtain ⟨k, hk⟩ : ∃ k : Nat, f.prec = k + 1 := ⟨f.prec - 1, by omega⟩
    rw [hk, pow_succ]; omega
  have h2p : (2 : Rat) ≤ ((2 ^ f.prec : Int) : Rat) := by
    have h := pow_le_pow_right₀ (a := (2 : Int)) (by norm_num) hp
    exact_mod_cast h
  -- numbers of the largest binade
  have hulp : ∀ x : Rat, 2 ^ f.top ≤ x → x < 2 ^ (f.top + 1) → f.ulp x = f.top - f.prec + 1 := by
    intro x h1 h2
    have hx0 : 0 < x := lt_of_lt_of_le (pow_pos' _) h1
    have l1 : f.top ≤ Int.log 2 |x| := by
      rw [← Int.zpow_le_iff_le_log (by norm_num) (abs_pos.mpr hx0.ne'), abs_of_pos hx0]
      exact_mod_cast h1
    have l2 : Int.log 2 |x| < f.top + 1 := by
      rw [← Int.lt_zpow_iff_log_lt (by norm_num) (abs_pos.mpr hx0.ne'), abs_of_pos hx0]
      exact_mod_cast h2
    unfold Fmt.ulp
    omega
  have htop : (2 : Rat) ^ f.top = 1 / 2 * 2 ^ (f.top + 1) := by
    rw [zpow_add₀ (by norm_num)]; norm_num; ring
  constructor
  · intro h
    by_contra hlt
    have hlt := not_le.mp hlt
    by_cases hq : q < 2 ^ f.top
    · have h1 := near_le_pow f hp (q := q) (k := f.top) (by omega) (by rw [abs_of_nonneg h0]; exact hq.le)
      have h2 := le_trans h (le_trans (le_abs_self _) h1)
      have := pow_pos' f.top
      rw [htop] at h2
      have := pow_pos' (f.top + 1)
      linarith
    · have hq := not_lt.mp hq
      have hu := hulp q hq (by linarith [pow_pos' (f.top - f.prec)])
      unfold Fmt.near at h
      rw [hu] at h
      rw [hB, hH, ← sub_mul] at hlt
      rw [hB] at h
      have h1 : ((2 ^ f.prec : Int) : Rat) ≤ halfEven (q / 2 ^ (f.top - f.prec + 1)) :=
        le_of_mul_le_mul_right h hpe
      have h2 : q / 2 ^ (f.top - f.prec + 1) < ((2 ^ f.prec : Int) : Rat) - 1 / 2 := by
        rwa [div_lt_iff₀ hpe]
      have h3 := halfEven_error (q / 2 ^ (f.top - f.prec + 1))
      have := (abs_le.mp h3).2
      linarith
  · intro h
    have h1 := near_mono f hp h
    refine le_trans ?_ h1
    have hx1 : (2 : Rat) ^ f.top ≤ 2 ^ (f.top + 1) - 2 ^ (f.top - f.prec) := by
      rw [htop, hH, hB]
      nlinarith
    have hu := hulp _ hx1 (by linarith [pow_pos' (f.top - f.prec)])
    unfold Fmt.near
    rw [hu]
    have e : ((2 : Rat) ^ (f.top + 1) - 2 ^ (f.top - f.prec)) / 2 ^ (f.top - f.prec + 1) =
        ((2 ^ f.prec : Int) : Rat) - 1 / 2 := by
      rw [div_eq_iff hpe.ne', hB, hH]
      ring
    rw [e, hB]
    refine mul_le_mul_of_nonneg_right ?_ hpe.le
    have hfl : ⌊((2 ^ f.prec : Int) : Rat) - 1 / 2⌋ = 2 ^ f.prec - 1 := by
      rw [Int.floor_eq_iff]
      push_cast
      constructor <;> linarith
    have : halfEven (((2 ^ f.prec : Int) : Rat) - 1 / 2) = 2 ^ f.prec := by
      unfold halfEven
      rw [hfl]
      push_cast
      rw [if_neg (by linarith), if_neg (by linarith), if_neg (by omega)]
      omega
    rw [this]

end Proto.Ieee
