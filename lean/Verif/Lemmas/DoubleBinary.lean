import Verif.Model.Double
import Verif.Lemmas.RoundingBinary

/-!
# Double precision: 53 binary digits, exponents from -1022 to 1023, gradual underflow
-/

namespace QMat.Format

open Rounding

/-- Rounding to nearest with 53 digits, but no digit after the one of `2^-1074`. -/
noncomputable def flDouble (x : ℝ) : ℝ :=
  round (x / 2 ^ max (lastExp 53 x) (-1074)) * (2 : ℝ) ^ max (lastExp 53 x) (-1074)

theorem log_ge {x : ℝ} {k : ℤ} (h : (2 : ℝ) ^ k ≤ |x|) : k ≤ Int.log 2 |x| := by
  have := (zpow_lt_zpow_iff_right₀ (by norm_num : (1 : ℝ) < 2)).1 (h.trans_lt (lt_log (x := x)))
  omega

theorem log_lt {x : ℝ} (hx : x ≠ 0) {k : ℤ} (h : |x| < (2 : ℝ) ^ k) : Int.log 2 |x| < k :=
  (zpow_lt_zpow_iff_right₀ (by norm_num : (1 : ℝ) < 2)).1 ((log_le hx).trans_lt h)

theorem flDouble_normal {x : ℝ} (h : (2 : ℝ) ^ (-1022 : ℤ) ≤ |x|) : flDouble x = nearest 53 x := by
  have h1 := log_ge h
  have h2 : max (lastExp 53 x) (-1074) = lastExp 53 x := max_eq_left (by rw [lastExp]; push_cast; omega)
  rw [flDouble, nearest, h2]

theorem flDouble_small {x : ℝ} (h : |x| < (2 : ℝ) ^ (-1022 : ℤ)) :
    flDouble x = round (x / 2 ^ (-1074 : ℤ)) * (2 : ℝ) ^ (-1074 : ℤ) := by
  by_cases hx : x = 0
  · simp [flDouble, hx]
  have h1 := log_lt hx h
  have h2 : max (lastExp 53 x) (-1074) = -1074 := max_eq_right (by rw [lastExp]; push_cast; omega)
  rw [flDouble, h2]

/-- Multiples of the smallest positive number. -/
theorem flDouble_grid (x : ℝ) : ∃ m : ℤ, flDouble x = m * (2 : ℝ) ^ (-1074 : ℤ) := by
  obtain ⟨k, hk⟩ : ∃ k : ℕ, max (lastExp 53 x) (-1074) = -1074 + k :=
    ⟨(max (lastExp 53 x) (-1074) + 1074).toNat, by omega⟩
  refine ⟨round (x / 2 ^ max (lastExp 53 x) (-1074)) * 2 ^ k, ?_⟩
  rw [flDouble]
  conv_lhs => rw [show (2:ℝ) ^ max (lastExp 53 x) (-1074) = 2 ^ k * 2 ^ (-1074 : ℤ) by
    rw [hk, zpow_add₀ two_ne_zero, zpow_natCast, mul_comm]]
  push_cast
  have e : (2:ℝ) ^ k * 2 ^ (-1074 : ℤ) = 2 ^ max (lastExp 53 x) (-1074) := by
    rw [hk, zpow_add₀ two_ne_zero, zpow_natCast, mul_comm]
  rw [e, mul_assoc, e]

theorem nearest_grid {y : ℝ} {m : ℤ} (h : y = m * (2 : ℝ) ^ (-1074 : ℤ)) (hy : |y| < (2 : ℝ) ^ (-1022 : ℤ)) :
    nearest 53 y = y := by
  by_cases h0 : y = 0
  · simp [h0, nearest]
  have h1 := log_lt h0 hy
  obtain ⟨k, hk⟩ : ∃ k : ℕ, (-1074 : ℤ) = lastExp 53 y + k :=
    ⟨(-1074 - lastExp 53 y).toNat, by rw [lastExp]; push_cast; omega⟩
  refine nearest_eq_self (m := m * 2 ^ k) ?_
  conv_lhs => rw [h, hk, zpow_add₀ two_ne_zero, zpow_natCast]
  push_cast
  ring

theorem flDouble_grid_small {y : ℝ} {m : ℤ} (h : y = m * (2 : ℝ) ^ (-1074 : ℤ)) (hy : |y| < (2 : ℝ) ^ (-1022 : ℤ)) :
    flDouble y = y := by
  rw [flDouble_small hy]
  conv_lhs => rw [h, mul_div_cancel_right₀ _ (two_zpow_pos _).ne', round_intCast]
  exact h.symm

theorem nearest_ge {x : ℝ} (h : (2 : ℝ) ^ (-1022 : ℤ) ≤ |x|) : (2 : ℝ) ^ (-1022 : ℤ) ≤ |nearest 53 x| := by
  have h1 := log_ge h
  have hx : x ≠ 0 := fun h0 => by
    rw [h0, abs_zero] at h
    exact absurd h (not_le.2 (two_zpow_pos _))
  have h2 := log_le hx
  have hp := two_zpow_pos (lastExp 53 x)
  -- the digits
  have h3 : (2 : ℝ) ^ (52 : ℕ) ≤ |x / 2 ^ lastExp 53 x| := by
    rw [abs_div, abs_of_pos hp, le_div_iff₀ hp, ← zpow_natCast, ← zpow_add₀ two_ne_zero]
    refine le_trans (le_of_eq ?_) h2
    congr 1
    rw [lastExp]
    push_cast
    ring
  have h4 : (2 : ℤ) ^ 52 ≤ |round (x / (2:ℝ) ^ lastExp 53 x)| := by
    set v := x / (2:ℝ) ^ lastExp 53 x
    have h5 := abs_sub_round v
    by_contra hlt
    push Not at hlt
    have h6 : |round v| ≤ 2 ^ 52 - 1 := by omega
    have h7 : |((round v : ℤ) : ℝ)| ≤ 2 ^ 52 - 1 := by
      have : ((|round v| : ℤ) : ℝ) ≤ ((2 ^ 52 - 1 : ℤ) : ℝ) := by exact_mod_cast h6
      rw [Int.cast_abs] at this
      push_cast at this
      exact this.trans (by norm_num)
    have h8 := abs_sub_abs_le_abs_sub v (round v)
    linarith
  have h9 : ((2 : ℤ) ^ 52 : ℝ) ≤ |((round (x / (2:ℝ) ^ lastExp 53 x) : ℤ) : ℝ)| := by
    rw [← Int.cast_abs]
    exact_mod_cast h4
  rw [nearest, abs_mul, abs_of_pos hp]
  refine le_trans ?_ (mul_le_mul_of_nonneg_right h9 hp.le)
  have e : ((2 : ℤ) ^ 52 : ℝ) * 2 ^ lastExp 53 x = 2 ^ Int.log 2 |x| := by
    rw [show ((2 : ℤ) ^ 52 : ℝ) = 2 ^ (52 : ℤ) by norm_num, ← zpow_add₀ two_ne_zero]
    congr 1
    rw [lastExp]
    push_cast
    ring
  rw [e]
  exact zpow_le_zpow_right₀ (by norm_num) h1

/-- The `float` of numpy. -/
noncomputable def binary64 : Format where
  R := binary 53 (by norm_num)
  fl := flDouble
  small := 2 ^ (-1022 : ℤ)
  large := (2 - 2 ^ (-52 : ℤ)) * 2 ^ (1023 : ℕ)
  tiny := 2 ^ (-1075 : ℤ)
  small_pos := two_zpow_pos _
  small_le_one := zpow_le_one_of_nonpos₀ (by norm_num) (by norm_num)
  one_le_large := by
    have h : (1:ℝ) ≤ 2 - 2 ^ (-52 : ℤ) := by norm_num
    have h2 : (1:ℝ) ≤ 2 ^ (1023 : ℕ) := one_le_pow₀ (by norm_num)
    exact one_le_mul_of_one_le_of_one_le h h2
  tiny_nonneg := (two_zpow_pos _).le
  fl_normal x h := flDouble_normal h
  fl_small x h := by
    rw [flDouble_small h]
    have h0 := two_zpow_pos (-1074)
    have h1 : (round (x / 2 ^ (-1074 : ℤ)) * (2 : ℝ) ^ (-1074 : ℤ) - x) =
        (round (x / (2:ℝ) ^ (-1074 : ℤ)) - x / 2 ^ (-1074 : ℤ)) * (2 : ℝ) ^ (-1074 : ℤ) := by
      rw [sub_mul, div_mul_cancel₀ _ h0.ne']
    rw [h1, abs_mul, abs_of_pos h0, abs_sub_comm]
    have h2 := abs_sub_round (x / (2 : ℝ) ^ (-1074 : ℤ))
    refine (mul_le_mul_of_nonneg_right h2 h0.le).trans (le_of_eq ?_)
    rw [show (-1075 : ℤ) = -1 + -1074 by norm_num, zpow_add₀ two_ne_zero]
    norm_num
  fl_zero := by simp [flDouble]
  fl_idem x := by
    rcases le_or_gt ((2 : ℝ) ^ (-1022 : ℤ)) |x| with h | h
    · rw [flDouble_normal h, flDouble_normal (nearest_ge h), nearest_idem (by norm_num)]
    · obtain ⟨m, hm⟩ := flDouble_grid x
      rcases lt_or_ge |flDouble x| ((2 : ℝ) ^ (-1022 : ℤ)) with h' | h'
      · exact flDouble_grid_small hm h'
      · -- rounded up to the smallest normal number
        have hle : |flDouble x| ≤ (2 : ℝ) ^ (-1022 : ℤ) := by
          rw [flDouble_small h, abs_mul, abs_of_pos (two_zpow_pos (-1074))]
          have h0 := two_zpow_pos (-1074)
          have hv : |x / (2:ℝ) ^ (-1074 : ℤ)| < 2 ^ 52 := by
            rw [abs_div, abs_of_pos h0, div_lt_iff₀ h0]
            refine h.trans_le (le_of_eq ?_)
            rw [show (-1022 : ℤ) = 52 + -1074 by norm_num, zpow_add₀ two_ne_zero]
            norm_num
          have hr : |round (x / (2:ℝ) ^ (-1074 : ℤ))| ≤ 2 ^ 52 := by
            set v := x / (2:ℝ) ^ (-1074 : ℤ)
            have h5 := abs_sub_round v
            by_contra hlt
            push Not at hlt
            have h6 : (2:ℤ) ^ 52 + 1 ≤ |round v| := by omega
            have h7 : (2:ℝ) ^ 52 + 1 ≤ |((round v : ℤ) : ℝ)| := by
              rw [← Int.cast_abs]
              exact_mod_cast h6
            have h8 := abs_sub_abs_le_abs_sub ((round v : ℤ) : ℝ) v
            rw [abs_sub_comm] at h8
            linarith
          have hr' : |((round (x / (2:ℝ) ^ (-1074 : ℤ)) : ℤ) : ℝ)| ≤ 2 ^ 52 := by
            rw [← Int.cast_abs]
            exact_mod_cast hr
          refine (mul_le_mul_of_nonneg_right hr' h0.le).trans (le_of_eq ?_)
          rw [show (-1022 : ℤ) = 52 + -1074 by norm_num, zpow_add₀ two_ne_zero]
          norm_num
        have heq := le_antisymm hle h'
        rw [flDouble_normal h']
        have hl : lastExp 53 (flDouble x) = -1074 := by
          rw [lastExp, log_unique (k := -1022) h' (by rw [heq]; exact zpow_lt_zpow_right₀ (by norm_num) (by norm_num))]
          norm_num
        exact nearest_eq_self (m := m) (by rw [hl]; exact hm)
  fl_neg a ha := by
    have h0 := two_zpow_pos (max (lastExp 53 a) (-1074))
    have e : lastExp 53 (-a) = lastExp 53 a := by rw [lastExp, lastExp, abs_neg]
    have h1 : a / (2:ℝ) ^ max (lastExp 53 a) (-1074) = round (a / (2:ℝ) ^ max (lastExp 53 a) (-1074)) := by
      rw [div_eq_iff h0.ne']
      exact ha.symm
    have h2 : -a / (2:ℝ) ^ max (lastExp 53 a) (-1074) =
        ((-round (a / (2:ℝ) ^ max (lastExp 53 a) (-1074)) : ℤ) : ℝ) := by
      rw [neg_div, Int.cast_neg, ← h1]
    have h3 : flDouble a = a := ha
    change flDouble (-a) = -a
    rw [flDouble, e, h2, round_intCast, Int.cast_neg, neg_mul]
    exact congrArg Neg.neg h3
  add_small a b ha hb h := by
    obtain ⟨m, hm⟩ := flDouble_grid a
    obtain ⟨m', hm'⟩ := flDouble_grid b
    rw [ha] at hm
    rw [hb] at hm'
    have e : a + b = ((m + m' : ℤ) : ℝ) * (2 : ℝ) ^ (-1074 : ℤ) := by
      conv_lhs => rw [hm, hm']
      push_cast
      ring
    exact ⟨flDouble_grid_small e h, nearest_grid e h⟩

/-! ## `np.log` and `np.exp` with correct rounding -/

/-- Numbers next to one. -/
theorem one_gap {y : ℝ} (hy : flDouble y = y) (h1 : |y| ≠ 1) (h2 : 1 / 2 ≤ |y|) : (2 : ℝ) ^ (-53 : ℤ) ≤ |(|y| - 1)| := by
  have h0 : (2 : ℝ) ^ (-1 : ℤ) ≤ |y| := le_trans (by norm_num) h2
  have h3 := log_ge h0
  obtain ⟨k, hk⟩ : ∃ k : ℕ, max (lastExp 53 y) (-1074) = -53 + k :=
    ⟨(max (lastExp 53 y) (-1074) + 53).toNat, by rw [lastExp]; push_cast; omega⟩
  obtain ⟨m, hm⟩ : ∃ m : ℤ, y = m * (2 : ℝ) ^ (-53 : ℤ) := by
    refine ⟨round (y / 2 ^ max (lastExp 53 y) (-1074)) * 2 ^ k, ?_⟩
    conv_lhs => rw [← hy, flDouble, hk, zpow_add₀ two_ne_zero, zpow_natCast]
    rw [hk, zpow_add₀ two_ne_zero, zpow_natCast]
    push_cast
    ring
  have h5 := two_zpow_pos (-53)
  have e1 : (1:ℝ) = ((2 ^ 53 : ℤ) : ℝ) * (2 : ℝ) ^ (-53 : ℤ) := by norm_num
  have e : |y| - 1 = ((|m| - 2 ^ 53 : ℤ) : ℝ) * (2 : ℝ) ^ (-53 : ℤ) := by
    rw [hm, abs_mul, abs_of_pos h5]
    push_cast at e1 ⊢
    rw [sub_mul, ← e1]
  have h6 : |m| - 2 ^ 53 ≠ 0 := fun h => h1 (by
    rw [h] at e
    push_cast at e
    linarith)
  rw [e, abs_mul, abs_of_pos h5]
  refine le_mul_of_one_le_left h5.le ?_
  rw [← Int.cast_abs]
  exact_mod_cast Int.one_le_abs h6

theorem log_normal {y : ℝ} (hy : flDouble y = y) : Real.log y = 0 ∨ (2 : ℝ) ^ (-1022 : ℤ) ≤ |Real.log y| := by
  by_cases h0 : y = 0
  · exact Or.inl (by rw [h0, Real.log_zero])
  by_cases h1 : |y| = 1
  · exact Or.inl (by rw [← Real.log_abs, h1, Real.log_one])
  right
  have hp := abs_pos.2 h0
  have hc : (2 : ℝ) ^ (-1022 : ℤ) ≤ 2 ^ (-54 : ℤ) := zpow_le_zpow_right₀ (by norm_num) (by norm_num)
  refine hc.trans ?_
  rw [← Real.log_abs]
  rcases le_or_gt (1 / 2) |y| with h2 | h2
  · have h3 := one_gap hy h1 h2
    have e : (2 : ℝ) ^ (-53 : ℤ) = 2 * 2 ^ (-54 : ℤ) := by norm_num
    have h54 : (2:ℝ) ^ (-54 : ℤ) ≤ 1 / 4 := by norm_num
    rw [e] at h3
    have q := two_zpow_pos (-54)
    rcases lt_or_gt_of_ne h1 with h | h
    · rw [abs_of_neg (by linarith)] at h3
      have := Real.log_le_sub_one_of_pos hp
      rw [abs_of_neg (Real.log_neg hp h)]
      linarith
    · rw [abs_of_pos (by linarith)] at h3
      have h4 := Real.one_sub_inv_le_log_of_pos hp
      rw [abs_of_pos (Real.log_pos h)]
      refine le_trans ?_ h4
      generalize (2:ℝ) ^ (-54 : ℤ) = a at *
      have h5 : |y|⁻¹ ≤ (1 + 2 * a)⁻¹ := inv_anti₀ (by linarith) (by linarith)
      have h6 : (1 + 2 * a)⁻¹ ≤ 1 - a := by
        rw [inv_le_comm₀ (by linarith) (by linarith), ← one_div, div_le_iff₀ (by linarith)]
        nlinarith
      linarith
  · have := Real.log_le_sub_one_of_pos hp
    have h54 : (2:ℝ) ^ (-54 : ℤ) ≤ 1 / 4 := by norm_num
    rw [abs_of_neg (Real.log_neg hp (by linarith))]
    refine h54.trans ?_
    linarith

theorem binary64_u : binary64.R.u = 1 / 2 ^ 53 := by
  change (1 / 2 : ℝ) ^ 53 = _
  norm_num

/-- Logarithms and exponentials rounded to nearest. -/
noncomputable def elementary64 : binary64.Elementary where
  log y := flDouble (Real.log y)
  exp y := binary64.rnd (Real.exp y)
  v := 1 / 2 ^ 53
  v_nonneg := by positivity
  v_lt_one := by norm_num
  log_fl y := binary64.fl_idem _
  log_err y hy := by
    rcases log_normal hy with h | h
    · rw [h]
      simp [flDouble]
    · rw [flDouble_normal h, ← binary64_u]
      exact binary64.R.err _
  exp_normal y h1 h2 := by
    have hE := Real.exp_pos y
    have herr := binary64.R.err (Real.exp y)
    rw [abs_of_pos hE, binary64_u] at herr
    have h1' : binary64.small ≤ |Real.exp y| := by rwa [abs_of_pos hE]
    refine ⟨binary64.R.fl (Real.exp y), ?_, herr⟩
    rw [rnd, binary64.fl_normal _ h1', if_neg (not_lt.2 ?_)]
    have := abs_sub_abs_le_abs_sub (binary64.R.fl (Real.exp y)) (Real.exp y)
    rw [abs_of_pos hE] at this
    linarith
  exp_small y h := by
    have hE := Real.exp_pos y
    have h' : |Real.exp y| < binary64.small := by rwa [abs_of_pos hE]
    have herr := binary64.fl_small _ h'
    refine ⟨binary64.fl (Real.exp y), ?_, herr⟩
    rw [rnd, if_neg (not_lt.2 ?_)]
    have := abs_sub_abs_le_abs_sub (binary64.fl (Real.exp y)) (Real.exp y)
    have t : binary64.tiny ≤ 1 / 2 := by
      change (2:ℝ) ^ (-1075 : ℤ) ≤ 1 / 2
      calc (2:ℝ) ^ (-1075 : ℤ) ≤ 2 ^ (-1 : ℤ) := zpow_le_zpow_right₀ (by norm_num) (by norm_num)
        _ = 1 / 2 := by norm_num
    have sm : binary64.small ≤ 1 / 2 := by
      change (2:ℝ) ^ (-1022 : ℤ) ≤ 1 / 2
      calc (2:ℝ) ^ (-1022 : ℤ) ≤ 2 ^ (-1 : ℤ) := zpow_le_zpow_right₀ (by norm_num) (by norm_num)
        _ = 1 / 2 := by norm_num
    linarith [binary64.one_le_large]

end QMat.Format
