import Verif.Model.Float
import Mathlib.Data.Int.Log
import Mathlib.Algebra.Order.Round
import Mathlib.Tactic

/-!
# Rounding to nearest with `p` binary digits
-/

namespace QMat.Rounding

/-- The exponent of the last digit of `x`, with `p` digits. -/
noncomputable def lastExp (p : ℕ) (x : ℝ) : ℤ := Int.log 2 |x| - (p - 1)

/-- Rounding to nearest with `p` binary digits. -/
noncomputable def nearest (p : ℕ) (x : ℝ) : ℝ := round (x / 2 ^ lastExp p x) * (2 : ℝ) ^ lastExp p x

theorem two_zpow_pos (e : ℤ) : (0 : ℝ) < 2 ^ e := by positivity

theorem log_le {x : ℝ} (hx : x ≠ 0) : (2 : ℝ) ^ Int.log 2 |x| ≤ |x| := by
  exact_mod_cast Int.zpow_log_le_self (b := 2) (by norm_num) (abs_pos.2 hx)

theorem lt_log {x : ℝ} : |x| < (2 : ℝ) ^ (Int.log 2 |x| + 1) := by
  exact_mod_cast Int.lt_zpow_succ_log_self (b := 2) (by norm_num) |x|

theorem nearest_err (p : ℕ) (x : ℝ) : |nearest p x - x| ≤ (1 / 2) ^ p * |x| := by
  by_cases hx : x = 0
  · simp [hx, nearest]
  have h0 := two_zpow_pos (lastExp p x)
  have h1 : nearest p x - x = (round (x / 2 ^ lastExp p x) - x / 2 ^ lastExp p x) * (2 : ℝ) ^ lastExp p x := by
    rw [nearest, sub_mul, div_mul_cancel₀ _ h0.ne']
  rw [h1, abs_mul, abs_of_pos h0, abs_sub_comm]
  have h2 := abs_sub_round (x / (2 : ℝ) ^ lastExp p x)
  have h3 : (1 / 2 : ℝ) ^ p * 2 ^ Int.log 2 |x| = 1 / 2 * 2 ^ lastExp p x := by
    have : (2 : ℝ) ^ lastExp p x = 2 ^ Int.log 2 |x| * (1 / 2) ^ p * 2 := by
      rw [lastExp, show Int.log 2 |x| - ((p : ℤ) - 1) = Int.log 2 |x| + -(p : ℤ) + 1 by ring,
        zpow_add₀ two_ne_zero, zpow_add₀ two_ne_zero, zpow_neg, zpow_natCast, zpow_one, one_div, inv_pow]
    rw [this]; ring
  calc _ ≤ 1 / 2 * (2 : ℝ) ^ lastExp p x := mul_le_mul_of_nonneg_right h2 h0.le
    _ = (1 / 2 : ℝ) ^ p * 2 ^ Int.log 2 |x| := h3.symm
    _ ≤ _ := mul_le_mul_of_nonneg_left (log_le hx) (by positivity)

theorem nearest_eq_self {p : ℕ} {x : ℝ} {m : ℤ} (h : x = m * 2 ^ lastExp p x) : nearest p x = x := by
  have h0 := two_zpow_pos (lastExp p x)
  have : x / 2 ^ lastExp p x = m := by
    rw [div_eq_iff h0.ne']; exact h
  rw [nearest, this, round_intCast, ← h]

theorem log_unique {y : ℝ} {k : ℤ} (h1 : (2 : ℝ) ^ k ≤ |y|) (h2 : |y| < (2 : ℝ) ^ (k + 1)) : Int.log 2 |y| = k := by
  have hy : y ≠ 0 := fun h => by
    rw [h, abs_zero] at h1
    exact absurd h1 (not_le.2 (two_zpow_pos k))
  have a := log_le hy
  have b := lt_log (x := y)
  have c : k < Int.log 2 |y| + 1 := (zpow_lt_zpow_iff_right₀ (by norm_num : (1 : ℝ) < 2)).1 (h1.trans_lt b)
  have d : Int.log 2 |y| < k + 1 := (zpow_lt_zpow_iff_right₀ (by norm_num : (1 : ℝ) < 2)).1 (a.trans_lt h2)
  omega

theorem nearest_idem {p : ℕ} (hp : 1 ≤ p) (x : ℝ) : nearest p (nearest p x) = nearest p x := by
  by_cases hx : x = 0
  · simp [hx, nearest]
  have h0 := two_zpow_pos (lastExp p x)
  set e := lastExp p x with he
  set m := round (x / 2 ^ e) with hm
  have hy : nearest p x = m * 2 ^ e := rfl
  have hk : Int.log 2 |x| = e + (p - 1) := by rw [he, lastExp]; ring
  -- bounds of m
  have hl : (2 : ℝ) ^ (p - 1) ≤ |x / 2 ^ e| := by
    rw [abs_div, abs_of_pos h0, le_div_iff₀ h0]
    have := log_le hx
    rw [hk, zpow_add₀ two_ne_zero] at this
    have e1 : (2 : ℝ) ^ ((p : ℤ) - 1) = 2 ^ (p - 1) := by
      rw [← zpow_natCast]; congr 1; omega
    rw [e1] at this
    linarith
  have hr : |x / 2 ^ e| < (2 : ℝ) ^ p := by
    rw [abs_div, abs_of_pos h0, div_lt_iff₀ h0]
    have := lt_log (x := x)
    rw [hk, show e + ((p : ℤ) - 1) + 1 = e + p by ring, zpow_add₀ two_ne_zero, zpow_natCast] at this
    linarith
  have hml : (2 : ℤ) ^ (p - 1) ≤ |m| := by
    rcases abs_cases (x / 2 ^ e) with ⟨h, h'⟩ | ⟨h, h'⟩
    · rw [h] at hl
      have : ((2 ^ (p - 1) : ℤ) : ℝ) ≤ x / 2 ^ e := by push_cast; exact hl
      have h3 : (2 : ℤ) ^ (p - 1) ≤ m := by
        rw [hm, ← round_intCast (α := ℝ) (2 ^ (p - 1))]
        rw [round_eq, round_eq]
        exact Int.floor_le_floor (by linarith)
      exact h3.trans (le_abs_self m)
    · rw [h] at hl
      have : x / 2 ^ e ≤ ((-2 ^ (p - 1) : ℤ) : ℝ) := by push_cast; linarith
      have h3 : m ≤ -(2 : ℤ) ^ (p - 1) := by
        rw [hm, ← round_intCast (α := ℝ) (-2 ^ (p - 1))]
        rw [round_eq, round_eq]
        exact Int.floor_le_floor (by linarith)
      have := neg_le_abs m
      linarith
  have hmr : |m| ≤ (2 : ℤ) ^ p := by
    obtain ⟨h1, h2⟩ := abs_lt.1 hr
    rw [abs_le]
    constructor
    · have : ((-2 ^ p : ℤ) : ℝ) ≤ x / 2 ^ e := by push_cast; exact h1.le
      rw [hm, ← round_intCast (α := ℝ) (-2 ^ p), round_eq, round_eq]
      exact Int.floor_le_floor (by linarith)
    · have : x / 2 ^ e ≤ ((2 ^ p : ℤ) : ℝ) := by push_cast; exact h2.le
      rw [hm, ← round_intCast (α := ℝ) (2 ^ p), round_eq, round_eq]
      exact Int.floor_le_floor (by linarith)
  have habs : |nearest p x| = (|m| : ℤ) * (2 : ℝ) ^ e := by
    rw [hy, abs_mul, abs_of_pos h0, Int.cast_abs]
  have hlow : (2 : ℝ) ^ (e + ((p : ℤ) - 1)) ≤ |nearest p x| := by
    rw [habs, zpow_add₀ two_ne_zero, mul_comm]
    refine mul_le_mul_of_nonneg_right ?_ h0.le
    have e1 : (2 : ℝ) ^ ((p : ℤ) - 1) = 2 ^ (p - 1) := by
      rw [← zpow_natCast]; congr 1; omega
    rw [e1]
    exact_mod_cast hml
  rcases hmr.lt_or_eq with h | h
  · have hlog : Int.log 2 |nearest p x| = e + (p - 1) := by
      refine log_unique hlow ?_
      rw [habs, show e + ((p : ℤ) - 1) + 1 = e + p by ring, zpow_add₀ two_ne_zero, zpow_natCast, mul_comm]
      refine mul_lt_mul_of_pos_left ?_ h0
      exact_mod_cast h
    refine nearest_eq_self (m := m) ?_
    rw [lastExp, hlog]
    simpa using hy
  · have hlog : Int.log 2 |nearest p x| = e + p := by
      have : |nearest p x| = (2 : ℝ) ^ (e + (p : ℤ)) := by
        rw [habs, h, zpow_add₀ two_ne_zero, zpow_natCast, mul_comm]; push_cast; ring
      refine log_unique this.ge ?_
      rw [this]
      exact zpow_lt_zpow_right₀ (by norm_num) (by omega)
    -- m = ± 2^p
    refine nearest_eq_self (m := m.sign * 2 ^ (p - 1)) ?_
    rw [lastExp, hlog, show e + (p : ℤ) - ((p : ℤ) - 1) = e + 1 by ring, zpow_add₀ two_ne_zero, zpow_one]
    have hm2 : m = m.sign * 2 ^ p := by rw [← h, Int.sign_mul_abs]
    have h2p : (2 : ℝ) ^ p = 2 ^ (p - 1) * 2 := by
      rw [← pow_succ]; congr 1; omega
    rw [hy]
    have : (m : ℝ) = m.sign * 2 ^ p := by exact_mod_cast hm2
    rw [this, h2p]
    push_cast
    ring

theorem nearest_one {p : ℕ} (hp : 1 ≤ p) : nearest p 1 = 1 := by
  have h : Int.log 2 |(1 : ℝ)| = 0 := by
    refine log_unique ?_ ?_ <;> norm_num
  refine nearest_eq_self (m := 2 ^ (p - 1)) ?_
  rw [lastExp, h, show (0 : ℤ) - ((p : ℤ) - 1) = -((p - 1 : ℕ) : ℤ) by omega, zpow_neg, zpow_natCast]
  push_cast
  exact (mul_inv_cancel₀ (by positivity)).symm

/-- Rounding to nearest with `p` binary digits (`p = 53` for the `float` of numpy) and unbounded exponents. -/
noncomputable def binary (p : ℕ) (hp : 1 ≤ p) : Rounding where
  fl := nearest p
  u := (1 / 2) ^ p
  u_nonneg := by positivity
  u_lt_one := pow_lt_one₀ (by norm_num) (by norm_num) (by omega)
  err := nearest_err p
  idem := nearest_idem hp
  one := nearest_one hp

end QMat.Rounding
