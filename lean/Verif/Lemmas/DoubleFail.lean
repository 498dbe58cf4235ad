import Verif.Lemmas.DoubleStable
import Mathlib.Algebra.BigOperators.Fin
import Mathlib.Algebra.BigOperators.Intervals
import Mathlib.Data.Nat.Choose.Sum
import Mathlib.Data.Nat.Factorial.BigOperators

/-!
# Weights out of the range of double precision
-/

namespace QMat.Format

open Finset

variable {n : ℕ} {F : Format} {x : Fin n → ℝ}

/-- The distances of a point. -/
noncomputable def dist (x : Fin n → ℝ) (i j : Fin n) : ℝ := if i = j then 1 else |x i - x j|

theorem prod_dist (i : Fin n) : ∏ j, dist x i j = ∏ j ∈ univ.erase i, |x i - x j| := by
  rw [← mul_prod_erase univ _ (mem_univ i), dist, if_pos rfl, one_mul]
  exact prod_congr rfl fun j hj => by rw [dist, if_neg (ne_of_mem_erase hj).symm]

theorem prod_overflow (hF : F.IsDouble) (hn : n ≤ 2 ^ 50) (h1 : ∀ i j, i ≠ j → 1 ≤ |x i - x j|) {i : Fin n}
    (h2 : 2 ^ 1025 ≤ ∏ k ∈ univ.erase i, |x i - x k|) {p : FP} (hp : F.NpProd (F.diffs x i) p) : ∃ s, p = .inf s := by
  have hl := F.one_le_large
  have u0 := F.R.u_nonneg
  have hc : (univ : Finset (Fin n)).card = n := by simp
  have hpow := hF.pow_ge (k := 2 * n) (by omega)
  have hf : ∀ j ∈ (univ : Finset (Fin n)), (∃ b, F.diffs x i j = .inf b) ∨
      ∃ y, F.diffs x i j = .fin y ∧ |y| ≤ F.large ∧ (1 - F.R.u) * dist x i j ≤ |y| := fun j _ => by
    rw [diffs, dist]
    split_ifs with hij
    · exact Or.inr ⟨1, rfl, by rwa [abs_one], by rw [abs_one]; linarith⟩
    · rcases rnd_cases (F := F) (x i - x j) with h | ⟨h, h'⟩
      · exact Or.inl h
      · refine Or.inr ⟨_, h, h', ?_⟩
        rw [F.fl_normal _ (F.small_le_one.trans (h1 i j hij))]
        exact fl_ge F.R _
  have hd : ∀ j ∈ (univ : Finset (Fin n)), 1 ≤ dist x i j := fun j _ => by
    rw [dist]
    split_ifs with hij
    · exact le_rfl
    · exact h1 i j hij
  rcases reduce_mul_large (F := F) hF.small_quarter hf hd (by rwa [hc]) (npProd_reduce hp i.pos) with h | ⟨r, -, h3, h4⟩
  · exact h
  · exfalso
    rw [prod_dist, hc] at h4
    have h5 := hF.large_lt
    have h6 : (1:ℝ) / 2 ≤ (1 - F.R.u) ^ (2 * n - 1) := hpow.trans
      (pow_le_pow_of_le_one (by linarith [F.R.u_lt_one]) (by linarith) (by omega))
    have h7 : (1:ℝ) / 2 * 2 ^ 1025 ≤ (1 - F.R.u) ^ (2 * n - 1) * ∏ k ∈ univ.erase i, |x i - x k| :=
      mul_le_mul h6 h2 (by positivity) (le_trans (by norm_num) h6)
    have h8 : (1:ℝ) / 2 * 2 ^ 1025 = 2 ^ 1024 := by rw [pow_succ]; ring
    rw [h8] at h7
    exact absurd (h7.trans (h4.trans h3)) (not_le.2 h5)

theorem prod_underflow (hF : F.IsDouble) (hn : n ≤ 2 ^ 50)
    (h1 : ∀ i j, i ≠ j → 2 ^ (-1022 : ℤ) ≤ |x i - x j| ∧ |x i - x j| ≤ 1 / 2) {i : Fin n}
    (h2 : n * 2 ^ (-1073 : ℤ) ≤ ∏ k ∈ univ.erase i, |x i - x k|) {p : FP} (hp : F.NpProd (F.diffs x i) p) :
    ∃ r, p = .fin r ∧ r ≠ 0 ∧ |r| ≤ 5 / 2 * ∏ k ∈ univ.erase i, |x i - x k| := by
  have hl := F.one_le_large
  have u0 := F.R.u_nonneg
  have u1 := F.R.u_lt_one
  have hu16 : F.R.u ≤ 1 / 16 := by rw [hF.u]; norm_num
  have hc : (univ : Finset (Fin n)).card = n := by simp
  have hf1 : F.fl 1 = 1 := by rw [F.fl_normal 1 (by rw [abs_one]; exact F.small_le_one), F.R.one]
  obtain ⟨r, h3, -, h4, h5⟩ := reduce_mul_small (F := F) hF.tiny_le hu16 (d := dist x i) (s := univ) (f := F.diffs x i)
    (fun j _ => by
      rw [diffs, dist]
      split_ifs with hij
      · exact ⟨1, rfl, hf1, by rw [abs_one]; linarith, by rw [abs_one]; linarith⟩
      · obtain ⟨a1, a2⟩ := h1 i j hij
        rw [← hF.small] at a1
        have a3 := fl_le F.R (x i - x j)
        exact ⟨F.R.fl (x i - x j), rnd_normal a1 (by nlinarith [abs_nonneg (x i - x j)]), fl_R_fl a1, fl_ge F.R _, a3⟩)
    (fun j _ => by
      rw [diffs, dist]
      split_ifs with hij
      · exact ⟨by norm_num, Or.inr ⟨rfl, rfl⟩⟩
      · exact ⟨abs_nonneg _, Or.inl (h1 i j hij).2⟩) (npProd_reduce hp i.pos)
  rw [prod_dist, hc] at h4 h5
  set D := ∏ k ∈ univ.erase i, |x i - x k|
  have hn1 : (1:ℝ) ≤ n := by exact_mod_cast i.pos
  have ht : F.tiny = 2 ^ (-1073 : ℤ) / 4 := by
    rw [hF.tiny, show (-1075 : ℤ) = -1073 + -2 by norm_num, zpow_add₀ (by norm_num : (2:ℝ) ≠ 0)]
    norm_num
    ring
  have ht0 : 0 < F.tiny := by rw [hF.tiny]; positivity
  have h6 : (n - 1) * F.tiny ≤ D / 4 - F.tiny := by rw [ht] at *; linarith
  have hD : 0 < D := by nlinarith
  have h7 : (1:ℝ) / 2 ≤ (1 - F.R.u) ^ (2 * n - 1) := hF.pow_ge (by omega)
  have h8 : (1 + F.R.u) ^ (2 * n - 1) ≤ 2 := hF.pow_le (by omega)
  refine ⟨r, h3, fun h0 => ?_, ?_⟩
  · rw [h0, abs_zero] at h4
    nlinarith
  · have : (1 + F.R.u) ^ (2 * n - 1) * (D + (n - 1) * F.tiny) ≤ 2 * (D + (n - 1) * F.tiny) :=
      mul_le_mul_of_nonneg_right h8 (by nlinarith)
    linarith

theorem inv_overflow (hF : F.IsDouble) {r : ℝ} (h0 : r ≠ 0) (h : |r| ≤ 5 / 2 * 2 ^ (-1026 : ℤ)) :
    ∃ s, F.div (.fin 1) (.fin r) = .inf s := by
  simp only [div, h0, if_false]
  have hr := abs_pos.2 h0
  have e : (2:ℝ) ^ (-1026 : ℤ) * 2 ^ 1024 = 1 / 4 := by
    rw [← zpow_natCast, ← zpow_add₀ (by norm_num : (2:ℝ) ≠ 0)]
    norm_num
  have h4 : (1:ℝ) ≤ 2 ^ 1024 := one_le_pow₀ (by norm_num)
  have hl := hF.large_lt
  revert h e h4 hl
  generalize (2:ℝ) ^ (-1026 : ℤ) = B
  generalize (2:ℝ) ^ 1024 = A
  intro h e h4 hl
  have h1 : |r| * A ≤ 5 / 8 := by
    have := mul_le_mul_of_nonneg_right h (by linarith : (0:ℝ) ≤ A)
    linarith
  have h2 : 8 / 5 * A ≤ |1 / r| := by
    rw [abs_div, abs_one, le_div_iff₀ hr]
    linarith
  refine rnd_over (F.small_le_one.trans (by linarith)) (lt_of_lt_of_le hl (le_trans ?_ (fl_ge F.R _)))
  have hu16 : F.R.u ≤ 1 / 16 := by rw [hF.u]; norm_num
  nlinarith

/-! ## Equidistant points -/

theorem prod_equid {h : ℝ} (hh : 0 ≤ h) {m : ℕ} (i : Fin (m + 1)) :
    ∏ k ∈ univ.erase i, |(i : ℕ) * h - (k : ℕ) * h| = (i : ℕ).factorial * (m - i : ℕ).factorial * h ^ m := by
  set f : ℕ → ℝ := fun k => if k = i then 1 else |(i : ℕ) * h - k * h| with hf
  have e1 : ∏ k ∈ univ.erase i, |(i : ℕ) * h - (k : ℕ) * h| = ∏ k : Fin (m + 1), f k := by
    rw [← mul_prod_erase univ (fun k : Fin (m + 1) => f k) (mem_univ i)]
    simp only [hf, if_true, one_mul]
    exact prod_congr rfl fun k hk => by rw [if_neg fun e => (ne_of_mem_erase hk) (Fin.ext e)]
  have hi : (i : ℕ) ≤ m := by omega
  have e2 : m + 1 = i + ((m - i) + 1) := by omega
  have e3 : ∏ k ∈ range i, f k = (i : ℕ).factorial * h ^ (i : ℕ) := by
    rw [← prod_range_reflect, ← prod_range_add_one_eq_factorial]
    push_cast
    rw [← card_range (i : ℕ), ← prod_const, card_range, ← prod_mul_distrib]
    refine prod_congr rfl fun k hk => ?_
    have hk' := mem_range.1 hk
    have c : ((i - 1 - k : ℕ) : ℝ) = i - 1 - k := by
      rw [Nat.cast_sub (by omega), Nat.cast_sub (by omega)]
      simp
    simp only [hf]
    rw [if_neg (by omega), c, ← sub_mul, abs_mul, abs_of_nonneg hh]
    congr 1
    rw [show ((i : ℕ) : ℝ) - ((i : ℕ) - 1 - k) = k + 1 by ring, abs_of_nonneg (by positivity)]
  have e4 : ∏ k ∈ range (m - i), f (i + (k + 1)) = (m - i : ℕ).factorial * h ^ (m - i : ℕ) := by
    rw [← prod_range_add_one_eq_factorial]
    push_cast
    rw [← card_range (m - i : ℕ), ← prod_const, card_range, ← prod_mul_distrib]
    refine prod_congr rfl fun k _ => ?_
    simp only [hf]
    rw [if_neg (by omega), ← sub_mul, abs_mul, abs_of_nonneg hh]
    congr 1
    push_cast
    rw [show ((i : ℕ) : ℝ) - ((i : ℕ) + (k + 1)) = -(k + 1) by ring, abs_neg, abs_of_nonneg (by positivity)]
  have e5 : f i = 1 := if_pos rfl
  have e6 : ∏ k ∈ range (m + 1), f k = ∏ k ∈ range (i + ((m - i) + 1)), f k := by rw [← e2]
  rw [e1, Fin.prod_univ_eq_prod_range f, e6, prod_range_add, prod_range_succ', e3, e4, add_zero, e5, mul_one]
  conv_rhs => rw [show h ^ m = h ^ (i : ℕ) * h ^ (m - i : ℕ) by rw [← pow_add]; congr 1; omega]
  ring

theorem factorial_bound {m : ℕ} (hm : 197 ≤ m) {i : ℕ} (hi : i ≤ m) : 2 ^ 1025 ≤ i.factorial * (m - i).factorial := by
  have h1 : ∀ m, 197 ≤ m → 2 ^ 1025 * 2 ^ m ≤ m.factorial := by
    intro m hm
    induction m, hm using Nat.le_induction with
    | base => decide +kernel
    | succ m hm ih =>
      rw [Nat.factorial_succ, pow_succ 2 m, ← mul_assoc, mul_comm]
      exact Nat.mul_le_mul (by omega) ih
  have h2 := Nat.choose_mul_factorial_mul_factorial hi
  have h3 : m.choose i ≤ 2 ^ m := by
    rw [← Nat.sum_range_choose]
    exact single_le_sum (f := fun i => m.choose i) (fun _ _ => Nat.zero_le _) (mem_range.2 (by omega))
  have h4 := h1 m hm
  have h5 : 2 ^ 1025 * 2 ^ m ≤ (i.factorial * (m - i).factorial) * 2 ^ m := by
    calc _ ≤ m.factorial := h4
      _ = m.choose i * (i.factorial * (m - i).factorial) := by rw [← h2]; ring
      _ ≤ 2 ^ m * (i.factorial * (m - i).factorial) := Nat.mul_le_mul_right _ h3
      _ = _ := by ring
  exact Nat.le_of_mul_le_mul_right h5 (by positivity)

end QMat.Format
