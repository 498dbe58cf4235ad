import Verif.Lemmas.Double
import Verif.Lemmas.RoundingLagrange
import Mathlib.Analysis.Complex.ExponentialBounds

/-!
# Weights and interpolation in double precision
-/

namespace QMat.Format

open Finset

/-- The numbers of double precision. -/
structure IsDouble (F : Format) : Prop where
  u : F.R.u = 1 / 2 ^ 53
  small : F.small = 2 ^ (-1022 : ℤ)
  large : F.large = (2 - 2 ^ (-52 : ℤ)) * 2 ^ (1023 : ℕ)
  tiny : F.tiny = 2 ^ (-1075 : ℤ)

variable {n : ℕ} {F : Format}

namespace IsDouble

variable (hF : F.IsDouble)

include hF

theorem exp_le : Real.exp 708 ≤ F.large := by
  have h : Real.exp 708 ≤ 2 ^ (1023 : ℕ) := by
    rw [← Real.log_le_log_iff (Real.exp_pos _) (by positivity), Real.log_exp, Real.log_pow]
    have := Real.log_two_gt_d9
    push_cast
    linarith
  rw [hF.large]
  have h2 : (1:ℝ) ≤ 2 - 2 ^ (-52 : ℤ) := by norm_num
  exact h.trans (le_mul_of_one_le_left (by positivity) h2)

theorem small_le : F.small ≤ Real.exp (-708) := by
  rw [hF.small, ← Real.log_le_log_iff (by positivity) (Real.exp_pos _), Real.log_exp, Real.log_zpow]
  have := Real.log_two_gt_d9
  push_cast
  linarith

theorem large_lt : F.large < 2 ^ (1024 : ℕ) := by
  rw [hF.large, pow_succ' (2:ℝ) 1023]
  have h2 : (2 - 2 ^ (-52 : ℤ) : ℝ) < 2 := by norm_num
  exact mul_lt_mul_of_pos_right h2 (by positivity)

theorem small_quarter : F.small ≤ 1 / 4 := by
  rw [hF.small]
  calc (2:ℝ) ^ (-1022 : ℤ) ≤ 2 ^ (-2 : ℤ) := zpow_le_zpow_right₀ (by norm_num) (by norm_num)
    _ = 1 / 4 := by norm_num

theorem ω_le : F.R.ω ≤ 1 / 2 ^ 52 := by
  have hu := hF.u
  rw [Rounding.ω, hu]
  have h1 : (1 - 1 / 2 ^ 53 : ℝ)⁻¹ - 1 ≤ 1 / 2 ^ 52 := by norm_num
  have h2 := Real.log_le_sub_one_of_pos (x := (1 - 1 / 2 ^ 53 : ℝ)⁻¹) (by norm_num)
  rw [Real.log_inv] at h2
  linarith

theorem pow_ge {k : ℕ} (hk : k ≤ 2 ^ 52) : 1 / 2 ≤ (1 - F.R.u) ^ k := by
  rw [hF.u]
  have h := one_add_mul_le_pow (a := -(1 / 2 ^ 53 : ℝ)) (by norm_num) k
  have hk' : (k:ℝ) ≤ 2 ^ 52 := by exact_mod_cast hk
  rw [← sub_eq_add_neg, mul_neg] at h
  have : (k:ℝ) * (1 / 2 ^ 53) ≤ 1 / 2 := by
    rw [mul_one_div, div_le_iff₀ (by positivity)]
    norm_num at hk' ⊢
    linarith
  linarith

theorem pow_le {k : ℕ} (hk : k ≤ 2 ^ 52) : (1 + F.R.u) ^ k ≤ 2 := by
  have u0 := F.R.u_nonneg
  have h1 : (1 + F.R.u) ^ k * (1 - F.R.u) ^ k ≤ 1 := by
    rw [← mul_pow]
    refine pow_le_one₀ ?_ ?_
    · have : F.R.u < 1 := F.R.u_lt_one
      nlinarith
    · nlinarith
  have h2 := hF.pow_ge hk
  have h3 : 0 ≤ (1 + F.R.u) ^ k := by positivity
  nlinarith

theorem mul_ω_le {k : ℕ} (hk : k ≤ 2 ^ 51) : k * F.R.ω ≤ 1 / 2 := by
  have h := hF.ω_le
  have hk' : (k:ℝ) ≤ 2 ^ 51 := by exact_mod_cast hk
  calc (k:ℝ) * F.R.ω ≤ 2 ^ 51 * (1 / 2 ^ 52) := mul_le_mul hk' h F.R.ω_nonneg (by positivity)
    _ = 1 / 2 := by norm_num

theorem range {x : ℝ} (hx : x ≠ 0) (h : |Real.log x| ≤ 707) : F.rnd x = .fin (F.R.fl x) :=
  rnd_range hF.small_le hF.exp_le hx (by
    have := hF.mul_ω_le (k := 1) (by norm_num)
    push_cast at this
    linarith)

end IsDouble

/-! ## Weights in range -/

variable {x : Fin n → ℝ}

theorem diffs_range (hF : F.IsDouble) (hx : Function.Injective x) {i : Fin n} {T : ℝ} (hT : T ≤ 707)
    (h : ∑ k ∈ univ.erase i, |Real.log (x i - x k)| ≤ T) (j : Fin n) : F.diffs x i j = .fin (F.R.diffs x i j) := by
  rw [diffs, Rounding.diffs]
  split_ifs with hij
  · rfl
  · refine hF.range (sub_ne_zero.2 fun e => hij (hx e)) (le_trans ?_ hT)
    exact (single_le_sum (f := fun k => |Real.log (x i - x k)|) (fun k _ => abs_nonneg _)
      (mem_erase.2 ⟨fun e => hij e.symm, mem_univ j⟩)).trans h

theorem sum_log_diffs (hx : Function.Injective x) (i : Fin n) :
    ∑ j, |Real.log (F.R.diffs x i j)| ≤ ∑ k ∈ univ.erase i, |Real.log (x i - x k)| + (n - 1) * F.R.ω := by
  have e0 : |Real.log (F.R.diffs x i i)| = 0 := by simp [Rounding.diffs]
  rw [← sum_erase univ (f := fun j => |Real.log (F.R.diffs x i j)|) e0]
  calc ∑ j ∈ univ.erase i, |Real.log (F.R.diffs x i j)|
      ≤ ∑ j ∈ univ.erase i, (|Real.log (x i - x j)| + F.R.ω) := sum_le_sum fun j hj => by
        have hij : i ≠ j := fun e => (mem_erase.1 hj).1 e.symm
        rw [Rounding.diffs, if_neg hij]
        exact (fl_log F.R (sub_ne_zero.2 fun e => hij (hx e))).2
    _ = _ := by rw [sum_add_distrib, sum_erase_const]

theorem prod_range (hF : F.IsDouble) (hn : n ≤ 2 ^ 49) (hx : Function.Injective x) {i : Fin n} {T : ℝ} (hT : T ≤ 707)
    (h : ∑ k ∈ univ.erase i, |Real.log (x i - x k)| ≤ T) {p : FP} (hp : F.NpProd (F.diffs x i) p) :
    ∃ r, p = .fin r ∧ F.R.NpProd (F.R.diffs x i) r ∧ r ≠ 0 ∧ |Real.log r| ≤ T + 1 / 2 := by
  have h1 := sum_log_diffs (F := F) hx i
  have hω := F.R.ω_nonneg
  have h2 := hF.mul_ω_le (k := 2 * n) (by omega)
  have hd0 : ∀ j, F.R.diffs x i j ≠ 0 := fun j => by
    rw [Rounding.diffs]
    split_ifs with hij
    · exact one_ne_zero
    · exact (fl_log F.R (sub_ne_zero.2 fun e => hij (hx e))).1
  have hb : ∑ j, |Real.log (F.R.diffs x i j)| + ((univ : Finset (Fin n)).card - 1) * F.R.ω ≤ T + 1 / 2 := by
    rw [card_univ, Fintype.card_fin]
    push_cast at h2
    linarith
  obtain ⟨r, h3, h4, h5, h6⟩ := reduce_mul_range hF.small_le hF.exp_le (fun j _ => diffs_range hF hx hT h j)
    (fun j _ => hd0 j) (by linarith) (npProd_reduce hp i.pos)
  exact ⟨r, h3, Or.inr h4, h5, h6.trans hb⟩

theorem weights_range (hF : F.IsDouble) (hn : n ≤ 2 ^ 49) (hx : Function.Injective x) {T : ℝ} (hT : T ≤ 706)
    (h : ∀ i, ∑ k ∈ univ.erase i, |Real.log (x i - x k)| ≤ T) {p : Fin n → FP} (hp : ∀ i, F.NpProd (F.diffs x i) (p i)) :
    (∀ i, p i ≠ .fin 0) ∧ ∃ w : Fin n → ℝ, F.R.Analytic x w ∧ (∀ i, F.invProd p i = .fin (w i)) ∧
      ∀ i, w i ≠ 0 ∧ F.fl (w i) = w i ∧ |Real.log (w i)| ≤ T + 1 := by
  choose r h1 h2 h3 h4 using fun i => prod_range hF hn hx (by linarith) (h i) (hp i)
  refine ⟨fun i hi => ?_, fun i => F.R.fl (1 / r i), fun i => ⟨r i, h2 i, rfl⟩, fun i => ?_, fun i => ?_⟩
  · rw [h1 i] at hi
    exact h3 i (FP.fin.inj hi)
  all_goals
    have e0 : (1 / r i : ℝ) ≠ 0 := one_div_ne_zero (h3 i)
    have e1 : |Real.log (1 / r i)| ≤ T + 1 / 2 := by
      rw [one_div, Real.log_inv, abs_neg]
      exact h4 i
  · rw [invProd, h1 i]
    simp only [div, h3 i, if_false]
    exact hF.range e0 (by linarith)
  · refine ⟨(fl_log F.R e0).1, fl_R_fl (hF.small_le.trans ?_), ?_⟩
    · exact (abs_le_exp e0 (L := 708) (by linarith)).1
    · have := hF.mul_ω_le (k := 1) (by norm_num)
      push_cast at this
      linarith [(fl_log F.R e0).2]

/-! ## Rows in range -/

theorem rnd_near {q : ℝ} (h : |F.R.fl q| ≤ F.large) (hs : F.small + F.tiny ≤ 1) :
    ∃ e, F.rnd q = .fin e ∧
      (e = F.R.fl q ∨ q ≠ 0 ∧ |q| < F.small ∧ |e - F.R.fl q| ≤ F.tiny + F.R.u * F.small) := by
  by_cases h0 : q = 0
  · subst h0
    exact ⟨0, rnd_zero, Or.inl F.R.fl_zero.symm⟩
  rcases le_or_gt F.small |q| with h1 | h1
  · exact ⟨_, rnd_normal h1 h, Or.inl rfl⟩
  · have h2 := F.fl_small q h1
    refine ⟨F.fl q, ?_, Or.inr ⟨h0, h1, ?_⟩⟩
    · rw [rnd, if_neg (not_lt.2 ?_)]
      have := abs_sub_abs_le_abs_sub (F.fl q) q
      linarith [F.one_le_large]
    · have h3 := F.R.err q
      have h4 : F.R.u * |q| ≤ F.R.u * F.small := mul_le_mul_of_nonneg_left h1.le F.R.u_nonneg
      calc |F.fl q - F.R.fl q| = |(F.fl q - q) - (F.R.fl q - q)| := by ring_nf
        _ ≤ |F.fl q - q| + |F.R.fl q - q| := abs_sub _ _
        _ ≤ _ := by linarith

theorem iDiff_range (hF : F.IsDouble) {t : ℝ} {j : Fin n} (h0 : t ≠ x j) (h : |Real.log (t - x j)| ≤ 700) :
    F.iDiff x t j = .fin (F.R.fl (1 / F.R.fl (t - x j))) ∧ F.R.fl (1 / F.R.fl (t - x j)) ≠ 0 ∧
      |Real.log (F.R.fl (1 / F.R.fl (t - x j)))| ≤ |Real.log (t - x j)| + 1 / 2 := by
  have hs := sub_ne_zero.2 h0
  obtain ⟨h1, h2⟩ := fl_log F.R hs
  have h3 := hF.mul_ω_le (k := 2) (by norm_num)
  push_cast at h3
  have hω := F.R.ω_nonneg
  have e0 : (1 / F.R.fl (t - x j) : ℝ) ≠ 0 := one_div_ne_zero h1
  have e1 : |Real.log (1 / F.R.fl (t - x j))| = |Real.log (F.R.fl (t - x j))| := by
    rw [one_div, Real.log_inv, abs_neg]
  obtain ⟨h4, h5⟩ := fl_log F.R e0
  refine ⟨?_, h4, by linarith⟩
  rw [iDiff, hF.range hs (by linarith)]
  simp only [div, h1, if_false]
  exact hF.range e0 (by linarith)

theorem rowTerms_range (hF : F.IsDouble) {w : Fin n → ℝ} (hw : ∀ j, w j ≠ 0 ∧ |Real.log (w j)| ≤ 352)
    (hd : ∀ i j, i ≠ j → x i ≠ x j ∧ |Real.log (x i - x j)| ≤ 351) {t : ℝ}
    (ht : (∃ k, t = x k) ∨ ∀ j, t ≠ x j ∧ |Real.log (t - x j)| ≤ 300) (j : Fin n) :
    F.rowTerms x (fun j => .fin (w j)) t j = .fin (F.R.rowTerms x w t j) ∧
      F.fl (F.R.rowTerms x w t j) = F.R.rowTerms x w t j ∧ |F.R.rowTerms x w t j| ≤ Real.exp 653 := by
  have hω := hF.mul_ω_le (k := 1) (by norm_num)
  push_cast at hω
  have hω0 := F.R.ω_nonneg
  rcases ht with ⟨k, rfl⟩ | ht
  · have hk : F.iDiff x (x k) k = .inf (decide ((1:ℝ) < 0)) := by
      rw [iDiff, sub_self, rnd_zero]
      simp only [div, if_true, one_ne_zero, if_false]
    have hj : ∀ j, j ≠ k → ¬ concom (F.iDiff x (x k) j) := fun j hj h => by
      obtain ⟨h1, h2⟩ := hd k j hj.symm
      obtain ⟨h3, -⟩ := iDiff_range (F := F) hF h1 (by linarith)
      obtain ⟨s, h⟩ := h
      rw [h3] at h
      cases h
    have hR : ∀ j, F.R.fl (x k - x j) = 0 ↔ j = k := fun j => by
      rw [F.R.fl_eq_zero, sub_eq_zero]
      refine ⟨fun h => ?_, fun h => by rw [h]⟩
      by_contra hne
      exact (hd k j (Ne.symm hne)).1 h
    have hex : ∃ k', concom (F.iDiff x (x k) k') := ⟨k, _, hk⟩
    have hex' : ∃ k', F.R.fl (x k - x k') = 0 := ⟨k, (hR k).2 rfl⟩
    rw [rowTerms, if_pos hex, Rounding.rowTerms, if_pos hex']
    by_cases hjk : j = k
    · subst hjk
      obtain ⟨h1, h2⟩ := hw j
      have hc : concom (F.iDiff x (x j) j) := ⟨_, hk⟩
      rw [if_pos hc, if_pos ((hR j).2 rfl), one_mul]
      refine ⟨?_, fl_R_fl (hF.small_le.trans (abs_le_exp h1 (by linarith)).1), ?_⟩
      · change F.rnd (1 * w j) = _
        rw [one_mul]
        exact hF.range h1 (by linarith)
      · exact (abs_le_exp (fl_log F.R h1).1 (by linarith [(fl_log F.R h1).2])).2
    · rw [if_neg (hj j hjk), if_neg (fun h => hjk ((hR j).1 h)), zero_mul, F.R.fl_zero]
      refine ⟨?_, F.fl_zero, by rw [abs_zero]; positivity⟩
      change F.rnd (0 * w j) = _
      rw [zero_mul, rnd_zero]
  · have hj : ∀ j, ¬ concom (F.iDiff x t j) := fun j h => by
      obtain ⟨h1, h2⟩ := ht j
      obtain ⟨h3, -⟩ := iDiff_range (F := F) hF h1 (by linarith)
      obtain ⟨s, h⟩ := h
      rw [h3] at h
      cases h
    have hR : ¬ ∃ k, F.R.fl (t - x k) = 0 := by
      rintro ⟨k, hk⟩
      rw [F.R.fl_eq_zero, sub_eq_zero] at hk
      exact (ht k).1 hk
    obtain ⟨h1, h2⟩ := ht j
    obtain ⟨h3, h4, h5⟩ := iDiff_range (F := F) hF h1 (by linarith)
    rw [rowTerms, if_neg fun ⟨k, h⟩ => hj k h, Rounding.rowTerms, if_neg hR, h3]
    obtain ⟨w1, w2⟩ := hw j
    have e0 := mul_ne_zero h4 w1
    have e1 : |Real.log (F.R.fl (1 / F.R.fl (t - x j)) * w j)| ≤ 652.5 := by
      rw [Real.log_mul h4 w1]
      have := abs_add_le (Real.log (F.R.fl (1 / F.R.fl (t - x j)))) (Real.log (w j))
      linarith
    refine ⟨hF.range e0 (by linarith), fl_R_fl (hF.small_le.trans (abs_le_exp e0 (by linarith)).1), ?_⟩
    exact (abs_le_exp (fl_log F.R e0).1 (by linarith [(fl_log F.R e0).2])).2

theorem row_range (hF : F.IsDouble) (hn : n ≤ 2 ^ 49) (hn0 : 0 < n) {w : Fin n → ℝ} (hw : ∀ j, w j ≠ 0 ∧ |Real.log (w j)| ≤ 352)
    (hd : ∀ i j, i ≠ j → x i ≠ x j ∧ |Real.log (x i - x j)| ≤ 351) {t : ℝ}
    (ht : (∃ k, t = x k) ∨ ∀ j, t ≠ x j ∧ |Real.log (t - x j)| ≤ 300) {P : Fin n → FP}
    (hP : F.InterpolationRow x (fun j => .fin (w j)) t P) :
    ∃ S, F.R.NpSum (F.R.rowTerms x w t) S ∧ ∀ j, P j = F.div (.fin (F.R.rowTerms x w t j)) (.fin S) := by
  obtain ⟨S, hS, hP⟩ := hP
  have hterm := rowTerms_range hF hw hd ht
  have hb : (1 + F.R.u) ^ (univ : Finset (Fin n)).card * ∑ j, |F.R.rowTerms x w t j| ≤ F.large := by
    have h3 : ∑ j, |F.R.rowTerms x w t j| ≤ n * Real.exp 653 := by
      refine (sum_le_sum fun j _ => (hterm j).2.2).trans ?_
      simp
    have h4 := hF.pow_le (k := (univ : Finset (Fin n)).card) (by simp; omega)
    have h5 : (n:ℝ) ≤ 2 ^ 49 := by exact_mod_cast hn
    have h6 : (2:ℝ) ^ 50 * Real.exp 653 ≤ Real.exp 708 := by
      have e : Real.exp 708 = Real.exp 55 * Real.exp 653 := by rw [← Real.exp_add]; norm_num
      rw [e]
      refine mul_le_mul_of_nonneg_right ?_ (Real.exp_pos _).le
      rw [← Real.log_le_log_iff (by positivity) (Real.exp_pos _), Real.log_exp, Real.log_pow]
      have := Real.log_two_lt_d9
      push_cast
      linarith
    refine le_trans ?_ (h6.trans hF.exp_le)
    have h7 := Real.exp_pos 653
    calc _ ≤ 2 * ∑ j, |F.R.rowTerms x w t j| := mul_le_mul_of_nonneg_right h4 (sum_nonneg fun _ _ => abs_nonneg _)
      _ ≤ 2 * (n * Real.exp 653) := by linarith
      _ ≤ 2 * (2 ^ 49 * Real.exp 653) := by nlinarith
      _ = _ := by ring
  obtain ⟨r, h1, h2, -⟩ := reduce_add_range (F := F) (y := F.R.rowTerms x w t) (fun j _ => (hterm j).1)
    (fun j _ => (hterm j).2.1) hb (npSum_reduce hS hn0)
  refine ⟨r, Or.inr h2, fun j => ?_⟩
  rw [hP, h1, (hterm j).1]

end QMat.Format
