import Verif.Model.FloatIntegration
import Verif.Lemmas.RoundingLagrange
import Verif.Lemmas.RoundingBinary
import Verif.Lemmas.Fejer
import Verif.Props.Float
import Mathlib.Analysis.Calculus.MeanValue
import Mathlib.Analysis.Calculus.Deriv.Polynomial

/-!
# The Fejer rule and integration in rounded arithmetic
-/

namespace QMat

open Spec Polynomial Finset

namespace Rounding

variable (R : Rounding)

theorem gamma_nonneg {k : ℕ} (hk : k * R.u < 1) : 0 ≤ gamma R.u k := by
  unfold gamma
  exact div_nonneg (mul_nonneg (Nat.cast_nonneg _) R.u_nonneg) (by linarith)

/-- Small integers are floating point numbers. -/
theorem nearest_nat {p k : ℕ} (hk : k < 2 ^ p) : nearest p (k : ℝ) = k := by
  rcases Nat.eq_zero_or_pos k with rfl | h0
  · simp [nearest]
  have hpos : (0:ℝ) < k := by exact_mod_cast h0
  set e := Nat.log 2 k with he
  have h1 : 2 ^ e ≤ k := Nat.pow_log_le_self 2 h0.ne'
  have h2 : k < 2 ^ (e + 1) := Nat.lt_pow_succ_log_self (by norm_num) k
  have hep : e < p := (Nat.pow_lt_pow_iff_right (by norm_num : 1 < 2)).1 (h1.trans_lt hk)
  have hlog : Int.log 2 |(k:ℝ)| = e := by
    refine log_unique ?_ ?_
    · rw [abs_of_pos hpos, zpow_natCast]; exact_mod_cast h1
    · rw [abs_of_pos hpos]; exact_mod_cast h2
  refine nearest_eq_self (m := k * 2 ^ (p - 1 - e)) ?_
  rw [lastExp, hlog, show (e : ℤ) - ((p : ℤ) - 1) = -((p - 1 - e : ℕ) : ℤ) by omega, zpow_neg, zpow_natCast]
  push_cast
  field_simp

/-! ## The Fejer rule -/

theorem fejerNodes_err (F : FejerOps) {n : ℕ} (hint : ∀ k : ℕ, k ≤ 2 * n → R.fl k = k) (h3 : (3 : ℕ) * R.u < 1) (k : Fin n) :
    |R.fejerNodes F n k - QMat.fejerNodes n k| ≤ F.v + Real.pi * gamma R.u 3 := by
  have hn : (0:ℝ) < n := by exact_mod_cast k.pos
  have hk : (k : ℕ) < n := k.isLt
  have e1 : R.fl (((n : ℝ) - k) * 2) = ((n : ℝ) - k) * 2 := by
    have := hint ((n - k) * 2) (by omega)
    push_cast [Nat.cast_sub hk.le] at this
    exact this
  have e2 : R.fl (((n : ℝ) - k) * 2 - 1) = ((n : ℝ) - k) * 2 - 1 := by
    have := hint ((n - k) * 2 - 1) (by omega)
    rw [Nat.cast_sub (by omega)] at this
    push_cast [Nat.cast_sub hk.le] at this
    exact this
  obtain ⟨φ1, h1, p1⟩ := R.fl_eq Real.pi
  obtain ⟨φ2, h2, p2⟩ := R.fl_eq (Real.pi * φ1 / (2 * n))
  obtain ⟨φ4, h4, p4⟩ := R.fl_eq ((((n : ℝ) - k) * 2 - 1) * (Real.pi * φ1 / (2 * n) * φ2))
  set θ := (((n : ℝ) - k) * 2 - 1) * (Real.pi / (2 * n)) with hθ
  have hk1 : (1:ℝ) ≤ (n:ℝ) - k := by
    have : ((k : ℕ) : ℝ) + 1 ≤ n := by exact_mod_cast hk
    linarith
  have hθ0 : 0 ≤ θ := mul_nonneg (by linarith) (by positivity)
  have hθpi : θ ≤ Real.pi := by
    have : θ = ((((n : ℝ) - k) * 2 - 1) / (2 * n)) * Real.pi := by rw [hθ]; ring
    rw [this]
    refine mul_le_of_le_one_left Real.pi_pos.le ?_
    rw [div_le_one (by positivity)]
    have : (0:ℝ) ≤ ((k : ℕ) : ℝ) := Nat.cast_nonneg _
    linarith
  have e3 : R.fl (R.fl (R.fl (((n : ℝ) - k) * 2) - 1) * R.fl (R.fl Real.pi / (2 * n))) = θ * (φ1 * φ2 * φ4) := by
    rw [e1, e2, p1, p2, p4, hθ]; ring
  have h5 : |θ * (φ1 * φ2 * φ4) - θ| ≤ Real.pi * gamma R.u 3 := by
    refine (R.rel_err h3 (((h1.mul h2).mul h4).mono (le_of_eq (by push_cast; ring)))).trans ?_
    rw [abs_of_nonneg hθ0, mul_comm]
    exact mul_le_mul_of_nonneg_right hθpi (R.gamma_nonneg h3)
  rw [Rounding.fejerNodes, e3, QMat.fejerNodes]
  have h6 := F.cos_err (θ * (φ1 * φ2 * φ4))
  have h7 : F.v * |Real.cos (θ * (φ1 * φ2 * φ4))| ≤ F.v :=
    mul_le_of_le_one_right F.v_nonneg (Real.abs_cos_le_one _)
  have h8 : |Real.cos (θ * (φ1 * φ2 * φ4)) - Real.cos θ| ≤ |θ * (φ1 * φ2 * φ4) - θ| := by
    have := Real.abs_cos_sub_cos_le (θ * (φ1 * φ2 * φ4)) θ
    exact this
  calc |F.cos (θ * (φ1 * φ2 * φ4)) - Real.cos θ|
      ≤ |F.cos (θ * (φ1 * φ2 * φ4)) - Real.cos (θ * (φ1 * φ2 * φ4))| + |Real.cos (θ * (φ1 * φ2 * φ4)) - Real.cos θ| :=
        abs_sub_le _ _ _
    _ ≤ _ := by linarith

/-- Bound of the entries of `v0`. -/
theorem norm_fejerV0_le (n j : ℕ) : ‖fejerV0 n j‖ ≤ if j = 0 then 2 else 2 / (4 * (j:ℝ) ^ 2 - 1) := by
  have hden : ∀ {j : ℕ}, j ≠ 0 → (0:ℝ) < 4 * (j:ℝ) ^ 2 - 1 := fun {j} h => by
    have : (1:ℝ) ≤ j := by exact_mod_cast Nat.one_le_iff_ne_zero.2 h
    nlinarith
  unfold fejerV0
  split_ifs with h h0 h0
  · subst h0; simp
  · have e : ‖Complex.exp (Complex.I * Real.pi * j / n)‖ = 1 := by
      have : Complex.I * Real.pi * j / n = ((Real.pi * j / n : ℝ) : ℂ) * Complex.I := by push_cast; ring
      rw [this, Complex.norm_exp_ofReal_mul_I]
    have e2 : ‖(1 - 4 * (j : ℂ) ^ 2)‖ = 4 * (j:ℝ) ^ 2 - 1 := by
      have : (1 - 4 * (j : ℂ) ^ 2) = ((-(4 * (j:ℝ) ^ 2 - 1) : ℝ) : ℂ) := by push_cast; ring
      rw [this, Complex.norm_real, Real.norm_eq_abs, abs_neg, abs_of_pos (hden h0)]
    rw [norm_div, norm_mul, e, e2]
    simp
  · simp
  · rw [norm_zero]
    exact div_nonneg (by norm_num) (hden h0).le

theorem sum_bound (n : ℕ) : ∑ j ∈ Finset.Ico 1 (n + 1), 2 / (4 * (j:ℝ) ^ 2 - 1) ≤ 1 := by
  rw [sum_inv_telescope (n + 1) (by omega)]
  have : (0:ℝ) ≤ 1 / (2 * ((n + 1 : ℕ) : ℝ) - 1) := by
    push_cast
    refine div_nonneg zero_le_one ?_
    have : (0:ℝ) ≤ n := Nat.cast_nonneg n
    linarith
  linarith

/-- The sizes of the entries of `v1` add up to at most four. -/
theorem sum_fejerV1_le (n : ℕ) : ∑ j : Fin n, (‖fejerV0 n (n - j)‖ + ‖fejerV0 n j‖) ≤ 4 := by
  rcases Nat.eq_zero_or_pos n with rfl | hn
  · simp
  rw [Fin.sum_univ_eq_sum_range (fun j => ‖fejerV0 n (n - j)‖ + ‖fejerV0 n j‖) n, Finset.sum_add_distrib]
  have h1 : ∑ j ∈ Finset.range n, ‖fejerV0 n (n - j)‖ ≤ 1 := by
    have e : ∑ j ∈ Finset.range n, ‖fejerV0 n (n - j)‖ = ∑ j ∈ Finset.Ico 1 (n + 1), ‖fejerV0 n j‖ := by
      rw [Finset.range_eq_Ico]
      exact Finset.sum_nbij' (fun j => n - j) (fun j => n - j) (by simp; omega) (by simp; omega)
        (by simp; omega) (by simp; omega) (fun j _ => rfl)
    rw [e]
    refine (Finset.sum_le_sum fun j hj => ?_).trans (sum_bound n)
    · have := norm_fejerV0_le n j
      rwa [if_neg (by have := (Finset.mem_Ico.1 hj).1; omega)] at this
  have h2 : ∑ j ∈ Finset.range n, ‖fejerV0 n j‖ ≤ 3 := by
    rw [Finset.range_eq_Ico, Finset.sum_eq_sum_Ico_succ_bot hn]
    have h0 := norm_fejerV0_le n 0
    rw [if_pos rfl] at h0
    have h3 : ∑ j ∈ Finset.Ico (0 + 1) n, ‖fejerV0 n j‖ ≤ 1 := by
      refine le_trans ?_ (sum_bound (n - 1))
      rw [Nat.sub_add_cancel hn]
      refine Finset.sum_le_sum fun j hj => ?_
      have := norm_fejerV0_le n j
      rwa [if_neg (by have := (Finset.mem_Ico.1 hj).1; omega)] at this
    linarith
  linarith

theorem norm_npIfft_le {n : ℕ} (y : Fin n → ℂ) (k : Fin n) : ‖npIfft y k‖ ≤ (∑ j, ‖y j‖) / n := by
  unfold npIfft
  rw [norm_mul, norm_div, norm_one, Complex.norm_natCast, div_mul_eq_mul_div, one_mul]
  refine div_le_div_of_nonneg_right ?_ (Nat.cast_nonneg n)
  refine (norm_sum_le _ _).trans (Finset.sum_le_sum fun j _ => ?_)
  have : 2 * Real.pi * Complex.I * j * k / n = ((2 * Real.pi * j * k / n : ℝ) : ℂ) * Complex.I := by push_cast; ring
  rw [norm_mul, this, Complex.norm_exp_ofReal_mul_I, mul_one]

theorem npIfft_sub {n : ℕ} (y z : Fin n → ℂ) (k : Fin n) : npIfft (fun j => y j - z j) k = npIfft y k - npIfft z k := by
  unfold npIfft
  rw [← mul_sub, ← Finset.sum_sub_distrib]
  simp only [sub_mul]

/-- The bound of the errors of the weights of the Fejer rule. -/
noncomputable def fejerEta (F : FejerOps) (n : ℕ) : ℝ := 4 * F.κ / n + 4 * (1 + F.κ) * F.ρ / √n

theorem ifft_err (F : FejerOps) {n : ℕ} (k : Fin n) :
    ‖F.ifft (fejerV1 F n) k - ((fejerW n k : ℝ) : ℂ)‖ ≤ fejerEta F n := by
  have hn : (0:ℝ) < n := by exact_mod_cast k.pos
  set s : Fin n → ℝ := fun j => ‖fejerV0 n (n - j)‖ + ‖fejerV0 n j‖ with hs
  have hsum : ∑ j, s j ≤ 4 := sum_fejerV1_le n
  have herr : ∀ j, ‖fejerV1 F n j - QMat.fejerV1 n j‖ ≤ F.κ * s j := fun j => by
    have e : fejerV1 F n j - QMat.fejerV1 n j = (starRingEnd ℂ) (F.v0 n (n - j) - fejerV0 n (n - j))
        + (F.v0 n j - fejerV0 n j) := by
      unfold fejerV1 QMat.fejerV1; rw [map_sub]; ring
    rw [e]
    refine (norm_add_le _ _).trans ?_
    rw [RCLike.norm_conj]
    have h1 := F.v0_err n (n - j)
    have h2 := F.v0_err n j
    rw [hs, mul_add]
    linarith
  have hle : ∀ j, ‖fejerV1 F n j‖ ≤ (1 + F.κ) * s j := fun j => by
    have h0 : ‖QMat.fejerV1 n j‖ ≤ s j := by
      unfold QMat.fejerV1
      refine (norm_add_le _ _).trans ?_
      rw [RCLike.norm_conj]
    have h1 := herr j
    have h2 := norm_le_norm_add_norm_sub' (fejerV1 F n j) (QMat.fejerV1 n j)
    linarith
  have hs0 : ∀ j, 0 ≤ s j := fun j => add_nonneg (norm_nonneg _) (norm_nonneg _)
  have hκ := F.κ_nonneg
  have h1 : √(∑ j, ‖fejerV1 F n j‖ ^ 2) ≤ 4 * (1 + F.κ) := by
    rw [Real.sqrt_le_left (by positivity)]
    calc ∑ j, ‖fejerV1 F n j‖ ^ 2 ≤ (∑ j, ‖fejerV1 F n j‖) ^ 2 :=
          Finset.sum_sq_le_sq_sum_of_nonneg (fun j _ => norm_nonneg _)
      _ ≤ (4 * (1 + F.κ)) ^ 2 := by
          refine pow_le_pow_left₀ (Finset.sum_nonneg fun j _ => norm_nonneg _) ?_ 2
          refine (Finset.sum_le_sum fun j _ => hle j).trans ?_
          rw [← Finset.mul_sum]
          nlinarith
  have h2 := F.ifft_err (fejerV1 F n) k
  have h3 : ‖npIfft (fejerV1 F n) k - npIfft (QMat.fejerV1 n) k‖ ≤ 4 * F.κ / n := by
    rw [← npIfft_sub]
    refine (norm_npIfft_le _ k).trans (div_le_div_of_nonneg_right ?_ hn.le)
    refine (Finset.sum_le_sum fun j _ => herr j).trans ?_
    rw [← Finset.mul_sum]
    nlinarith
  rw [npIfft_fejerV1] at h3
  have h4 : F.ρ * (√(∑ j, ‖fejerV1 F n j‖ ^ 2) / √n) ≤ 4 * (1 + F.κ) * F.ρ / √n := by
    rw [mul_comm, div_mul_eq_mul_div]
    refine div_le_div_of_nonneg_right ?_ (Real.sqrt_nonneg _)
    exact mul_le_mul_of_nonneg_right h1 F.ρ_nonneg
  have h5 := norm_sub_le_norm_sub_add_norm_sub (F.ifft (fejerV1 F n) k) (npIfft (fejerV1 F n) k) ((fejerW n k : ℝ) : ℂ)
  unfold fejerEta
  linarith

theorem computeFejerRule_spec (F : FejerOps) {n : ℕ} (hn : 0 < n) (hint : ∀ k : ℕ, k ≤ 2 * n → R.fl k = k)
    (h3 : (3 : ℕ) * R.u < 1) (hη : fejerEta F n ≤ 1 / 10 ^ 15) :
    ∃ tau omega, R.computeFejerRule F n = .ok (tau, omega) ∧
      (∀ k, |tau k - QMat.fejerNodes n k| ≤ F.v + Real.pi * gamma R.u 3) ∧
      ∀ k, |omega k - fejerW n k| ≤ fejerEta F n := by
  refine ⟨R.fejerNodes F n, fun k => (F.ifft (fejerV1 F n) k).re, ?_, R.fejerNodes_err F hint h3, fun k => ?_⟩
  · unfold Rounding.computeFejerRule
    obtain ⟨s, hs⟩ := npMax_eq_ok hn fun k => (F.ifft (fejerV1 F n) k).im
    obtain ⟨-, k, hk⟩ := npMax_ok hs
    have : ¬ s > 1 / 10 ^ 15 := by
      have h1 := (Complex.abs_im_le_norm _).trans (ifft_err F k)
      rw [Complex.sub_im, Complex.ofReal_im, sub_zero] at h1
      have h2 := le_abs_self (F.ifft (fejerV1 F n) k).im
      rw [not_lt, ← hk]
      linarith
    simp only [hs, bind, Except.bind, pure, Except.pure]
    rw [if_neg this]
  · have h1 := (Complex.abs_re_le_norm _).trans (ifft_err F k)
    rwa [Complex.sub_re, Complex.ofReal_re] at h1

/-! ## Integration -/

variable {R} {n m : ℕ} {x w : Fin n → ℝ}

/-- The evaluation times are near the exact ones. -/
theorem tEval_err {a b tau τ ε : ℝ} (hτ : |τ| ≤ 1) (hε : |tau - τ| ≤ ε) (h4 : (4 : ℕ) * R.u < 1) :
    |R.tEval a b tau - ((b - a) / 2 * τ + (b + a) / 2)|
      ≤ |b - a| / 2 * (gamma R.u 4 * (1 + ε) + ε) + gamma R.u 3 * (|b + a| / 2) := by
  obtain ⟨φ1, h1, p1⟩ := R.fl_eq (b - a)
  obtain ⟨φ2, h2, p2⟩ := R.fl_eq ((b - a) * φ1 / 2)
  obtain ⟨φ3, h3, p3⟩ := R.fl_eq ((b - a) * φ1 / 2 * φ2 * tau)
  obtain ⟨φ5, h5, p5⟩ := R.fl_eq (b + a)
  obtain ⟨φ6, h6, p6⟩ := R.fl_eq ((b + a) * φ5 / 2)
  obtain ⟨φ7, h7, p7⟩ := R.fl_eq ((b - a) * φ1 / 2 * φ2 * tau * φ3 + (b + a) * φ5 / 2 * φ6)
  have e : R.tEval a b tau = (b - a) / 2 * tau * (φ1 * φ2 * φ3 * φ7) + (b + a) / 2 * (φ5 * φ6 * φ7) := by
    rw [Rounding.tEval, Rounding.halfLength, p1, p2, p3, p5, p6, p7]; ring
  have h33 : (3 : ℕ) * R.u < 1 := by
    have := R.u_nonneg
    push_cast at h4 ⊢
    linarith
  have e1 := R.rel_err h4 ((((h1.mul h2).mul h3).mul h7).mono (le_of_eq (by push_cast; ring))) (a := (b - a) / 2 * tau)
  have e2 := R.rel_err h33 (((h5.mul h6).mul h7).mono (le_of_eq (by push_cast; ring))) (a := (b + a) / 2)
  have e3 : |(b - a) / 2 * tau - (b - a) / 2 * τ| ≤ |b - a| / 2 * ε := by
    rw [← mul_sub, abs_mul, abs_div, abs_two]
    exact mul_le_mul_of_nonneg_left hε (by positivity)
  have e4 : |tau| ≤ 1 + ε := by
    have : |tau| ≤ |τ| + |tau - τ| := by
      have := abs_add_le τ (tau - τ)
      rwa [add_sub_cancel] at this
    linarith
  have e5 : gamma R.u 4 * |(b - a) / 2 * tau| ≤ |b - a| / 2 * (gamma R.u 4 * (1 + ε)) := by
    rw [abs_mul, abs_div, abs_two]
    have := mul_le_mul_of_nonneg_left e4 (mul_nonneg (R.gamma_nonneg h4) (by positivity : 0 ≤ |b - a| / 2))
    linarith
  rw [abs_div, abs_two] at e2
  rw [e]
  have : (b - a) / 2 * tau * (φ1 * φ2 * φ3 * φ7) + (b + a) / 2 * (φ5 * φ6 * φ7) - ((b - a) / 2 * τ + (b + a) / 2)
      = ((b - a) / 2 * tau * (φ1 * φ2 * φ3 * φ7) - (b - a) / 2 * tau) + ((b - a) / 2 * tau - (b - a) / 2 * τ)
        + ((b + a) / 2 * (φ5 * φ6 * φ7) - (b + a) / 2) := by ring
  rw [this]
  refine (abs_add_le _ _).trans (add_le_add ((abs_add_le _ _).trans ?_) e2)
  linarith

/-- Interpolation at any time, also at a point. -/
theorem interp_any (hx : Function.Injective x) (hw : R.Analytic x w) {t Λ : ℝ} {P : Fin n → ℝ}
    (hP : R.InterpolationRow x w t P) (hu : (3 * n + 2 : ℕ) * R.u < 1) (hL : lebesgue x t ≤ Λ)
    (hΛ : gamma R.u (3 * n + 2) * Λ < 1) (j : Fin n) :
    |P j - (Lagrange.basis Finset.univ x j).eval t|
      ≤ gamma R.u (3 * n + 2) * (1 + Λ) / (1 - gamma R.u (3 * n + 2) * Λ) * |(Lagrange.basis Finset.univ x j).eval t| := by
  have hg := R.gamma_nonneg hu
  have hL0 : 0 ≤ lebesgue x t := Finset.sum_nonneg fun _ _ => abs_nonneg _
  have h1 : gamma R.u (3 * n + 2) * lebesgue x t ≤ gamma R.u (3 * n + 2) * Λ := mul_le_mul_of_nonneg_left hL hg
  by_cases ht : ∃ i, t = x i
  · obtain ⟨i, rfl⟩ := ht
    have e : (Lagrange.basis Finset.univ x j).eval (x i) = if j = i then 1 else 0 := by
      split_ifs with h
      · subst h
        exact Lagrange.eval_basis_self hx.injOn (Finset.mem_univ _)
      · exact Lagrange.eval_basis_of_ne h (Finset.mem_univ _)
    rw [C86_nodes R hx hw i hP j, e, sub_self, abs_zero]
    refine mul_nonneg (div_nonneg (mul_nonneg hg ?_) ?_) (abs_nonneg _) <;> linarith
  · push Not at ht
    refine (C86_interpolation R hx hw ht hP hu (h1.trans_lt hΛ) j).trans (mul_le_mul_of_nonneg_right ?_ (abs_nonneg _))
    refine div_le_div₀ (mul_nonneg hg (by linarith)) (mul_le_mul_of_nonneg_left (by linarith) hg) (by linarith) (by linarith)

/-- A polynomial with a bounded derivative. -/
theorem eval_sub_le (p : ℝ[X]) {lo hi D s t : ℝ} (hD : ∀ r ∈ Set.Icc lo hi, |(derivative p).eval r| ≤ D)
    (hs : s ∈ Set.Icc lo hi) (ht : t ∈ Set.Icc lo hi) : |p.eval s - p.eval t| ≤ D * |s - t| := by
  have := (convex_Icc lo hi).norm_image_sub_le_of_norm_hasDerivWithin_le (f := fun r => p.eval r)
    (f' := fun r => (derivative p).eval r) (C := D) (fun r _ => (p.hasDerivAt r).hasDerivWithinAt)
    (fun r hr => hD r hr) ht hs
  simpa using this

/-- The rule on an interval. -/
theorem rule_interval {τ ω : Fin m → ℝ} {N : ℕ}
    (hex : ∀ p : ℝ[X], p.degree < N → ∑ k, ω k * p.eval (τ k) = ∫ s in (-1:ℝ)..1, p.eval s) (p : ℝ[X]) (hp : p.degree < N)
    (a b : ℝ) : ∑ k, ω k * p.eval ((b - a) / 2 * τ k + (b + a) / 2) * ((b - a) / 2) = ∫ t in a..b, p.eval t := by
  have h1 := hex (p.comp (C ((b - a) / 2) * X + C ((b + a) / 2))) (by
    refine lt_of_le_of_lt ?_ hp
    by_cases h0 : p = 0
    · simp [h0]
    refine (degree_le_of_natDegree_le ?_).trans (degree_eq_natDegree h0).ge
    refine natDegree_comp_le.trans ?_
    calc p.natDegree * _ ≤ p.natDegree * 1 := Nat.mul_le_mul_left _ (by
          refine natDegree_add_le_of_degree_le ((natDegree_C_mul_le _ _).trans natDegree_X_le) (by simp))
      _ = p.natDegree := mul_one _)
  simp only [eval_comp, eval_add, eval_mul, eval_C, eval_X] at h1
  rw [← Finset.sum_mul, h1, mul_comm]
  have := intervalIntegral.mul_integral_comp_mul_add (a := -1) (b := 1) (f := fun t => p.eval t) ((b - a) / 2) ((b + a) / 2)
  rw [this]
  congr 1 <;> ring

theorem prod_err {P l o ω φ G lam g η ε : ℝ} (hP : |P - l| ≤ ε) (hPb : |P| ≤ (1 + G) * lam)
    (ho : |o - ω| ≤ η) (hω : 0 ≤ ω) (hφ : |φ - 1| ≤ g) :
    |P * o * φ - l * ω| ≤ (1 + G) * lam * ((ω + η) * g + η) + ε * ω := by
  have hb : 0 ≤ (1 + G) * lam := (abs_nonneg _).trans hPb
  have ho' : |o| ≤ ω + η := by
    have := abs_add_le ω (o - ω)
    rw [add_sub_cancel, abs_of_nonneg hω] at this
    linarith
  have e : P * o * φ - l * ω = P * (o * (φ - 1) + (o - ω)) + (P - l) * ω := by ring
  rw [e]
  refine (abs_add_le _ _).trans (add_le_add ?_ ?_)
  · rw [abs_mul]
    refine mul_le_mul hPb ((abs_add_le _ _).trans (add_le_add ?_ ho)) (abs_nonneg _) hb
    rw [abs_mul]
    exact mul_le_mul ho' hφ (abs_nonneg _) ((abs_nonneg _).trans ho')
  · rw [abs_mul, abs_of_nonneg hω]
    exact mul_le_mul_of_nonneg_right hP hω

/-- A row of the integration matrix with any rule. -/
theorem integration_bound (hx : Function.Injective x) (hw : R.Analytic x w) (hm : 0 < m) {τ ω tau omega : Fin m → ℝ}
    (hex : ∀ p : ℝ[X], p.degree < n → ∑ k, ω k * p.eval (τ k) = ∫ s in (-1:ℝ)..1, p.eval s)
    (hω : ∀ k, 0 ≤ ω k) (hsum : ∑ k, ω k = 2) (hτ : ∀ k, |τ k| ≤ 1) {ε η : ℝ} (hε : ∀ k, |tau k - τ k| ≤ ε)
    (hη : ∀ k, |omega k - ω k| ≤ η) {a b lo hi : ℝ} (h4 : (4 : ℕ) * R.u < 1) {δ : ℝ}
    (hδ : |b - a| / 2 * (gamma R.u 4 * (1 + ε) + ε) + gamma R.u 3 * (|b + a| / 2) ≤ δ)
    (hlo : lo + δ ≤ min a b) (hhi : max a b + δ ≤ hi) {Λ D : ℝ}
    (hu : (3 * n + 2 : ℕ) * R.u < 1) (hL : ∀ s ∈ Set.Icc lo hi, lebesgue x s ≤ Λ)
    (hΛ : gamma R.u (3 * n + 2) * Λ < 1) (j : Fin n)
    (hD : ∀ s ∈ Set.Icc lo hi, |(derivative (Lagrange.basis Finset.univ x j)).eval s| ≤ D)
    (hum : (m + 3 : ℕ) * R.u < 1) {Q : Fin n → ℝ} (hQ : R.IntegrationRow x w tau omega a b Q) :
    let G := gamma R.u (3 * n + 2) * (1 + Λ) / (1 - gamma R.u (3 * n + 2) * Λ)
    |Q j - ∫ t in a..b, (Lagrange.basis Finset.univ x j).eval t|
      ≤ |b - a| / 2 * ((1 + G) * Λ * ((2 + m * η) * gamma R.u (m + 3) + m * η) + 2 * (G * Λ + D * δ)) := by
  intro G
  obtain ⟨P, hP, hQ⟩ := hQ
  obtain ⟨ψ, hψ, hQe⟩ := (hQ j).sum (by simpa using hm)
  rw [Fintype.card_fin] at hψ
  set l := Lagrange.basis Finset.univ x j with hl
  set t : Fin m → ℝ := fun k => (b - a) / 2 * τ k + (b + a) / 2 with ht
  have hε0 : 0 ≤ ε := (abs_nonneg _).trans (hε ⟨0, hm⟩)
  have hη0 : 0 ≤ η := (abs_nonneg _).trans (hη ⟨0, hm⟩)
  have hn : 0 < n := j.pos
  have hδ0 : 0 ≤ δ := le_trans (by
    have h33 : (3 : ℕ) * R.u < 1 := by
      have := R.u_nonneg
      push_cast at h4 ⊢
      linarith
    have := R.gamma_nonneg h4
    have := R.gamma_nonneg h33
    positivity) hδ
  have hdeg : l.degree < n := by
    rw [hl, Lagrange.degree_basis hx.injOn (Finset.mem_univ j), Finset.card_univ, Fintype.card_fin]
    exact_mod_cast Nat.sub_lt hn one_pos
  have htm : ∀ k, t k ∈ Set.Icc (min a b) (max a b) := fun k => by
    have h := abs_le.1 (hτ k)
    rcases le_total a b with hab | hab
    · rw [min_eq_left hab, max_eq_right hab]
      constructor <;> simp only [ht] <;> nlinarith
    · rw [min_eq_right hab, max_eq_left hab]
      constructor <;> simp only [ht] <;> nlinarith
  have hterr : ∀ k, |R.tEval a b (tau k) - t k| ≤ δ := fun k => (tEval_err (hτ k) (hε k) h4).trans hδ
  have htI : ∀ k, t k ∈ Set.Icc lo hi := fun k => ⟨by linarith [(htm k).1], by linarith [(htm k).2]⟩
  have htI' : ∀ k, R.tEval a b (tau k) ∈ Set.Icc lo hi := fun k => by
    have h := abs_le.1 (hterr k)
    exact ⟨by linarith [(htm k).1], by linarith [(htm k).2]⟩
  have hlb : ∀ s ∈ Set.Icc lo hi, |l.eval s| ≤ Λ := fun s hs =>
    (Finset.single_le_sum (f := fun j => |(Lagrange.basis Finset.univ x j).eval s|) (fun _ _ => abs_nonneg _)
      (Finset.mem_univ j)).trans (hL s hs)
  have hΛ0 : 0 ≤ Λ := (abs_nonneg _).trans (hlb _ (htI ⟨0, hm⟩))
  have hD0 : 0 ≤ D := (abs_nonneg _).trans (hD _ (htI ⟨0, hm⟩))
  have hg := R.gamma_nonneg hu
  have hG : 0 ≤ G := div_nonneg (mul_nonneg hg (by linarith)) (by linarith)
  have hPk : ∀ k, |P k j - l.eval (R.tEval a b (tau k))| ≤ G * Λ := fun k =>
    (interp_any hx hw (hP k) hu (hL _ (htI' k)) hΛ j).trans (mul_le_mul_of_nonneg_left (hlb _ (htI' k)) hG)
  have hPb : ∀ k, |P k j| ≤ (1 + G) * Λ := fun k => by
    have h1 := abs_add_le (l.eval (R.tEval a b (tau k))) (P k j - l.eval (R.tEval a b (tau k)))
    rw [add_sub_cancel] at h1
    have := hPk k
    have := hlb _ (htI' k)
    linarith
  have hPl : ∀ k, |P k j - l.eval (t k)| ≤ G * Λ + D * δ := fun k => by
    refine (abs_sub_le _ (l.eval (R.tEval a b (tau k))) _).trans (add_le_add (hPk k) ?_)
    exact (eval_sub_le l hD (htI' k) (htI k)).trans (mul_le_mul_of_nonneg_left (hterr k) hD0)
  obtain ⟨φ1, h1, p1⟩ := R.fl_eq (b - a)
  obtain ⟨φ2, h2, p2⟩ := R.fl_eq ((b - a) * φ1 / 2)
  have hh : R.halfLength a b = (b - a) / 2 * (φ1 * φ2) := by
    rw [Rounding.halfLength, p1, p2]; ring
  choose χ hχ pχ using fun k => R.fl_eq (P k j * omega k)
  choose θ hθ pθ using fun k => R.fl_eq (R.fl (P k j * omega k) * R.halfLength a b)
  have hQ2 : Q j = ∑ k, (P k j * omega k * (χ k * θ k * ψ k * (φ1 * φ2))) * ((b - a) / 2) := by
    rw [hQe]
    refine Finset.sum_congr rfl fun k _ => ?_
    rw [pθ k, pχ k, hh]; ring
  have hwin : ∀ k, |χ k * θ k * ψ k * (φ1 * φ2) - 1| ≤ gamma R.u (m + 3) := fun k => by
    have := ((((hχ k).mul (hθ k)).mul (hψ k)).mul (h1.mul h2)).mono
      (ε' := (m + 3 : ℕ) * R.ω) (le_of_eq (by push_cast; ring))
    exact this.abs_sub_one_le.trans (R.exp_sub_one_le hum)
  rw [hQ2, ← rule_interval hex l hdeg a b, ← Finset.sum_sub_distrib]
  have hterm : ∀ k, |(P k j * omega k * (χ k * θ k * ψ k * (φ1 * φ2))) * ((b - a) / 2)
      - ω k * l.eval ((b - a) / 2 * τ k + (b + a) / 2) * ((b - a) / 2)|
      ≤ |b - a| / 2 * ((1 + G) * Λ * ((ω k + η) * gamma R.u (m + 3) + η) + (G * Λ + D * δ) * ω k) := fun k => by
    rw [← sub_mul, abs_mul, mul_comm, abs_div, abs_two, mul_comm (ω k)]
    refine mul_le_mul_of_nonneg_left ?_ (by positivity)
    exact prod_err (hPl k) (hPb k) (hη k) (hω k) (hwin k)
  refine (Finset.abs_sum_le_sum_abs _ _).trans ((Finset.sum_le_sum fun k _ => hterm k).trans (le_of_eq ?_))
  rw [← Finset.mul_sum, Finset.sum_add_distrib, ← Finset.mul_sum, ← Finset.mul_sum, Finset.sum_add_distrib, ← Finset.sum_mul,
    Finset.sum_add_distrib, hsum]
  simp only [Finset.sum_const, Finset.card_univ, Fintype.card_fin, nsmul_eq_mul]
  ring

end Rounding
end QMat
