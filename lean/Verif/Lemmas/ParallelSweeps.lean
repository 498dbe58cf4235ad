import Verif.Lemmas.StageBound

/-!
# Sweeps with the nodes on the diagonal of `QΔ`

`D⁻¹ Q` takes means, `p ↦ (1/t) ∫_0^t p`, and the mean square of `p` is at least the one of `p - (1/t) ∫_0^t p`.
-/

namespace QMat

open Polynomial Spec Finset

variable {M : ℕ} {x w : Fin M → ℝ}

/-- With `p = (t P)'` and `q = t P' = p - P`: the discrete mean square of `q` is at most the one of `p`. -/
theorem mean_contracts (hM : 0 < M) (hup : QuadUpper x w (2 * M - 2)) {P : ℝ[X]} (hP : P.natDegree ≤ M - 1) :
    ∑ i, w i * (x i * (derivative P).eval (x i)) ^ 2 ≤ ∑ i, w i * (derivative (X * P)).eval (x i) ^ 2 := by
  obtain ⟨m, rfl⟩ : ∃ m, M = m + 1 := ⟨M - 1, by omega⟩
  rw [show 2 * (m + 1) - 2 = m + m by omega] at hup
  rw [Nat.add_sub_cancel] at hP
  have hPP : (P * P).natDegree ≤ m + m := natDegree_mul_le_of_le hP hP
  have hd : (derivative (X * (P * P))).natDegree ≤ m + m := by
    refine (natDegree_derivative_le _).trans ?_
    have := natDegree_mul_le_of_le (p := (X : ℝ[X])) natDegree_X_le hPP
    omega
  have hc : 0 ≤ (derivative (X * (P * P))).coeff (m + m) := by
    rw [coeff_derivative, coeff_X_mul, coeff_mul_add_eq_of_natDegree_le hP hP]
    exact mul_nonneg (mul_self_nonneg _) (by positivity)
  have h := hup _ hd hc
  rw [polyInt_derivative] at h
  simp only [eval_mul, eval_X, one_mul, zero_mul, sub_zero] at h
  have h0 := (mul_self_nonneg (P.eval 1)).trans h
  have e : ∀ i, w i * (derivative (X * (P * P))).eval (x i) =
      w i * (derivative (X * P)).eval (x i) ^ 2 - w i * (x i * (derivative P).eval (x i)) ^ 2 := fun i => by
    simp only [derivative_mul, derivative_X, eval_add, eval_mul, eval_X, one_mul]
    ring
  simp only [e] at h0
  rw [sum_sub_distrib] at h0
  linarith

/-- Size of the factor `z x / (1 - z x)`. -/
theorem factor_le {z : ℂ} (hz : z.re ≤ 0) {t : ℝ} (h0 : 0 ≤ t) (h1 : t ≤ 1) :
    1 ≤ ‖1 - z * t‖ ^ 2 ∧ (1 + ‖z‖ ^ 2) * ‖z * t‖ ^ 2 ≤ ‖z‖ ^ 2 * ‖1 - z * t‖ ^ 2 := by
  have e : ‖1 - z * t‖ ^ 2 = 1 - 2 * (t * z.re) + t ^ 2 * ‖z‖ ^ 2 := by
    rw [Complex.sq_norm, Complex.sq_norm, Complex.normSq_apply, Complex.normSq_apply]
    simp
    ring
  have e2 : ‖z * t‖ ^ 2 = t ^ 2 * ‖z‖ ^ 2 := by
    rw [norm_mul, Complex.norm_real, mul_pow, Real.norm_eq_abs, sq_abs, mul_comm]
  have h2 : t * z.re ≤ 0 := mul_nonpos_of_nonneg_of_nonpos h0 hz
  have h3 : 0 ≤ t ^ 2 * ‖z‖ ^ 2 := by positivity
  have h4 : t ^ 2 ≤ 1 := pow_le_one₀ h0 h1
  have h5 := mul_le_mul_of_nonneg_right h4 (sq_nonneg ‖z‖)
  have h6 : 0 ≤ ‖z‖ ^ 2 * (-(2 * (t * z.re))) := mul_nonneg (sq_nonneg _) (by linarith)
  rw [e, e2]
  constructor <;> nlinarith

variable {A : Matrix (Fin M) (Fin M) ℝ}

theorem norm_sq_re_im (v : ℂ) : ‖v‖ ^ 2 = v.re ^ 2 + v.im ^ 2 := by
  rw [Complex.sq_norm, Complex.normSq_apply]
  ring

/-- One sweep: the discrete mean square of the error decreases. -/
theorem parallel_sweep (hM : 0 < M) (hc : Function.Injective x) (hx0 : ∀ i, 0 ≤ x i) (hx1 : ∀ i, x i ≤ 1) (hw : ∀ i, 0 ≤ w i)
    (hup : QuadUpper x w (2 * M - 2))
    (hA : ∀ f : ℝ[X], f.degree < M → ∀ i, ∑ j, A i j * f.eval (x j) = polyInt f 0 (x i)) {z : ℂ} (hz : z.re ≤ 0)
    {e e' : Fin M → ℂ} (he : ∀ i, (1 - z * x i) * e' i = z * (∑ j, (A i j : ℂ) * e j - x i * e i)) :
    (1 + ‖z‖ ^ 2) * ∑ i, w i * ‖e' i‖ ^ 2 ≤ ‖z‖ ^ 2 * ∑ i, w i * ‖e i‖ ^ 2 := by
  obtain ⟨U, P, hU, hPd, -, -, hUv, hUx⟩ := exists_stage_poly hM hc hA fun i => (e i).re
  obtain ⟨V, R, hV, hRd, -, -, hVv, hVx⟩ := exists_stage_poly hM hc hA fun i => (e i).im
  have h1 := mean_contracts hM hup hPd
  have h2 := mean_contracts hM hup hRd
  rw [← hU] at h1
  rw [← hV] at h2
  simp only [hUv] at h1
  simp only [hVv] at h2
  have key : ∀ i, (1 + ‖z‖ ^ 2) * ‖e' i‖ ^ 2 ≤ ‖z‖ ^ 2 * ((x i * (derivative P).eval (x i)) ^ 2 + (x i * (derivative R).eval (x i)) ^ 2) := by
    intro i
    set q : ℂ := ⟨x i * (derivative P).eval (x i), x i * (derivative R).eval (x i)⟩ with hq
    have hp : (e i).re = P.eval (x i) + x i * (derivative P).eval (x i) := by
      rw [← hUv i, hU]; simp
    have hr : (e i).im = R.eval (x i) + x i * (derivative R).eval (x i) := by
      rw [← hVv i, hV]; simp
    have hs : ∑ j, (A i j : ℂ) * e j = x i * (⟨P.eval (x i), R.eval (x i)⟩ : ℂ) := by
      have a1 := hUx i
      have a2 := hVx i
      rw [hU] at a1
      rw [hV] at a2
      simp only [eval_mul, eval_X] at a1 a2
      apply Complex.ext
      · simp [← a1]
      · simp [← a2]
    have heq : (1 - z * x i) * e' i = -(z * x i * q) := by
      rw [he, hs]
      have : e i = (⟨P.eval (x i), R.eval (x i)⟩ : ℂ) + q := by
        apply Complex.ext
        · rw [hp]; simp [hq]
        · rw [hr]; simp [hq]
      rw [this]
      ring
    have hn := congrArg (fun v : ℂ => ‖v‖ ^ 2) heq
    simp only [norm_neg, norm_mul (1 - z * (x i : ℂ)), norm_mul (z * (x i : ℂ)), mul_pow] at hn
    obtain ⟨f1, f2⟩ := factor_le hz (hx0 i) (hx1 i)
    have hqn : ‖q‖ ^ 2 = (x i * (derivative P).eval (x i)) ^ 2 + (x i * (derivative R).eval (x i)) ^ 2 := by
      rw [norm_sq_re_im]
    rw [← hqn]
    refine le_of_mul_le_mul_left ?_ (lt_of_lt_of_le one_pos f1)
    calc ‖1 - z * x i‖ ^ 2 * ((1 + ‖z‖ ^ 2) * ‖e' i‖ ^ 2) = (1 + ‖z‖ ^ 2) * (‖1 - z * x i‖ ^ 2 * ‖e' i‖ ^ 2) := by ring
      _ = ((1 + ‖z‖ ^ 2) * ‖z * x i‖ ^ 2) * ‖q‖ ^ 2 := by rw [hn]; ring
      _ ≤ (‖z‖ ^ 2 * ‖1 - z * x i‖ ^ 2) * ‖q‖ ^ 2 := mul_le_mul_of_nonneg_right f2 (sq_nonneg _)
      _ = _ := by ring
  calc (1 + ‖z‖ ^ 2) * ∑ i, w i * ‖e' i‖ ^ 2 = ∑ i, w i * ((1 + ‖z‖ ^ 2) * ‖e' i‖ ^ 2) := by
        rw [mul_sum]; exact sum_congr rfl fun i _ => by ring
    _ ≤ ∑ i, w i * (‖z‖ ^ 2 * ((x i * (derivative P).eval (x i)) ^ 2 + (x i * (derivative R).eval (x i)) ^ 2)) :=
        sum_le_sum fun i _ => mul_le_mul_of_nonneg_left (key i) (hw i)
    _ = ‖z‖ ^ 2 * (∑ i, w i * (x i * (derivative P).eval (x i)) ^ 2 + ∑ i, w i * (x i * (derivative R).eval (x i)) ^ 2) := by
        rw [← sum_add_distrib, mul_sum]; exact sum_congr rfl fun i _ => by ring
    _ ≤ ‖z‖ ^ 2 * (∑ i, w i * (e i).re ^ 2 + ∑ i, w i * (e i).im ^ 2) := mul_le_mul_of_nonneg_left (add_le_add h1 h2) (sq_nonneg _)
    _ = ‖z‖ ^ 2 * ∑ i, w i * ‖e i‖ ^ 2 := by
        rw [← sum_add_distrib]
        congr 1
        exact sum_congr rfl fun i _ => by rw [norm_sq_re_im]; ring

/-- Values at the nodes against the discrete mean square. -/
theorem node_le_mean (hM : 0 < M) (hc : Function.Injective x) (hx0 : ∀ i, 0 ≤ x i) (hx1 : ∀ i, x i ≤ 1)
    (hup : QuadUpper x w (2 * M - 2))
    (hA : ∀ f : ℝ[X], f.degree < M → ∀ i, ∑ j, A i j * f.eval (x j) = polyInt f 0 (x i)) (e : Fin M → ℂ) (i : Fin M) :
    ‖e i‖ ^ 2 ≤ (M:ℝ) ^ 2 * ∑ i, w i * ‖e i‖ ^ 2 := by
  have key : ∀ v : Fin M → ℝ, v i ^ 2 ≤ (M:ℝ) ^ 2 * ∑ i, w i * v i ^ 2 := fun v => by
    obtain ⟨U, -, -, -, -, hUd, hUv, -⟩ := exists_stage_poly hM hc hA v
    have h1 := sq_le_polyInt (n := M) (p := derivative U) (by omega) (hx0 i) (hx1 i)
    have hd : (derivative U ^ 2).natDegree ≤ 2 * M - 2 := by
      rw [sq]
      exact (natDegree_mul_le_of_le hUd hUd).trans (by omega)
    have hcf : 0 ≤ (derivative U ^ 2).coeff (2 * M - 2) := by
      rw [sq, show 2 * M - 2 = (M - 1) + (M - 1) by omega, coeff_mul_add_eq_of_natDegree_le hUd hUd]
      exact mul_self_nonneg _
    have h2 := hup _ hd hcf
    simp only [eval_pow, hUv] at h1 h2
    exact h1.trans (mul_le_mul_of_nonneg_left h2 (by positivity))
  have h1 := key fun i => (e i).re
  have h2 := key fun i => (e i).im
  rw [norm_sq_re_im]
  have : ∑ i, w i * ‖e i‖ ^ 2 = ∑ i, w i * (e i).re ^ 2 + ∑ i, w i * (e i).im ^ 2 := by
    rw [← sum_add_distrib]
    exact sum_congr rfl fun i _ => by rw [norm_sq_re_im]; ring
  rw [this, mul_add]
  exact add_le_add h1 h2

/-- The discrete mean square as a norm. -/
noncomputable def meanNorm (w : Fin M → ℝ) (e : Fin M → ℂ) : ℝ := √(∑ i, w i * ‖e i‖ ^ 2)

theorem meanNorm_sq (hw : ∀ i, 0 ≤ w i) (e : Fin M → ℂ) : meanNorm w e ^ 2 = ∑ i, w i * ‖e i‖ ^ 2 :=
  Real.sq_sqrt (sum_nonneg fun i _ => mul_nonneg (hw i) (sq_nonneg _))

theorem meanNorm_nonneg (e : Fin M → ℂ) : 0 ≤ meanNorm w e := Real.sqrt_nonneg _

theorem meanNorm_add_le (hw : ∀ i, 0 ≤ w i) (e f : Fin M → ℂ) : meanNorm w (e + f) ≤ meanNorm w e + meanNorm w f := by
  have key : ∀ e : Fin M → ℂ, meanNorm w e = ‖(WithLp.toLp 2 fun i => (√(w i) : ℂ) * e i : EuclideanSpace ℂ (Fin M))‖ := fun e => by
    rw [EuclideanSpace.norm_eq, meanNorm]
    congr 1
    refine sum_congr rfl fun i _ => ?_
    simp only [norm_mul, Complex.norm_real, mul_pow, Real.norm_eq_abs, sq_abs, Real.sq_sqrt (hw i)]
  rw [key, key, key]
  refine le_trans (le_of_eq ?_) (norm_add_le _ _)
  congr 1
  ext i
  simp [mul_add]

theorem sum_le_meanNorm (hw : ∀ i, 0 ≤ w i) (hw1 : ∑ i, w i = 1) (e : Fin M → ℂ) : ‖∑ i, (w i : ℂ) * e i‖ ≤ meanNorm w e := by
  refine (norm_sum_le _ _).trans (Real.le_sqrt_of_sq_le ?_)
  have := sum_mul_sq_le_sq_mul_sq univ (fun i => √(w i)) (fun i => √(w i) * ‖e i‖)
  have e1 : ∀ i, √(w i) * (√(w i) * ‖e i‖) = ‖(w i : ℂ) * e i‖ := fun i => by
    rw [← mul_assoc, Real.mul_self_sqrt (hw i), norm_mul, Complex.norm_real, Real.norm_of_nonneg (hw i)]
  simp only [e1, mul_pow, Real.sq_sqrt (hw _), hw1, one_mul] at this
  exact this

end QMat
