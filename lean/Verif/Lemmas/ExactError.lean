import Verif.Lemmas.Stiff
import Mathlib.Analysis.SpecialFunctions.ExpDeriv
import Mathlib.Analysis.SpecialFunctions.Integrals.Basic
import Mathlib.MeasureTheory.Integral.IntervalIntegral.FundThmCalculus
import Mathlib.Analysis.Complex.ExponentialBounds
import Mathlib.Topology.Algebra.Polynomial

/-!
# The error of one collocation step, with an explicit constant

With `ω` the node polynomial and `D(t) = ∑ z⁻ᵏ ω⁽ᵏ⁾(t)`, a step of collocation is `R(z) = D(1) / D(0)` and
`(R(z) - exp z) D(0) = -z ∫ exp(z (1 - t)) ω(t) dt`.
-/

namespace QMat

open Polynomial Spec Finset

variable {M : ℕ}

/-- Coefficients of a polynomial with roots in `[0, 1]`. -/
theorem nodal_coeff_le {x : Fin M → ℝ} (h0 : ∀ i, 0 ≤ x i) (h1 : ∀ i, x i ≤ 1) (k : ℕ) :
    |(Lagrange.nodal univ x).coeff k| ≤ M.choose k := by
  have hm : (Lagrange.nodal univ x).Monic := Lagrange.nodal_monic
  have hd : (Lagrange.nodal univ x).natDegree = M := by
    rw [Lagrange.natDegree_nodal]; simp
  have h := coeff_le_of_roots_le (p := Lagrange.nodal univ x) (f := RingHom.id ℝ) (B := 1) k hm
    (by rw [Polynomial.map_id, Lagrange.nodal]; exact Splits.prod fun i _ => Splits.X_sub_C _)
    (by
      rw [Polynomial.map_id]
      intro y hy
      have := (mem_roots'.1 hy).2
      rw [IsRoot.def, Lagrange.eval_nodal, prod_eq_zero_iff] at this
      obtain ⟨i, -, hi⟩ := this
      have : y = x i := by linarith
      rw [this, Real.norm_eq_abs, abs_of_nonneg (h0 i)]
      exact h1 i)
  rw [Polynomial.map_id, hd, one_pow, one_mul, Real.norm_eq_abs] at h
  exact h

/-- Derivatives of the node polynomial at the left end. -/
theorem nodal_derivative_le {x : Fin M → ℝ} (h0 : ∀ i, 0 ≤ x i) (h1 : ∀ i, x i ≤ 1) {k : ℕ} (hk : k ≤ M) :
    |(derivative^[k] (Lagrange.nodal univ x)).eval 0| ≤ M.factorial / (M - k).factorial := by
  rw [← coeff_zero_eq_eval_zero, coeff_iterate_derivative, zero_add, Nat.descFactorial_self, nsmul_eq_mul, abs_mul, Nat.abs_cast]
  refine (mul_le_mul_of_nonneg_left (nodal_coeff_le h0 h1 k) (by positivity)).trans ?_
  rw [le_div_iff₀ (by positivity)]
  have := Nat.choose_mul_factorial_mul_factorial hk
  have h2 : (M.choose k : ℝ) * k.factorial * (M - k).factorial = M.factorial := by exact_mod_cast this
  linarith

/-- The node polynomial on `[0, 1]`. -/
theorem nodal_abs_le_one {x : Fin M → ℝ} (h0 : ∀ i, 0 ≤ x i) (h1 : ∀ i, x i ≤ 1) {t : ℝ} (ht0 : 0 ≤ t) (ht1 : t ≤ 1) :
    |(Lagrange.nodal univ x).eval t| ≤ 1 := by
  rw [Lagrange.eval_nodal, Finset.abs_prod]
  refine Finset.prod_le_one (fun _ _ => abs_nonneg _) fun i _ => abs_le.2 ⟨?_, ?_⟩
  · linarith [h1 i]
  · linarith [h0 i]

/-- The sum at the left end, scaled. -/
theorem stiffSum_lower {x : Fin M → ℝ} (h0 : ∀ i, 0 ≤ x i) (h1 : ∀ i, x i ≤ 1) {z : ℂ} (hz : z ≠ 0) :
    M.factorial * (2 - Real.exp ‖z‖) ≤ ‖z ^ M * stiffSum x 0 z⁻¹‖ := by
  have e : z ^ M * stiffSum x 0 z⁻¹ = M.factorial +
      ∑ k ∈ range M, z ^ (M - k) * (((derivative^[k] (Lagrange.nodal univ x)).eval 0 : ℝ) : ℂ) := by
    unfold stiffSum
    rw [mul_sum, sum_range_succ, add_comm]
    congr 1
    · have hd : (Lagrange.nodal univ x).natDegree = M := by
        rw [Lagrange.natDegree_nodal]; simp
      have hm : (Lagrange.nodal univ x).coeff M = 1 := by
        have : (Lagrange.nodal univ x).Monic := Lagrange.nodal_monic
        rw [Monic, leadingCoeff, hd] at this
        exact this
      rw [← coeff_zero_eq_eval_zero, coeff_iterate_derivative, zero_add, Nat.descFactorial_self, nsmul_eq_mul, hm, mul_one, ← mul_assoc,
        ← mul_pow, mul_inv_cancel₀ hz, one_pow, one_mul]
      simp
    · refine sum_congr rfl fun k hk => ?_
      have hk' := mem_range.1 hk
      rw [← mul_assoc]
      congr 1
      rw [inv_pow, pow_sub₀ _ hz hk'.le]
  have hs : ‖∑ k ∈ range M, z ^ (M - k) * (((derivative^[k] (Lagrange.nodal univ x)).eval 0 : ℝ) : ℂ)‖ ≤
      M.factorial * (Real.exp ‖z‖ - 1) := by
    refine (norm_sum_le _ _).trans ?_
    calc _ ≤ ∑ k ∈ range M, M.factorial * (‖z‖ ^ (M - k) / (M - k).factorial) := sum_le_sum fun k hk => by
          rw [norm_mul, norm_pow, Complex.norm_real, Real.norm_eq_abs]
          refine (mul_le_mul_of_nonneg_left (nodal_derivative_le h0 h1 (mem_range.1 hk).le) (by positivity)).trans (le_of_eq ?_)
          ring
      _ = M.factorial * ∑ j ∈ range M, ‖z‖ ^ (j + 1) / (j + 1).factorial := by
          rw [← mul_sum]
          congr 1
          rw [← sum_range_reflect]
          refine sum_congr rfl fun k hk => ?_
          have := mem_range.1 hk
          rw [show M - (M - 1 - k) = k + 1 by omega]
      _ ≤ M.factorial * (Real.exp ‖z‖ - 1) := by
          refine mul_le_mul_of_nonneg_left ?_ (by positivity)
          have := Real.sum_le_exp_of_nonneg (norm_nonneg z) (M + 1)
          rw [sum_range_succ'] at this
          simp only [pow_zero, Nat.factorial_zero, Nat.cast_one, div_one] at this
          linarith
  rw [e]
  have h3 := norm_sub_norm_le ((M.factorial : ℂ)) (-∑ k ∈ range M, z ^ (M - k) * (((derivative^[k] (Lagrange.nodal univ x)).eval 0 : ℝ) : ℂ))
  rw [sub_neg_eq_add, norm_neg, Complex.norm_natCast] at h3
  linarith

/-- The two sums and the exponential function. -/
theorem stiffSum_exp (x : Fin M → ℝ) {z : ℂ} (hz : z ≠ 0) :
    stiffSum x 1 z⁻¹ - Complex.exp z * stiffSum x 0 z⁻¹ =
      -z * ∫ t in (0:ℝ)..1, Complex.exp (z * (1 - t)) * (((Lagrange.nodal univ x).eval t : ℝ) : ℂ) := by
  set w := Lagrange.nodal univ x with hw
  have hd : w.natDegree = M := by rw [hw, Lagrange.natDegree_nodal]; simp
  have hS : ∀ t : ℝ, HasDerivAt (fun t => stiffSum x t z⁻¹) (z * (stiffSum x t z⁻¹ - ((w.eval t : ℝ) : ℂ))) t := fun t => by
    have h1 : HasDerivAt (fun t => stiffSum x t z⁻¹) (∑ k ∈ range (M + 1), z⁻¹ ^ k * (((derivative^[k + 1] w).eval t : ℝ) : ℂ)) t := by
      unfold stiffSum
      refine HasDerivAt.fun_sum fun k _ => ?_
      rw [Function.iterate_succ_apply']
      exact ((derivative^[k] w).hasDerivAt t).ofReal_comp.const_mul _
    convert h1 using 1
    have e : stiffSum x t z⁻¹ = ∑ k ∈ range (M + 2), z⁻¹ ^ k * (((derivative^[k] w).eval t : ℝ) : ℂ) := by
      rw [sum_range_succ, iterate_derivative_eq_zero (by omega)]
      simp [stiffSum, hw]
    rw [e, sum_range_succ']
    simp only [pow_zero, Function.iterate_zero, id_eq, one_mul, add_sub_cancel_right, mul_sum]
    refine sum_congr rfl fun k _ => ?_
    rw [pow_succ', ← mul_assoc, ← mul_assoc, mul_inv_cancel₀ hz, one_mul]
  have hf : ∀ t ∈ Set.uIcc (0:ℝ) 1, HasDerivAt (fun t : ℝ => Complex.exp (z * (1 - t)) * stiffSum x t z⁻¹)
      (-z * (Complex.exp (z * (1 - t)) * ((w.eval t : ℝ) : ℂ))) t := fun t _ => by
    have h1 : HasDerivAt (fun t : ℝ => z * (1 - (t:ℂ))) (-z) t := by
      have := ((Complex.ofRealCLM.hasDerivAt (x := t)).const_sub 1).const_mul z
      simpa using this
    exact (h1.cexp.fun_mul (hS t)).congr_deriv (by ring)
  have hint := intervalIntegral.integral_eq_sub_of_hasDerivAt hf (by
    refine Continuous.intervalIntegrable ?_ _ _
    fun_prop)
  rw [intervalIntegral.integral_const_mul] at hint
  rw [hint]
  simp

/-- Orthogonality of the node polynomial removes the low powers of the exponential function. -/
theorem exp_nodal_bound {x : Fin M → ℝ} (h0 : ∀ i, 0 ≤ x i) (h1 : ∀ i, x i ≤ 1) {r : ℕ}
    (horth : ∀ q : ℝ[X], q.degree < r → ∫ t in (0:ℝ)..1, (q * Lagrange.nodal univ x).eval t = 0) {z : ℂ} (hz : ‖z‖ ≤ 1 / 2) :
    ‖∫ t in (0:ℝ)..1, Complex.exp (z * (1 - t)) * (((Lagrange.nodal univ x).eval t : ℝ) : ℂ)‖ ≤ ‖z‖ ^ r / r.factorial * 2 := by
  set w := Lagrange.nodal univ x with hw
  have hlow : ∫ t in (0:ℝ)..1, (∑ k ∈ range r, (z * (1 - t)) ^ k / k.factorial) * ((w.eval t : ℝ) : ℂ) = 0 := by
    have e : ∀ t : ℝ, (∑ k ∈ range r, (z * (1 - t)) ^ k / k.factorial) * ((w.eval t : ℝ) : ℂ) =
        ∑ k ∈ range r, (z ^ k / k.factorial) * ((((1 - X) ^ k * w).eval t : ℝ) : ℂ) := fun t => by
      rw [sum_mul]
      refine sum_congr rfl fun k _ => ?_
      simp only [eval_mul, eval_pow, eval_sub, eval_one, eval_X]
      push_cast
      rw [mul_pow]
      ring
    simp only [e]
    rw [intervalIntegral.integral_finsetSum fun k _ => by
      refine Continuous.intervalIntegrable ?_ _ _
      fun_prop]
    refine sum_eq_zero fun k hk => ?_
    rw [intervalIntegral.integral_const_mul, intervalIntegral.integral_ofReal, horth, Complex.ofReal_zero, mul_zero]
    refine lt_of_le_of_lt degree_le_natDegree ?_
    have : ((1 - X : ℝ[X]) ^ k).natDegree ≤ k := by
      refine natDegree_pow_le.trans ?_
      have : (1 - X : ℝ[X]).natDegree ≤ 1 := (natDegree_sub_le _ _).trans (by simp)
      nlinarith
    exact_mod_cast lt_of_le_of_lt this (mem_range.1 hk)
  have e2 : ∫ t in (0:ℝ)..1, Complex.exp (z * (1 - t)) * ((w.eval t : ℝ) : ℂ) =
      ∫ t in (0:ℝ)..1, (Complex.exp (z * (1 - t)) - ∑ k ∈ range r, (z * (1 - t)) ^ k / k.factorial) * ((w.eval t : ℝ) : ℂ) := by
    simp only [sub_mul]
    rw [intervalIntegral.integral_sub, hlow, sub_zero]
    · refine Continuous.intervalIntegrable ?_ _ _
      fun_prop
    · refine Continuous.intervalIntegrable ?_ _ _
      fun_prop
  rw [e2]
  have := intervalIntegral.norm_integral_le_of_norm_le_const (a := (0:ℝ)) (b := 1) (C := ‖z‖ ^ r / r.factorial * 2)
    (f := fun t : ℝ => (Complex.exp (z * (1 - t)) - ∑ k ∈ range r, (z * (1 - t)) ^ k / k.factorial) * ((w.eval t : ℝ) : ℂ)) (fun t ht => by
      rw [Set.uIoc_of_le zero_le_one] at ht
      have hn : ‖z * (1 - (t:ℂ))‖ ≤ ‖z‖ := by
        rw [norm_mul, show (1 - (t:ℂ)) = ((1 - t : ℝ) : ℂ) by push_cast; ring, Complex.norm_real, Real.norm_eq_abs,
          abs_of_nonneg (by linarith [ht.2])]
        exact mul_le_of_le_one_right (norm_nonneg _) (by linarith [ht.1])
      have hb := Complex.exp_bound' (x := z * (1 - (t:ℂ))) (n := r) (by
        rw [div_le_iff₀ (by positivity)]
        have : (1:ℝ) ≤ (r.succ : ℕ) := by exact_mod_cast Nat.succ_le_succ (Nat.zero_le r)
        linarith)
      rw [norm_mul, Complex.norm_real, Real.norm_eq_abs]
      refine (mul_le_of_le_one_right (norm_nonneg _) (nodal_abs_le_one h0 h1 ht.1.le ht.2)).trans (hb.trans ?_)
      gcongr)
  simpa using this

/-- The exponential function and quotients of the two sums. -/
theorem quotient_exp {x : Fin M → ℝ} (h0 : ∀ i, 0 ≤ x i) (h1 : ∀ i, x i ≤ 1) {r : ℕ}
    (horth : ∀ q : ℝ[X], q.degree < r → ∫ t in (0:ℝ)..1, (q * Lagrange.nodal univ x).eval t = 0) {z : ℂ} (hz0 : z ≠ 0) (hz : ‖z‖ ≤ 1 / 2) :
    stiffSum x 0 z⁻¹ ≠ 0 ∧ ∀ s : ℂ, s * stiffSum x 0 z⁻¹ = stiffSum x 1 z⁻¹ →
      ‖s - Complex.exp z‖ ≤ 6 * ‖z‖ ^ (M + r + 1) / (M.factorial * r.factorial) := by
  have hlow := stiffSum_lower h0 h1 hz0
  have hexp : Real.exp ‖z‖ ≤ 1.65 := by
    refine (Real.exp_le_exp.2 hz).trans ?_
    have h := Real.exp_one_lt_d9
    have h2 : Real.exp (1 / 2) ^ 2 = Real.exp 1 := by
      rw [← Real.exp_nat_mul]; norm_num
    have h3 := Real.exp_pos (1 / 2)
    nlinarith
  have hM : (0:ℝ) < M.factorial := by positivity
  have hlow' : (0.35:ℝ) * M.factorial ≤ ‖z ^ M * stiffSum x 0 z⁻¹‖ := by
    refine le_trans ?_ hlow
    nlinarith
  refine ⟨fun h => ?_, fun s hs => ?_⟩
  · rw [h, mul_zero, norm_zero] at hlow'
    linarith
  · have he := stiffSum_exp x hz0
    rw [← hs, ← sub_mul] at he
    have hn : ‖s - Complex.exp z‖ * ‖z ^ M * stiffSum x 0 z⁻¹‖ ≤ ‖z‖ ^ (M + 1) * (‖z‖ ^ r / r.factorial * 2) := by
      rw [← norm_mul, show (s - Complex.exp z) * (z ^ M * stiffSum x 0 z⁻¹) = z ^ M * ((s - Complex.exp z) * stiffSum x 0 z⁻¹) by ring, he,
        norm_mul, norm_mul, norm_neg, norm_pow, ← mul_assoc, ← pow_succ]
      exact mul_le_mul_of_nonneg_left (exp_nodal_bound h0 h1 horth hz) (by positivity)
    have h4 := mul_le_mul_of_nonneg_left hlow' (norm_nonneg (s - Complex.exp z))
    have hr : (0:ℝ) < r.factorial := by positivity
    rw [le_div_iff₀ (by positivity)]
    have h5 : ‖z‖ ^ (M + 1) * (‖z‖ ^ r / r.factorial * 2) * r.factorial = 2 * ‖z‖ ^ (M + r + 1) := by
      rw [show M + r + 1 = (M + 1) + r by ring, pow_add _ (M + 1) r]
      field_simp
    have h6 := mul_le_mul_of_nonneg_right (h4.trans hn) hr.le
    rw [h5] at h6
    have h7 : 0 ≤ ‖z‖ ^ (M + r + 1) := by positivity
    have h8 : ‖s - Complex.exp z‖ * (M.factorial * r.factorial) = (‖s - Complex.exp z‖ * (0.35 * M.factorial) * r.factorial) / 0.35 := by ring
    rw [h8, div_le_iff₀ (by norm_num)]
    linarith

end QMat
