import Verif.Spec.Pade
import Mathlib.Analysis.Complex.Polynomial.Basic
import Mathlib.Analysis.SpecialFunctions.Integrals.Basic
import Mathlib.Analysis.SpecialFunctions.ExpDeriv
import Mathlib.Algebra.Polynomial.Splits
import Mathlib.Algebra.Polynomial.Derivative
import Mathlib.MeasureTheory.Integral.IntervalIntegral.FundThmCalculus

/-!
# The remainder of the Padé approximations of the exponential function

`padeNum b a (-z) * exp z - padeNum a b z` is an integral, and the modulus of the denominator on the imaginary axis is a polynomial in the
square of the imaginary part, with coefficients that are not negative.
-/

namespace QMat

open Polynomial Spec Finset intervalIntegral MeasureTheory

/-! ## The integral -/

/-- The integral in the remainder. -/
noncomputable def padeInt (z : ℂ) (a b : ℕ) : ℂ := ∫ t in (0:ℝ)..1, Complex.exp (z * (1 - t)) * ((t:ℂ) ^ a * (1 - t) ^ b)

theorem padeInt_parts (z : ℂ) (f f' : ℝ → ℂ) (hf : ∀ t, HasDerivAt f (f' t) t) (hf' : Continuous f') :
    z * (∫ t in (0:ℝ)..1, Complex.exp (z * (1 - t)) * f t) = Complex.exp z * f 0 - f 1 + ∫ t in (0:ℝ)..1, Complex.exp (z * (1 - t)) * f' t := by
  have hfc : Continuous f := continuous_iff_continuousAt.2 fun t => (hf t).continuousAt
  have hE : Continuous fun t : ℝ => Complex.exp (z * (1 - t)) := by fun_prop
  have hd : ∀ t : ℝ, HasDerivAt (fun t : ℝ => Complex.exp (z * (1 - t)) * f t)
      (Complex.exp (z * (1 - t)) * f' t - z * (Complex.exp (z * (1 - t)) * f t)) t := by
    intro t
    have h1 : HasDerivAt (fun t : ℝ => z * (1 - (t:ℂ))) (z * (-1)) t := by
      have h0 : HasDerivAt (fun t : ℝ => (t:ℂ)) 1 t := Complex.ofRealCLM.hasDerivAt
      exact (h0.const_sub 1).const_mul z
    have h2 := h1.cexp.fun_mul (hf t)
    exact h2.congr_deriv (by ring)
  have c1 : Continuous fun t : ℝ => Complex.exp (z * (1 - t)) * f' t := by fun_prop
  have c2 : Continuous fun t : ℝ => z * (Complex.exp (z * (1 - t)) * f t) := by fun_prop
  have h := integral_eq_sub_of_hasDerivAt (a := (0:ℝ)) (b := 1) (fun t _ => hd t) ((c1.sub c2).intervalIntegrable 0 1)
  rw [intervalIntegral.integral_sub (c1.intervalIntegrable 0 1) (c2.intervalIntegrable 0 1),
    intervalIntegral.integral_const_mul] at h
  have e0 : Complex.exp (z * (1 - ((0:ℝ):ℂ))) = Complex.exp z := by simp
  have e1 : Complex.exp (z * (1 - ((1:ℝ):ℂ))) = 1 := by simp
  rw [e0, e1] at h
  linear_combination -h

theorem hasDerivAt_pow_ofReal (a : ℕ) (t : ℝ) : HasDerivAt (fun t : ℝ => (t:ℂ) ^ (a + 1)) ((a + 1) * (t:ℂ) ^ a) t := by
  have h0 : HasDerivAt (fun t : ℝ => (t:ℂ)) 1 t := Complex.ofRealCLM.hasDerivAt
  simpa using h0.fun_pow (a + 1)

theorem hasDerivAt_one_sub_pow (b : ℕ) (t : ℝ) : HasDerivAt (fun t : ℝ => (1 - (t:ℂ)) ^ (b + 1)) (-((b + 1) * (1 - (t:ℂ)) ^ b)) t := by
  have h0 : HasDerivAt (fun t : ℝ => (t:ℂ)) 1 t := Complex.ofRealCLM.hasDerivAt
  simpa using (h0.const_sub 1).fun_pow (b + 1)

theorem padeInt_zero_succ (z : ℂ) (b : ℕ) : z * padeInt z 0 (b + 1) = Complex.exp z - (b + 1) * padeInt z 0 b := by
  have h := padeInt_parts z (fun t => (1 - (t:ℂ)) ^ (b + 1)) _ (hasDerivAt_one_sub_pow b) (by fun_prop)
  unfold padeInt
  simp only [pow_zero, one_mul]
  rw [h, ← intervalIntegral.integral_const_mul]
  have : (fun t : ℝ => Complex.exp (z * (1 - t)) * -((b + 1) * (1 - (t:ℂ)) ^ b)) =
      fun t : ℝ => -((b + 1 : ℂ) * (Complex.exp (z * (1 - t)) * (1 - (t:ℂ)) ^ b)) := by funext t; ring
  rw [this, intervalIntegral.integral_neg]
  simp
  ring

theorem padeInt_succ_zero (z : ℂ) (a : ℕ) : z * padeInt z (a + 1) 0 = -1 + (a + 1) * padeInt z a 0 := by
  have h := padeInt_parts z (fun t => (t:ℂ) ^ (a + 1)) _ (hasDerivAt_pow_ofReal a) (by fun_prop)
  unfold padeInt
  simp only [pow_zero, mul_one]
  rw [h, ← intervalIntegral.integral_const_mul]
  have : (fun t : ℝ => Complex.exp (z * (1 - t)) * ((a + 1) * (t:ℂ) ^ a)) =
      fun t : ℝ => (a + 1 : ℂ) * (Complex.exp (z * (1 - t)) * (t:ℂ) ^ a) := by funext t; ring
  rw [this]
  simp

theorem padeInt_succ_succ (z : ℂ) (a b : ℕ) :
    z * padeInt z (a + 1) (b + 1) = (a + 1) * padeInt z a (b + 1) - (b + 1) * padeInt z (a + 1) b := by
  have h := padeInt_parts z _ _ (fun t => (hasDerivAt_pow_ofReal a t).fun_mul (hasDerivAt_one_sub_pow b t)) (by fun_prop)
  unfold padeInt
  rw [h, ← intervalIntegral.integral_const_mul, ← intervalIntegral.integral_const_mul, ← intervalIntegral.integral_sub]
  · have : (fun t : ℝ => Complex.exp (z * (1 - t)) * ((a + 1) * (t:ℂ) ^ a * (1 - (t:ℂ)) ^ (b + 1) +
        (t:ℂ) ^ (a + 1) * -((b + 1) * (1 - (t:ℂ)) ^ b))) = fun t : ℝ => (a + 1 : ℂ) * (Complex.exp (z * (1 - t)) * ((t:ℂ) ^ a * (1 - t) ^ (b + 1))) -
        (b + 1 : ℂ) * (Complex.exp (z * (1 - t)) * ((t:ℂ) ^ (a + 1) * (1 - t) ^ b)) := by funext t; ring
    rw [this]
    simp
  · exact Continuous.intervalIntegrable (by fun_prop) 0 1
  · exact Continuous.intervalIntegrable (by fun_prop) 0 1

/-! ## The same recurrences for the numerators -/

theorem padeNum_zero_left (b : ℕ) (z : ℂ) : padeNum 0 b z = (b.factorial : ℂ) := by
  simp [padeNum]

theorem padeNum_succ_zero (a : ℕ) (z : ℂ) : padeNum (a + 1) 0 z = (a + 1) * padeNum a 0 z + z ^ (a + 1) := by
  unfold padeNum
  rw [Finset.sum_range_succ, Finset.mul_sum]
  congr 1
  · refine Finset.sum_congr rfl fun j hj => ?_
    have hj' : j ≤ a := by simpa [Nat.lt_succ_iff] using hj
    obtain ⟨i, rfl⟩ := Nat.exists_eq_add_of_le hj'
    have h3 : (i + 1) * (j + i + 1).choose j = (j + i + 1) * (j + i).choose j := by
      have := Nat.choose_mul_succ_eq (j + i) j
      have e : j + i + 1 - j = i + 1 := by omega
      rw [e] at this
      linarith
    have e1 : j + i + 1 + 0 - j = i + 1 := by omega
    have e2 : j + i + 0 - j = i := by omega
    rw [e1, e2, Nat.factorial_succ]
    have h4 : ((i + 1 : ℂ)) * ((j + i + 1).choose j : ℂ) = (j + i + 1) * ((j + i).choose j : ℂ) := by exact_mod_cast h3
    push_cast
    linear_combination (i.factorial : ℂ) * z ^ j * h4
  · simp

theorem padeNum_succ_succ (a b : ℕ) (z : ℂ) : padeNum (a + 1) (b + 1) z = (a + 1) * padeNum a (b + 1) z + (b + 1) * padeNum (a + 1) b z := by
  have hext : padeNum a (b + 1) z = ∑ j ∈ range (a + 1 + 1), ((a + (b + 1) - j).factorial * a.choose j : ℕ) * z ^ j := by
    unfold padeNum
    rw [Finset.sum_range_succ _ (a + 1), Nat.choose_succ_self]
    simp
  rw [hext]
  unfold padeNum
  rw [Finset.mul_sum, Finset.mul_sum, ← Finset.sum_add_distrib]
  refine Finset.sum_congr rfl fun j hj => ?_
  have hj' : j ≤ a + 1 := by simpa [Nat.lt_succ_iff] using hj
  have h3 : ((a + 1 - j : ℕ) : ℂ) * ((a + 1).choose j : ℂ) = (a + 1) * (a.choose j : ℂ) := by
    have := Nat.choose_mul_succ_eq a j
    have h : (a + 1 - j) * (a + 1).choose j = (a + 1) * a.choose j := by linarith
    exact_mod_cast h
  have hc : ((a + 1 - j : ℕ) : ℂ) = a + 1 - j := by rw [Nat.cast_sub hj']; push_cast; ring
  have e1 : a + 1 + (b + 1) - j = (a + b + 1 - j) + 1 := by omega
  have e2 : a + (b + 1) - j = a + b + 1 - j := by omega
  have e3 : a + 1 + b - j = a + b + 1 - j := by omega
  have hc2 : ((a + b + 1 - j : ℕ) : ℂ) = a + b + 1 - j := by rw [Nat.cast_sub (by omega)]; push_cast; ring
  rw [e1, e2, e3, Nat.factorial_succ]
  push_cast
  rw [hc2]
  rw [hc] at h3
  linear_combination ((a + b + 1 - j).factorial : ℂ) * z ^ j * h3

/-- The remainder. -/
theorem pade_remainder (z : ℂ) : ∀ a b : ℕ,
    Complex.exp z * padeNum b a (-z) - padeNum a b z = (-1) ^ b * z ^ (a + b + 1) * padeInt z a b := by
  intro a
  induction a with
  | zero =>
    intro b
    induction b with
    | zero =>
      have h := padeInt_parts z (fun _ => 1) (fun _ => 0) (fun t => hasDerivAt_const _ _) continuous_const
      simp only [mul_one, mul_zero, intervalIntegral.integral_zero, add_zero] at h
      simp [padeNum_zero_left, padeInt, h]
    | succ b ih =>
      rw [padeNum_zero_left] at ih ⊢
      rw [padeNum_succ_zero, Nat.factorial_succ]
      have h := padeInt_zero_succ z b
      push_cast
      rw [neg_pow z (b + 1)]
      simp only [Nat.zero_add] at ih ⊢
      linear_combination (b + 1 : ℂ) * ih - (-1) ^ (b + 1) * z ^ (b + 1) * h
  | succ a iha =>
    intro b
    induction b with
    | zero =>
      have ih := iha 0
      rw [padeNum_zero_left] at ih ⊢
      rw [padeNum_succ_zero, Nat.factorial_succ]
      have h := padeInt_succ_zero z a
      push_cast
      simp only [Nat.add_zero, pow_zero, one_mul] at ih ⊢
      linear_combination (a + 1 : ℂ) * ih - z ^ (a + 1) * h
    | succ b ihb =>
      have h1 := iha (b + 1)
      have h := padeInt_succ_succ z a b
      rw [padeNum_succ_succ, padeNum_succ_succ]
      have e1 : a + 1 + (b + 1) + 1 = a + b + 3 := by omega
      have e2 : a + (b + 1) + 1 = a + b + 2 := by omega
      have e3 : a + 1 + b + 1 = a + b + 2 := by omega
      rw [e1]
      rw [e2] at h1
      rw [e3] at ihb
      linear_combination (a + 1 : ℂ) * h1 + (b + 1 : ℂ) * ihb - (-1) ^ (b + 1) * z ^ (a + b + 2) * h

/-! ## The size of the integral -/

theorem beta_nat (b : ℕ) : ∀ a : ℕ, ∫ t in (0:ℝ)..1, t ^ a * (1 - t) ^ b = (a.factorial * b.factorial : ℝ) / (a + b + 1).factorial := by
  induction b with
  | zero =>
    intro a
    simp only [pow_zero, mul_one, Nat.factorial_zero, Nat.cast_one, Nat.add_zero]
    rw [integral_pow, Nat.factorial_succ]
    have : (a.factorial : ℝ) ≠ 0 := by positivity
    push_cast
    field_simp
    simp
  | succ b ih =>
    intro a
    have hd : ∀ t : ℝ, HasDerivAt (fun t : ℝ => t ^ (a + 1) * (1 - t) ^ (b + 1))
        ((a + 1) * (t ^ a * (1 - t) ^ (b + 1)) - (b + 1) * (t ^ (a + 1) * (1 - t) ^ b)) t := by
      intro t
      have h1 : HasDerivAt (fun t : ℝ => t ^ (a + 1)) ((a + 1) * t ^ a) t := by simpa using hasDerivAt_pow (a + 1) t
      have h2 : HasDerivAt (fun t : ℝ => (1 - t) ^ (b + 1)) (-((b + 1) * (1 - t) ^ b)) t := by
        simpa using ((hasDerivAt_id t).const_sub 1).fun_pow (b + 1)
      exact (h1.fun_mul h2).congr_deriv (by ring)
    have h := integral_eq_sub_of_hasDerivAt (a := (0:ℝ)) (b := 1) (fun t _ => hd t) (Continuous.intervalIntegrable (by fun_prop) 0 1)
    rw [intervalIntegral.integral_sub (Continuous.intervalIntegrable (by fun_prop) 0 1) (Continuous.intervalIntegrable (by fun_prop) 0 1),
      intervalIntegral.integral_const_mul, intervalIntegral.integral_const_mul, ih (a + 1)] at h
    simp only [one_pow, sub_self, ne_eq, Nat.add_eq_zero_iff, one_ne_zero, and_false, not_false_eq_true, zero_pow, mul_zero, zero_mul] at h
    have e : a + 1 + b + 1 = a + (b + 1) + 1 := by omega
    have ha : (a:ℝ) + 1 ≠ 0 := by positivity
    rw [e, Nat.factorial_succ a] at h
    rw [Nat.factorial_succ b]
    have hx : (∫ t in (0:ℝ)..1, t ^ a * (1 - t) ^ (b + 1)) * (a + 1) = (b + 1) * (((a + 1) * a.factorial * b.factorial : ℝ) / (a + (b + 1) + 1).factorial) := by
      push_cast at h
      linarith
    rw [← mul_left_inj' ha, hx]
    push_cast
    ring

theorem norm_padeInt_le {z : ℂ} (hz : z.re ≤ 0) (a b : ℕ) : ‖padeInt z a b‖ ≤ (a.factorial * b.factorial : ℝ) / (a + b + 1).factorial := by
  rw [← beta_nat]
  unfold padeInt
  refine intervalIntegral.norm_integral_le_of_norm_le zero_le_one ?_ (Continuous.intervalIntegrable (by fun_prop) 0 1)
  refine Filter.Eventually.of_forall fun t ht => ?_
  have ht0 : 0 ≤ t := ht.1.le
  have ht1 : 0 ≤ 1 - t := by linarith [ht.2]
  rw [norm_mul, norm_mul, norm_pow, norm_pow, Complex.norm_exp, Complex.norm_real, Real.norm_of_nonneg ht0]
  have e : ‖(1:ℂ) - t‖ = 1 - t := by
    rw [← Complex.ofReal_one, ← Complex.ofReal_sub, Complex.norm_real, Real.norm_of_nonneg ht1]
  have hre : (z * (1 - (t:ℂ))).re = z.re * (1 - t) := by simp
  rw [e, hre]
  have : Real.exp (z.re * (1 - t)) ≤ 1 := Real.exp_le_one_iff.2 (mul_nonpos_of_nonpos_of_nonneg hz ht1)
  exact mul_le_of_le_one_left (by positivity) this

/-! ## The denominator -/

/-- The denominator as a polynomial with real coefficients. -/
noncomputable def padeDen (a b : ℕ) : ℝ[X] := ∑ j ∈ range (b + 1), C ((-1) ^ j * ((b + a - j).factorial * b.choose j : ℕ) : ℝ) * X ^ j

theorem padeDen_coeff (a b j : ℕ) : (padeDen a b).coeff j = (-1) ^ j * ((b + a - j).factorial * b.choose j : ℕ) := by
  unfold padeDen
  simp only [finsetSum_coeff, coeff_C_mul, coeff_X_pow, mul_ite, mul_one, mul_zero]
  rw [Finset.sum_ite_eq]
  split_ifs with h
  · rfl
  · rw [Nat.choose_eq_zero_of_lt (by simpa using h)]; simp

theorem padeDen_eval (a b : ℕ) (z : ℂ) : ((padeDen a b).map Complex.ofRealHom).eval z = padeNum b a (-z) := by
  unfold padeDen padeNum
  rw [Polynomial.map_sum, eval_finsetSum]
  refine Finset.sum_congr rfl fun j _ => ?_
  simp only [Polynomial.map_mul, map_C, Polynomial.map_pow, map_X, eval_mul, eval_C, eval_pow, eval_X, Complex.ofRealHom_eq_coe]
  rw [neg_pow z j]
  push_cast
  ring

theorem padeDen_natDegree (a b : ℕ) : (padeDen a b).natDegree ≤ b := by
  rw [natDegree_le_iff_coeff_eq_zero]
  intro j hj
  rw [padeDen_coeff, Nat.choose_eq_zero_of_lt hj]; simp

theorem padeDen_rec (a b j : ℕ) : (padeDen a b).coeff (j + 1) * (j + 1) * ((a + b : ℝ) - j) = -((b - j : ℝ) * (padeDen a b).coeff j) := by
  rw [padeDen_coeff, padeDen_coeff]
  rcases lt_trichotomy j b with h | h | h
  · obtain ⟨i, rfl⟩ := Nat.exists_eq_add_of_lt h
    have e1 : j + i + 1 + a - (j + 1) = i + a := by omega
    have e2 : j + i + 1 + a - j = i + a + 1 := by omega
    rw [e1, e2, Nat.factorial_succ]
    have h3 : ((j + i + 1).choose (j + 1) : ℝ) * (j + 1) = (j + i + 1).choose j * (i + 1) := by
      have := Nat.choose_succ_right_eq (j + i + 1) j
      rw [show j + i + 1 - j = i + 1 by omega] at this
      exact_mod_cast this
    push_cast
    rw [pow_succ]
    linear_combination (-(-1 : ℝ) ^ j * ((i + a).factorial : ℝ) * (a + i + 1)) * h3
  · subst h
    rw [Nat.choose_succ_self]
    simp
  · rw [Nat.choose_eq_zero_of_lt h, Nat.choose_eq_zero_of_lt (by omega)]
    simp

theorem coeff_X_mul_derivative (p : ℝ[X]) (i : ℕ) : (X * derivative p).coeff i = i * p.coeff i := by
  cases i with
  | zero => simp
  | succ i => rw [coeff_X_mul, coeff_derivative]; push_cast; ring

/-- The differential equation of the denominator. -/
theorem padeDen_ode (a b : ℕ) : X * derivative (derivative (padeDen a b)) =
    C (a + b : ℝ) * derivative (padeDen a b) - X * derivative (padeDen a b) + C (b : ℝ) * padeDen a b := by
  ext i
  rw [coeff_add, coeff_sub, coeff_X_mul_derivative, coeff_X_mul_derivative, coeff_C_mul, coeff_C_mul, coeff_derivative]
  have h := padeDen_rec a b i
  linear_combination -h

/-- The mirrored denominator. -/
theorem padeDen_comp_ode (a b : ℕ) : X * derivative (derivative ((padeDen a b).comp (-X))) =
    C (a + b : ℝ) * derivative ((padeDen a b).comp (-X)) + X * derivative ((padeDen a b).comp (-X)) - C (b : ℝ) * (padeDen a b).comp (-X) := by
  have h := congrArg (fun p : ℝ[X] => p.comp (-X)) (padeDen_ode a b)
  simp only [mul_comp, X_comp, add_comp, sub_comp, C_comp] at h
  have d1 : derivative ((padeDen a b).comp (-X)) = -(derivative (padeDen a b)).comp (-X) := by
    rw [derivative_comp]; simp
  have d2 : derivative (derivative ((padeDen a b).comp (-X))) = (derivative (derivative (padeDen a b))).comp (-X) := by
    rw [d1, derivative_neg, derivative_comp]; simp
  rw [d2, d1]
  linear_combination -h

/-- The product of the denominator and its mirror image. -/
noncomputable def padeSquare (a b : ℕ) : ℝ[X] := padeDen a b * (padeDen a b).comp (-X)

theorem padeSquare_rec (a b k : ℕ) :
    ((a + b : ℝ) - k) * (k + 1) * ((a + b : ℝ) - 2 * k - 1) * ((a + b : ℝ) - 2 * k) * (padeSquare a b).coeff (2 * (k + 1)) =
      -((a - k : ℝ) * (b - k) * (padeSquare a b).coeff (2 * k)) := by
  set u := padeDen a b with hu
  set v := u.comp (-X) with hv
  have hou := padeDen_ode a b
  have hov := padeDen_comp_ode a b
  rw [← hu] at hou
  rw [← hu, ← hv] at hov
  set W := derivative u * v - u * derivative v with hW
  set K := derivative u * derivative v with hK
  have hP : padeSquare a b = u * v := rfl
  set P := padeSquare a b with hPd
  have hP1 : derivative P = derivative u * v + u * derivative v := by rw [hP, derivative_mul]
  have h1 : X * derivative (derivative P) = C (a + b : ℝ) * derivative P - X * W + C 2 * (X * K) := by
    rw [hP1, derivative_add, derivative_mul, derivative_mul, hW, hK]
    have : (C 2 : ℝ[X]) = 2 := map_ofNat C 2
    rw [this]
    linear_combination v * hou + u * hov
  have h2 : X * derivative W = C (a + b : ℝ) * W - X * derivative P + C (2 * b : ℝ) * P := by
    rw [hP1, hP, hW, derivative_sub, derivative_mul, derivative_mul]
    have : (C (2 * b : ℝ) : ℝ[X]) = 2 * C (b : ℝ) := by rw [C_mul, map_ofNat C 2]
    rw [this]
    linear_combination v * hou - u * hov
  have h3 : X * derivative K = C (2 * (a + b) : ℝ) * K - C (b : ℝ) * W := by
    rw [hK, hW, derivative_mul]
    have : (C (2 * (a + b) : ℝ) : ℝ[X]) = 2 * C (a + b : ℝ) := by rw [C_mul, map_ofNat C 2]
    rw [this]
    linear_combination derivative v * hou + derivative u * hov
  have c1 := congrArg (fun p : ℝ[X] => p.coeff (2 * k + 1)) h1
  have c2 := congrArg (fun p : ℝ[X] => p.coeff (2 * k)) h2
  have c3 := congrArg (fun p : ℝ[X] => p.coeff (2 * k)) h3
  simp only [coeff_add, coeff_sub, coeff_X_mul_derivative, coeff_C_mul, coeff_derivative, coeff_X_mul] at c1 c2 c3
  rw [show 2 * k + 1 + 1 = 2 * (k + 1) by ring] at c1
  push_cast at c1 c2 c3
  set n : ℝ := a + b with hn
  have hbn : (a : ℝ) = n - b := by rw [hn]; ring
  rw [hbn]
  linear_combination (-(n - k) * (n - 2 * k) / 2) * c1 + (-(n - k - b) / 2) * c2 + (n - 2 * k) * c3 / 2

theorem padeSquare_pos (a b : ℕ) : ∀ k, k ≤ a → k ≤ b → 0 < (-1) ^ k * (padeSquare a b).coeff (2 * k) := by
  intro k
  induction k with
  | zero =>
    intro _ _
    have : (padeSquare a b).coeff 0 = (b + a).factorial * (b + a).factorial := by
      unfold padeSquare
      rw [mul_coeff_zero, coeff_zero_eq_eval_zero ((padeDen a b).comp (-X)), eval_comp]
      simp only [eval_neg, eval_X, neg_zero]
      rw [← coeff_zero_eq_eval_zero, padeDen_coeff]
      simp
    simp only [pow_zero, one_mul, Nat.mul_zero, this]
    positivity
  | succ k ih =>
    intro ha hb
    have h0 := ih (by omega) (by omega)
    have hr := padeSquare_rec a b k
    have ha' : (k:ℝ) + 1 ≤ a := by exact_mod_cast ha
    have hb' : (k:ℝ) + 1 ≤ b := by exact_mod_cast hb
    have hk : (0:ℝ) ≤ k := by positivity
    set m := ((a + b : ℝ) - k) * (k + 1) * ((a + b : ℝ) - 2 * k - 1) * ((a + b : ℝ) - 2 * k) with hm
    have hmpos : 0 < m := by
      rw [hm]
      refine mul_pos (mul_pos (mul_pos ?_ ?_) ?_) ?_ <;> linarith
    have hlpos : 0 < (a - k : ℝ) * (b - k) := mul_pos (by linarith) (by linarith)
    have h1 : m * ((-1) ^ (k + 1) * (padeSquare a b).coeff (2 * (k + 1))) = (a - k : ℝ) * (b - k) * ((-1) ^ k * (padeSquare a b).coeff (2 * k)) := by
      rw [pow_succ]
      linear_combination (-(-1 : ℝ) ^ k) * hr
    have h2 : 0 < m * ((-1) ^ (k + 1) * (padeSquare a b).coeff (2 * (k + 1))) := by rw [h1]; exact mul_pos hlpos h0
    exact pos_of_mul_pos_right h2 hmpos.le

theorem padeSquare_top (a b : ℕ) : 0 ≤ (-1) ^ b * (padeSquare a b).coeff (2 * b) := by
  have hd : ((padeDen a b).comp (-X)).natDegree ≤ b := by
    refine natDegree_comp_le.trans ?_
    simpa using padeDen_natDegree a b
  have hc : ((padeDen a b).comp (-X)).coeff b = (-1) ^ b * (padeDen a b).coeff b := by
    rw [show (-X : ℝ[X]) = C (-1) * X by simp, comp_C_mul_X_coeff]
    ring
  have : (padeSquare a b).coeff (2 * b) = (padeDen a b).coeff b * ((-1) ^ b * (padeDen a b).coeff b) := by
    rw [two_mul, ← hc]
    exact coeff_mul_add_eq_of_natDegree_le (padeDen_natDegree a b) hd
  rw [this]
  have e : (-1 : ℝ) ^ b * ((padeDen a b).coeff b * ((-1) ^ b * (padeDen a b).coeff b)) = ((-1) ^ b * (padeDen a b).coeff b) ^ 2 := by ring
  rw [e]
  positivity

/-- On the imaginary axis the denominator is at least as large as in the origin. -/
theorem padeNum_imag (a b : ℕ) (hab : b ≤ a + 1) (y : ℝ) : ((a + b).factorial : ℝ) ≤ ‖padeNum b a (-(y * Complex.I))‖ := by
  set D := padeNum b a (-(y * Complex.I)) with hD
  have hsq : ((padeSquare a b).map Complex.ofRealHom).eval (y * Complex.I) = ((‖D‖ ^ 2 : ℝ) : ℂ) := by
    unfold padeSquare
    rw [Polynomial.map_mul, eval_mul, padeDen_eval, Polynomial.map_comp, eval_comp]
    simp only [Polynomial.map_neg, map_X, eval_neg, eval_X]
    rw [padeDen_eval, neg_neg, ← hD]
    have hconj : padeNum b a (y * Complex.I) = (starRingEnd ℂ) D := by
      rw [hD]
      unfold padeNum
      rw [map_sum]
      refine Finset.sum_congr rfl fun j _ => ?_
      simp
    rw [hconj, Complex.mul_conj, Complex.normSq_eq_norm_sq]
  have hdeg : (padeSquare a b).natDegree < 2 * b + 1 := by
    unfold padeSquare
    have hd : ((padeDen a b).comp (-X)).natDegree ≤ b := by
      refine natDegree_comp_le.trans ?_
      simpa using padeDen_natDegree a b
    have := natDegree_mul_le (p := padeDen a b) (q := (padeDen a b).comp (-X))
    have := padeDen_natDegree a b
    omega
  have hre := congrArg Complex.re hsq
  rw [eval_eq_sum_range' (lt_of_le_of_lt natDegree_map_le hdeg), Complex.re_sum, Complex.ofReal_re] at hre
  have hterm : ∀ i ∈ range (2 * b + 1), 0 ≤ (((padeSquare a b).map Complex.ofRealHom).coeff i * (y * Complex.I) ^ i).re := by
    intro i hi
    rw [coeff_map, Complex.ofRealHom_eq_coe, Complex.re_ofReal_mul, mul_pow, ← Complex.ofReal_pow, Complex.re_ofReal_mul]
    rcases Nat.even_or_odd' i with ⟨k, rfl | rfl⟩
    · have hk : k ≤ b := by simp at hi; omega
      have hI : (Complex.I ^ (2 * k)).re = (-1) ^ k := by
        rw [pow_mul, Complex.I_sq, show ((-1 : ℂ) ^ k) = (((-1 : ℝ) ^ k : ℝ) : ℂ) by push_cast; ring, Complex.ofReal_re]
      rw [hI]
      have h0 : 0 ≤ (-1) ^ k * (padeSquare a b).coeff (2 * k) := by
        rcases Nat.lt_or_ge a k with h | h
        · have : k = b := by omega
          rw [this]; exact padeSquare_top a b
        · exact (padeSquare_pos a b k h hk).le
      have hy : 0 ≤ y ^ (2 * k) := by rw [pow_mul]; positivity
      have := mul_nonneg h0 hy
      linarith
    · have hI : (Complex.I ^ (2 * k + 1)).re = 0 := by
        rw [pow_succ, pow_mul, Complex.I_sq, show ((-1 : ℂ) ^ k) = (((-1 : ℝ) ^ k : ℝ) : ℂ) by push_cast; ring, Complex.re_ofReal_mul]
        simp
      rw [hI]; simp
  have h0 := Finset.single_le_sum hterm (Finset.mem_range.2 (Nat.succ_pos (2 * b)))
  rw [hre] at h0
  have hc0 : (padeSquare a b).coeff 0 = (b + a).factorial * (b + a).factorial := by
    unfold padeSquare
    rw [mul_coeff_zero, coeff_zero_eq_eval_zero ((padeDen a b).comp (-X)), eval_comp]
    simp only [eval_neg, eval_X, neg_zero]
    rw [← coeff_zero_eq_eval_zero, padeDen_coeff]
    simp
  rw [coeff_map, hc0] at h0
  simp only [pow_zero, mul_one, Complex.ofRealHom_eq_coe, Complex.ofReal_re] at h0
  rw [← sq, Nat.add_comm b a] at h0
  exact (pow_le_pow_iff_left₀ (by positivity) (norm_nonneg _) two_ne_zero).1 h0

/-- A polynomial without zeros in the left half plane grows to the left. -/
theorem norm_eval_left {p : ℂ[X]} (hp : ∀ z : ℂ, z.re ≤ 0 → p.eval z ≠ 0) {z : ℂ} (hz : z.re ≤ 0) : ‖p.eval (z.im * Complex.I)‖ ≤ ‖p.eval z‖ := by
  have hs := IsAlgClosed.splits p
  rw [hs.eval_eq_prod_roots, hs.eval_eq_prod_roots, norm_mul, norm_mul]
  refine mul_le_mul_of_nonneg_left ?_ (norm_nonneg _)
  have hroot : ∀ r ∈ p.roots, 0 < r.re := by
    intro r hr
    by_contra h
    exact hp r (not_lt.1 h) (isRoot_of_mem_roots hr)
  have hfac : ∀ r ∈ p.roots, ‖(z.im * Complex.I : ℂ) - r‖ ≤ ‖z - r‖ := by
    intro r hr
    have h := hroot r hr
    rw [← pow_le_pow_iff_left₀ (norm_nonneg _) (norm_nonneg _) two_ne_zero, ← Complex.normSq_eq_norm_sq, ← Complex.normSq_eq_norm_sq,
      Complex.normSq_apply, Complex.normSq_apply]
    simp only [Complex.sub_re, Complex.sub_im, Complex.mul_re, Complex.mul_im, Complex.ofReal_re, Complex.ofReal_im, Complex.I_re, Complex.I_im]
    nlinarith [mul_nonneg (neg_nonneg.2 hz) h.le, sq_nonneg z.re]
  generalize p.roots = s at hfac
  clear hroot
  induction s using Multiset.induction with
  | empty => simp
  | cons r s ih =>
    rw [Multiset.map_cons, Multiset.map_cons, Multiset.prod_cons, Multiset.prod_cons, norm_mul, norm_mul]
    exact mul_le_mul (hfac r (Multiset.mem_cons_self r s)) (ih fun q hq => hfac q (Multiset.mem_cons_of_mem hq)) (norm_nonneg _) (norm_nonneg _)

/-- The denominator in the left half plane. -/
theorem padeNum_left {a b : ℕ} (hab : b ≤ a + 1) (h : ∀ z : ℂ, z.re ≤ 0 → padeNum b a (-z) ≠ 0) {z : ℂ} (hz : z.re ≤ 0) :
    ((a + b).factorial : ℝ) ≤ ‖padeNum b a (-z)‖ := by
  have h1 := norm_eval_left (p := (padeDen a b).map Complex.ofRealHom) (fun w hw => by rw [padeDen_eval]; exact h w hw) hz
  rw [padeDen_eval, padeDen_eval] at h1
  exact (padeNum_imag a b hab z.im).trans h1

/-- The error of the Padé approximations in the left half plane. -/
theorem pade_error {a b : ℕ} (hab : b ≤ a + 1) (h : ∀ z : ℂ, z.re ≤ 0 → padeNum b a (-z) ≠ 0) {z : ℂ} (hz : z.re ≤ 0) :
    ‖padeNum a b z / padeNum b a (-z) - Complex.exp z‖ ≤ (a.factorial * b.factorial : ℝ) / ((a + b).factorial * (a + b + 1).factorial) * ‖z‖ ^ (a + b + 1) := by
  have hD := h z hz
  have hl := padeNum_left hab h hz
  have e : padeNum a b z / padeNum b a (-z) - Complex.exp z = -((-1) ^ b * z ^ (a + b + 1) * padeInt z a b) / padeNum b a (-z) := by
    rw [← pade_remainder]; field_simp; ring
  rw [e, norm_div, norm_neg, norm_mul, norm_mul, norm_pow, norm_pow, norm_neg, norm_one, one_pow, one_mul]
  have hI := norm_padeInt_le hz a b
  have hf : (0:ℝ) < (a + b).factorial := by positivity
  calc ‖z‖ ^ (a + b + 1) * ‖padeInt z a b‖ / ‖padeNum b a (-z)‖
      ≤ ‖z‖ ^ (a + b + 1) * ((a.factorial * b.factorial : ℝ) / (a + b + 1).factorial) / (a + b).factorial := by
        exact div_le_div₀ (by positivity) (mul_le_mul_of_nonneg_left hI (by positivity)) hf hl
    _ = _ := by field_simp

end QMat
