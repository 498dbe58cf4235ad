import Verif.Lemmas.CollOrder
import Mathlib.MeasureTheory.Integral.IntervalIntegral.Basic
import Mathlib.Analysis.Complex.Polynomial.Basic

/-!
# Collocation polynomials on Dahlquist's equation: solvability and A-stability

The stage values of a collocation method for `u' = z u` are the values of a polynomial (here its real and its
imaginary part `U`, `V`) that satisfies the equation at the nodes; energy estimates for it with the quadrature
rule of the method give solvability and stability in the left half plane.
-/

namespace QMat

open Polynomial Spec Matrix

theorem polyInt_pos {P : ℝ[X]} (hP : P ≠ 0) {a b : ℝ} (hab : a < b) (h : ∀ t, a ≤ t → t ≤ b → 0 ≤ P.eval t) :
    0 < polyInt P a b := by
  classical
  obtain ⟨t, ht, htx⟩ : ∃ t ∈ Set.Icc a b, t ∉ (P.roots.toFinset : Set ℝ) :=
    ((Set.Icc_infinite hab).sdiff (Finset.finite_toSet _)).nonempty
  refine intervalIntegral.integral_pos hab P.continuous.continuousOn (fun s hs => h s hs.1.le hs.2) ⟨t, ht, ?_⟩
  refine lt_of_le_of_ne (h t ht.1 ht.2) fun e => htx ?_
  simp [hP, IsRoot, e.symm]

theorem polyInt_sq_nonneg (P : ℝ[X]) : 0 ≤ polyInt (P ^ 2) 0 1 :=
  intervalIntegral.integral_nonneg (by norm_num) fun t _ => by rw [eval_pow]; positivity

variable {M : ℕ} {x w : Fin M → ℝ} {A : Matrix (Fin M) (Fin M) ℝ}

/-- The stage values as values of the collocation polynomial. -/
theorem stage_polys (hc : Function.Injective x)
    (hA : ∀ f : ℝ[X], f.degree < M → ∀ i, ∑ j, A i j * f.eval (x j) = polyInt f 0 (x i))
    (hb : ∀ f : ℝ[X], f.degree < M → ∑ i, w i * f.eval (x i) = polyInt f 0 1)
    (z u0 : ℂ) (Y : Fin M → ℂ) (hY : ∀ i, Y i = u0 + z * ∑ j, (A i j : ℂ) * Y j) :
    ∃ U V : ℝ[X], U.natDegree ≤ M ∧ V.natDegree ≤ M ∧ U.eval 0 = u0.re ∧ V.eval 0 = u0.im ∧
      (∀ i, U.eval (x i) = (Y i).re) ∧ (∀ i, V.eval (x i) = (Y i).im) ∧
      (∀ i, (derivative U).eval (x i) = z.re * U.eval (x i) - z.im * V.eval (x i)) ∧
      (∀ i, (derivative V).eval (x i) = z.re * V.eval (x i) + z.im * U.eval (x i)) ∧
      U.eval 1 = (u0 + z * ∑ i, (w i : ℂ) * Y i).re ∧ V.eval 1 = (u0 + z * ∑ i, (w i : ℂ) * Y i).im := by
  classical
  have key : ∀ (v : Fin M → ℝ) (c : ℝ), ∃ U : ℝ[X], U.natDegree ≤ M ∧ U.eval 0 = c ∧
      (∀ i, (derivative U).eval (x i) = v i) ∧ (∀ i, U.eval (x i) = c + ∑ j, A i j * v j) ∧
      U.eval 1 = c + ∑ j, w j * v j := by
    intro v c
    set f := Lagrange.interpolate Finset.univ x v with hf
    have hfd : f.degree < M := by
      have := Lagrange.degree_interpolate_lt (s := Finset.univ) v (v := x) hc.injOn
      rwa [Finset.card_univ, Fintype.card_fin] at this
    have hfe : ∀ i, f.eval (x i) = v i := fun i =>
      Lagrange.eval_interpolate_at_node v hc.injOn (Finset.mem_univ i)
    obtain ⟨G, hG, hGd, hGe⟩ := exists_antideriv f hfd 0
    have hG0 : G.eval 0 = 0 := by rw [← hGe]; simp [polyInt]
    refine ⟨C c + G, ?_, by simp [hG0], fun i => by simp [hG, hfe], fun i => ?_, ?_⟩
    · refine natDegree_C_add.trans_le ?_
      by_cases h0 : G = 0
      · simp [h0]
      · have := (natDegree_lt_iff_degree_lt h0).mpr hGd
        omega
    · have := hA f hfd i
      simp only [hfe] at this
      rw [eval_add, eval_C, ← hGe, ← this]
    · have := hb f hfd
      simp only [hfe] at this
      rw [eval_add, eval_C, ← hGe, ← this]
  obtain ⟨U, hU, hU0, hUd, hUx, hU1⟩ := key (fun i => (z * Y i).re) u0.re
  obtain ⟨V, hV, hV0, hVd, hVx, hV1⟩ := key (fun i => (z * Y i).im) u0.im
  have e1 : ∀ (a : Fin M → ℝ), (u0 + z * ∑ j, (a j : ℂ) * Y j).re = u0.re + ∑ j, a j * (z * Y j).re := by
    intro a
    rw [Complex.add_re, Finset.mul_sum, Complex.re_sum]
    congr 1
    refine Finset.sum_congr rfl fun j _ => ?_
    simp only [Complex.mul_re, Complex.mul_im, Complex.ofReal_re, Complex.ofReal_im]
    ring
  have e2 : ∀ (a : Fin M → ℝ), (u0 + z * ∑ j, (a j : ℂ) * Y j).im = u0.im + ∑ j, a j * (z * Y j).im := by
    intro a
    rw [Complex.add_im, Finset.mul_sum, Complex.im_sum]
    congr 1
    refine Finset.sum_congr rfl fun j _ => ?_
    simp only [Complex.mul_re, Complex.mul_im, Complex.ofReal_re, Complex.ofReal_im]
    ring
  have hUY : ∀ i, U.eval (x i) = (Y i).re := fun i => by rw [hUx, ← e1, ← hY]
  have hVY : ∀ i, V.eval (x i) = (Y i).im := fun i => by rw [hVx, ← e2, ← hY]
  refine ⟨U, V, hU, hV, hU0, hV0, hUY, hVY, fun i => ?_, fun i => ?_, by rw [hU1, e1], by rw [hV1, e2]⟩
  · rw [hUd, hUY, hVY, Complex.mul_re]
  · rw [hVd, hUY, hVY, Complex.mul_im]

/-- The quadrature rule gives at least the integral for polynomials of degree `p` with non-negative leading
coefficient. -/
def QuadUpper (x w : Fin M → ℝ) (p : ℕ) : Prop :=
  ∀ F : ℝ[X], F.natDegree ≤ p → 0 ≤ F.coeff p → polyInt F 0 1 ≤ ∑ i, w i * F.eval (x i)

theorem coeff_derivative_top (U : ℝ[X]) (hM : 0 < M) : (derivative U).coeff (M - 1) = U.coeff M * M := by
  obtain ⟨m, rfl⟩ : ∃ m, M = m + 1 := ⟨M - 1, by omega⟩
  rw [coeff_derivative]
  simp

/-- A collocation polynomial with initial value zero is zero if `Re z ≤ 0`. -/
theorem collocation_kernel (hM : 0 < M) (hx0 : ∀ i, 0 ≤ x i) (hw : ∀ i, 0 ≤ w i) (hup : QuadUpper x w (2 * M - 2))
    {U V : ℝ[X]} (hU : U.natDegree ≤ M) (hV : V.natDegree ≤ M) (hU0 : U.eval 0 = 0) (hV0 : V.eval 0 = 0) {a b : ℝ}
    (ha : a ≤ 0) (hUd : ∀ i, (derivative U).eval (x i) = a * U.eval (x i) - b * V.eval (x i))
    (hVd : ∀ i, (derivative V).eval (x i) = a * V.eval (x i) + b * U.eval (x i)) : U = 0 ∧ V = 0 := by
  have hdiv : ∀ U : ℝ[X], U.eval 0 = 0 → U = X * U.divX := fun U h => by
    conv_lhs => rw [← divX_mul_X_add U]
    rw [coeff_zero_eq_eval_zero, h]
    simp [mul_comm]
  obtain ⟨P, hP, hPd, hPc⟩ : ∃ P : ℝ[X], U = X * P ∧ P.natDegree ≤ M - 1 ∧ P.coeff (M - 1) = U.coeff M :=
    ⟨U.divX, hdiv U hU0, by rw [natDegree_divX_eq_natDegree_tsub_one]; omega, by
      rw [coeff_divX]; congr 1; omega⟩
  obtain ⟨R, hR, hRd, hRc⟩ : ∃ P : ℝ[X], V = X * P ∧ P.natDegree ≤ M - 1 ∧ P.coeff (M - 1) = V.coeff M :=
    ⟨V.divX, hdiv V hV0, by rw [natDegree_divX_eq_natDegree_tsub_one]; omega, by
      rw [coeff_divX]; congr 1; omega⟩
  have hU' : (derivative U).natDegree ≤ M - 1 := (natDegree_derivative_le U).trans (by omega)
  have hV' : (derivative V).natDegree ≤ M - 1 := (natDegree_derivative_le V).trans (by omega)
  have h2 : 2 * M - 2 = (M - 1) + (M - 1) := by omega
  have h := hup (P * derivative U + R * derivative V) (by
      rw [h2]
      exact natDegree_add_le_of_degree_le (natDegree_mul_le.trans (Nat.add_le_add hPd hU'))
        (natDegree_mul_le.trans (Nat.add_le_add hRd hV'))) (by
      rw [h2, coeff_add, coeff_mul_add_eq_of_natDegree_le hPd hU', coeff_mul_add_eq_of_natDegree_le hRd hV', hPc, hRc,
        coeff_derivative_top U hM, coeff_derivative_top V hM]
      nlinarith [mul_nonneg (mul_self_nonneg (U.coeff M)) (Nat.cast_nonneg (α := ℝ) M),
        mul_nonneg (mul_self_nonneg (V.coeff M)) (Nat.cast_nonneg (α := ℝ) M)])
  have hneg : ∑ i, w i * (P * derivative U + R * derivative V).eval (x i) ≤ 0 := by
    refine Finset.sum_nonpos fun i _ => mul_nonpos_of_nonneg_of_nonpos (hw i) ?_
    rw [eval_add, eval_mul, eval_mul, hUd, hVd]
    rcases (hx0 i).eq_or_lt with h0 | h0
    · rw [← h0, hU0, hV0]; simp
    · have e1 : U.eval (x i) = x i * P.eval (x i) := by rw [hP]; simp
      have e2 : V.eval (x i) = x i * R.eval (x i) := by rw [hR]; simp
      rw [e1, e2]
      have : P.eval (x i) * (a * (x i * P.eval (x i)) - b * (x i * R.eval (x i))) +
          R.eval (x i) * (a * (x i * R.eval (x i)) + b * (x i * P.eval (x i))) =
          a * (x i * (P.eval (x i) ^ 2 + R.eval (x i) ^ 2)) := by ring
      rw [this]
      exact mul_nonpos_of_nonpos_of_nonneg ha (by positivity)
  have hint : ∀ {U P : ℝ[X]}, U = X * P →
      polyInt (P * derivative U) 0 1 = 1 / 2 * polyInt (P ^ 2) 0 1 + 1 / 2 * P.eval 1 ^ 2 := by
    intro U P h
    have e : P * derivative U = C (1 / 2) * P ^ 2 + C (1 / 2) * derivative (X * P ^ 2) := by
      have hC : (C (1 / 2) : ℝ[X]) * 2 = 1 := by
        rw [show (2 : ℝ[X]) = C 2 from rfl, ← C_mul]; norm_num
      rw [h, derivative_mul, derivative_mul, derivative_pow, derivative_X]
      simp only [Nat.cast_ofNat, map_ofNat, Nat.add_one_sub_one, pow_one]
      linear_combination (-(P ^ 2) - X * P * derivative P) * hC
    rw [e, polyInt_add, polyInt_C_mul, polyInt_C_mul, polyInt_derivative]
    simp
  rw [polyInt_add, hint hP, hint hR] at h
  have hz : ∀ P : ℝ[X], polyInt (P ^ 2) 0 1 ≤ 0 → P = 0 := by
    intro P hP
    by_contra hne
    have := polyInt_pos (pow_ne_zero 2 hne) (a := 0) (b := 1) (by norm_num) (fun t _ _ => by
      rw [eval_pow]; positivity)
    linarith
  have h3 := polyInt_sq_nonneg P
  have h4 := polyInt_sq_nonneg R
  have h5 := sq_nonneg (P.eval 1)
  have h6 := sq_nonneg (R.eval 1)
  rw [hP, hR, hz P (by linarith), hz R (by linarith)]
  simp

/-- `∫ (U U' + V V')`. -/
theorem energy (U V : ℝ[X]) : polyInt (U * derivative U + V * derivative V) 0 1 =
    (U.eval 1 ^ 2 + V.eval 1 ^ 2 - (U.eval 0 ^ 2 + V.eval 0 ^ 2)) / 2 := by
  have e : U * derivative U + V * derivative V = C (1 / 2) * derivative (U ^ 2 + V ^ 2) := by
    have hC : (C (1 / 2) : ℝ[X]) * 2 = 1 := by
      rw [show (2 : ℝ[X]) = C 2 from rfl, ← C_mul]; norm_num
    rw [derivative_add, derivative_pow, derivative_pow]
    simp only [Nat.cast_ofNat, map_ofNat, Nat.add_one_sub_one, pow_one]
    linear_combination (-(U * derivative U) - V * derivative V) * hC
  rw [e, polyInt_C_mul, polyInt_derivative]
  simp
  ring

theorem energy_nodes {U V : ℝ[X]} {a b : ℝ}
    (hUd : ∀ i, (derivative U).eval (x i) = a * U.eval (x i) - b * V.eval (x i))
    (hVd : ∀ i, (derivative V).eval (x i) = a * V.eval (x i) + b * U.eval (x i)) :
    ∑ i, w i * (U * derivative U + V * derivative V).eval (x i) =
      a * ∑ i, w i * (U.eval (x i) ^ 2 + V.eval (x i) ^ 2) := by
  rw [Finset.mul_sum]
  refine Finset.sum_congr rfl fun i _ => ?_
  rw [eval_add, eval_mul, eval_mul, hUd, hVd]
  ring

/-- The collocation polynomial does not grow if `Re z ≤ 0` (Gauss and right Radau nodes). -/
theorem collocation_contractive (hM : 0 < M) (hw : ∀ i, 0 ≤ w i) (hup : QuadUpper x w (2 * M - 1))
    {U V : ℝ[X]} (hU : U.natDegree ≤ M) (hV : V.natDegree ≤ M) {a b : ℝ}
    (ha : a ≤ 0) (hUd : ∀ i, (derivative U).eval (x i) = a * U.eval (x i) - b * V.eval (x i))
    (hVd : ∀ i, (derivative V).eval (x i) = a * V.eval (x i) + b * U.eval (x i)) :
    U.eval 1 ^ 2 + V.eval 1 ^ 2 ≤ U.eval 0 ^ 2 + V.eval 0 ^ 2 := by
  have hU' : (derivative U).natDegree ≤ M - 1 := (natDegree_derivative_le U).trans (by omega)
  have hV' : (derivative V).natDegree ≤ M - 1 := (natDegree_derivative_le V).trans (by omega)
  have h2 : 2 * M - 1 = M + (M - 1) := by omega
  have h := hup (U * derivative U + V * derivative V) (by
      rw [h2]
      exact natDegree_add_le_of_degree_le (natDegree_mul_le.trans (Nat.add_le_add hU hU'))
        (natDegree_mul_le.trans (Nat.add_le_add hV hV'))) (by
      rw [h2, coeff_add, coeff_mul_add_eq_of_natDegree_le hU hU', coeff_mul_add_eq_of_natDegree_le hV hV',
        coeff_derivative_top U hM, coeff_derivative_top V hM]
      nlinarith [mul_nonneg (mul_self_nonneg (U.coeff M)) (Nat.cast_nonneg (α := ℝ) M),
        mul_nonneg (mul_self_nonneg (V.coeff M)) (Nat.cast_nonneg (α := ℝ) M)])
  rw [energy, energy_nodes hUd hVd] at h
  have : a * ∑ i, w i * (U.eval (x i) ^ 2 + V.eval (x i) ^ 2) ≤ 0 :=
    mul_nonpos_of_nonpos_of_nonneg ha (Finset.sum_nonneg fun i _ => mul_nonneg (hw i) (by positivity))
  linarith

/-- On the imaginary axis Gauss nodes conserve the norm. -/
theorem collocation_conservative (hM : 0 < M)
    (hex : ∀ F : ℝ[X], F.degree < (2 * M : ℕ) → ∑ i, w i * F.eval (x i) = polyInt F 0 1)
    {U V : ℝ[X]} (hU : U.natDegree ≤ M) (hV : V.natDegree ≤ M) {b : ℝ}
    (hUd : ∀ i, (derivative U).eval (x i) = 0 * U.eval (x i) - b * V.eval (x i))
    (hVd : ∀ i, (derivative V).eval (x i) = 0 * V.eval (x i) + b * U.eval (x i)) :
    U.eval 1 ^ 2 + V.eval 1 ^ 2 = U.eval 0 ^ 2 + V.eval 0 ^ 2 := by
  have hU' : (derivative U).natDegree ≤ M - 1 := (natDegree_derivative_le U).trans (by omega)
  have hV' : (derivative V).natDegree ≤ M - 1 := (natDegree_derivative_le V).trans (by omega)
  have hd : (U * derivative U + V * derivative V).natDegree ≤ M + (M - 1) :=
    natDegree_add_le_of_degree_le (natDegree_mul_le.trans (Nat.add_le_add hU hU'))
        (natDegree_mul_le.trans (Nat.add_le_add hV hV'))
  have h := hex (U * derivative U + V * derivative V) (lt_of_le_of_lt degree_le_natDegree (by
    exact_mod_cast (by omega : (U * derivative U + V * derivative V).natDegree < 2 * M)))
  rw [energy, energy_nodes hUd hVd, zero_mul] at h
  linarith

/-- A polynomial of degree at most `M` that vanishes at `M` distinct nodes is a multiple of the node polynomial. -/
theorem eq_C_mul_nodal (hc : Function.Injective x) {F : ℝ[X]} (hF : F.natDegree ≤ M) (h0 : ∀ i, F.eval (x i) = 0) :
    F = C (F.coeff M) * Lagrange.nodal Finset.univ x := by
  have hN : (Lagrange.nodal Finset.univ x).natDegree = M := by rw [Lagrange.natDegree_nodal]; simp
  have hlc : (Lagrange.nodal Finset.univ x).coeff M = 1 := by
    have := Lagrange.nodal_monic (s := Finset.univ) (v := x)
    rw [Monic, leadingCoeff, hN] at this
    exact this
  have hdeg : (F - C (F.coeff M) * Lagrange.nodal Finset.univ x).degree < M := by
    rw [degree_lt_iff_coeff_zero]
    intro m hm
    rw [coeff_sub, coeff_C_mul]
    rcases hm.eq_or_lt with rfl | hm
    · rw [hlc]; ring
    · rw [coeff_eq_zero_of_natDegree_lt (lt_of_le_of_lt hF hm),
        coeff_eq_zero_of_natDegree_lt (p := Lagrange.nodal Finset.univ x) (by rw [hN]; exact hm)]
      ring
  rw [← sub_eq_zero]
  refine Polynomial.eq_zero_of_degree_lt_of_eval_index_eq_zero (s := Finset.univ) (v := x) hc.injOn (by simpa using hdeg) ?_
  intro i _
  rw [eval_sub, h0, eval_mul, Lagrange.eval_nodal_at_node (Finset.mem_univ i)]
  simp

/-- The collocation polynomial does not grow if `Re z ≤ 0` (Lobatto nodes). -/
theorem collocation_contractive_lobatto (hM : 2 ≤ M) (hc : Function.Injective x)
    (h0 : (Lagrange.nodal Finset.univ x).eval 0 = 0) (h1 : (Lagrange.nodal Finset.univ x).eval 1 = 0)
    (horth : ∀ q : ℝ[X], q.degree < (M - 2 : ℕ) → polyInt (q * Lagrange.nodal Finset.univ x) 0 1 = 0)
    {U V : ℝ[X]} (hU : U.natDegree ≤ M) (hV : V.natDegree ≤ M) {a b : ℝ}
    (ha : a ≤ 0) (hz : a ≠ 0 ∨ b ≠ 0)
    (hUd : ∀ i, (derivative U).eval (x i) = a * U.eval (x i) - b * V.eval (x i))
    (hVd : ∀ i, (derivative V).eval (x i) = a * V.eval (x i) + b * U.eval (x i)) :
    U.eval 1 ^ 2 + V.eval 1 ^ 2 ≤ U.eval 0 ^ 2 + V.eval 0 ^ 2 := by
  set N := Lagrange.nodal Finset.univ x with hN
  have hNd : N.natDegree = M := by rw [hN, Lagrange.natDegree_nodal]; simp
  have hlc : N.coeff M = 1 := by
    have := Lagrange.nodal_monic (s := Finset.univ) (v := x)
    rw [← hN, Monic, leadingCoeff, hNd] at this
    exact this
  -- the defects are multiples of the node polynomial
  have hdU : ∀ W : ℝ[X], W.natDegree ≤ M → (derivative W).natDegree ≤ M ∧ (derivative W).coeff M = 0 := by
    intro W hW
    have h1 := natDegree_derivative_le W
    exact ⟨by omega, coeff_eq_zero_of_natDegree_lt (by omega)⟩
  have hCm : ∀ (c : ℝ) (W : ℝ[X]), W.natDegree ≤ M → (C c * W).natDegree ≤ M := fun c W hW =>
    (natDegree_C_mul_le _ _).trans hW
  set α := U.coeff M with hα
  set β := V.coeff M with hβ
  have hUeq : derivative U = C a * U - C b * V + C (-(a * α) + b * β) * N := by
    have h := eq_C_mul_nodal hc (F := derivative U - C a * U + C b * V)
      (natDegree_add_le_of_degree_le (natDegree_sub_le_of_le (hdU U hU).1 (hCm a U hU) |>.trans (by simp)) (hCm b V hV))
      (fun i => by simp [hUd])
    rw [coeff_add, coeff_sub, coeff_C_mul, coeff_C_mul, (hdU U hU).2] at h
    rw [← hN] at h
    have e : -(a * α) + b * β = 0 - a * U.coeff M + b * V.coeff M := by rw [hα, hβ]; ring
    rw [e, ← h]
    ring
  have hVeq : derivative V = C a * V + C b * U + C (-(a * β) - b * α) * N := by
    have h := eq_C_mul_nodal hc (F := derivative V - C a * V - C b * U)
      (natDegree_sub_le_of_le (natDegree_sub_le_of_le (hdU V hV).1 (hCm a V hV)) (hCm b U hU) |>.trans (by simp))
      (fun i => by simp [hVd])
    rw [coeff_sub, coeff_sub, coeff_C_mul, coeff_C_mul, (hdU V hV).2] at h
    rw [← hN] at h
    have e : -(a * β) - b * α = 0 - a * V.coeff M - b * U.coeff M := by rw [hα, hβ]; ring
    rw [e, ← h]
    ring
  -- the derivative of the node polynomial is orthogonal to lower degrees
  have hNorth : ∀ q : ℝ[X], q.degree < (M - 1 : ℕ) → polyInt (q * derivative N) 0 1 = 0 := by
    intro q hq
    have hq' : (derivative q).degree < (M - 2 : ℕ) := by
      by_cases h : derivative q = 0
      · rw [h, degree_zero]; exact WithBot.bot_lt_coe _
      · have hq0 : q ≠ 0 := fun e => h (by rw [e]; simp)
        have h3 := (natDegree_lt_iff_degree_lt hq0).mpr hq
        have h4 : q.natDegree ≠ 0 := fun e => h (derivative_of_natDegree_zero e)
        have h5 := natDegree_derivative_lt h4
        refine (natDegree_lt_iff_degree_lt h).mp ?_
        omega
    have h3 := horth _ hq'
    have h4 := polyInt_derivative (q * N) 0 1
    rw [derivative_mul, polyInt_add, h3, eval_mul, eval_mul, h0, h1] at h4
    simpa using h4
  set W := derivative U with hW
  set Z := derivative V with hZ
  -- W = α N' + lower, Z = β N' + lower
  have hlow : ∀ U : ℝ[X], U.natDegree ≤ M → (derivative U - C (U.coeff M) * derivative N).degree < (M - 1 : ℕ) := by
    intro U hU
    rw [degree_lt_iff_coeff_zero]
    intro m hm
    rw [coeff_sub, coeff_C_mul, coeff_derivative, coeff_derivative]
    rcases (show M ≤ m + 1 by omega).eq_or_lt with h | h
    · rw [← h, hlc]; ring
    · rw [coeff_eq_zero_of_natDegree_lt (lt_of_le_of_lt hU h),
        coeff_eq_zero_of_natDegree_lt (p := N) (by rw [hNd]; exact h)]
      ring
  set r := W - C α * derivative N with hr
  set s := Z - C β * derivative N with hs
  have hWr : W = C α * derivative N + r := by rw [hr]; ring
  have hZs : Z = C β * derivative N + s := by rw [hs]; ring
  set I := polyInt (derivative N ^ 2) 0 1 with hI
  have hrN : polyInt (r * derivative N) 0 1 = 0 := hNorth r (hlow U hU)
  have hsN : polyInt (s * derivative N) 0 1 = 0 := hNorth s (hlow V hV)
  have hWN : polyInt (W * derivative N) 0 1 = α * I := by
    have e : W * derivative N = C α * derivative N ^ 2 + r * derivative N := by rw [hWr]; ring
    rw [e, polyInt_add, polyInt_C_mul, hrN, add_zero]
  have hZN : polyInt (Z * derivative N) 0 1 = β * I := by
    have e : Z * derivative N = C β * derivative N ^ 2 + s * derivative N := by rw [hZs]; ring
    rw [e, polyInt_add, polyInt_C_mul, hsN, add_zero]
  have hWW : α ^ 2 * I ≤ polyInt (W ^ 2) 0 1 := by
    have e : W ^ 2 = C α * (W * derivative N) + C α * (r * derivative N) + r ^ 2 := by
      rw [hWr]; ring
    rw [e, polyInt_add, polyInt_add, polyInt_C_mul, polyInt_C_mul, hWN, hrN]
    have := polyInt_sq_nonneg r
    nlinarith
  have hZZ : β ^ 2 * I ≤ polyInt (Z ^ 2) 0 1 := by
    have e : Z ^ 2 = C β * (Z * derivative N) + C β * (s * derivative N) + s ^ 2 := by
      rw [hZs]; ring
    rw [e, polyInt_add, polyInt_add, polyInt_C_mul, polyInt_C_mul, hZN, hsN]
    have := polyInt_sq_nonneg s
    nlinarith
  have hen := energy W Z
  have e : W * derivative W + Z * derivative Z = C a * W ^ 2 + C a * Z ^ 2 +
      C (-(a * α) + b * β) * (W * derivative N) + C (-(a * β) - b * α) * (Z * derivative N) := by
    have d1 : derivative W = C a * W - C b * Z + C (-(a * α) + b * β) * derivative N := by
      have := congrArg derivative hUeq
      simpa only [derivative_add, derivative_sub, derivative_C_mul, ← hW, ← hZ] using this
    have d2 : derivative Z = C a * Z + C b * W + C (-(a * β) - b * α) * derivative N := by
      have := congrArg derivative hVeq
      simpa only [derivative_add, derivative_sub, derivative_C_mul, ← hW, ← hZ] using this
    rw [d1, d2]
    ring
  rw [e, polyInt_add, polyInt_add, polyInt_add, polyInt_C_mul, polyInt_C_mul, polyInt_C_mul, polyInt_C_mul, hWN,
    hZN] at hen
  have hle : W.eval 1 ^ 2 + Z.eval 1 ^ 2 ≤ W.eval 0 ^ 2 + Z.eval 0 ^ 2 := by
    nlinarith [mul_nonneg (neg_nonneg.mpr ha) (sub_nonneg.mpr hWW), mul_nonneg (neg_nonneg.mpr ha) (sub_nonneg.mpr hZZ)]
  have hat : ∀ t, N.eval t = 0 → W.eval t ^ 2 + Z.eval t ^ 2 = (a ^ 2 + b ^ 2) * (U.eval t ^ 2 + V.eval t ^ 2) := by
    intro t ht
    rw [hUeq, hVeq]
    simp only [eval_add, eval_sub, eval_mul, eval_C, ht]
    ring
  rw [hat 1 h1, hat 0 h0] at hle
  have hpos : 0 < a ^ 2 + b ^ 2 := by
    rcases hz with h | h
    · have := sq_pos_of_ne_zero h
      positivity
    · have := sq_pos_of_ne_zero h
      positivity
  exact le_of_mul_le_mul_left hle hpos

end QMat
