import Verif.Lemmas.AStable

/-!
# The collocation polynomial of a stiff equation

`P' - z P` is a multiple of the node polynomial `ω`, so `P` is a multiple of `∑ z⁻ᵏ ω⁽ᵏ⁾`.
-/

namespace QMat

open Polynomial Spec

variable {M : ℕ}

/-- `∑ sᵏ ω⁽ᵏ⁾(t)` for the node polynomial of `x`. -/
noncomputable def stiffSum (x : Fin M → ℝ) (t : ℝ) (s : ℂ) : ℂ :=
  ∑ k ∈ Finset.range (M + 1), s ^ k * (((derivative^[k] (Lagrange.nodal Finset.univ x)).eval t : ℝ) : ℂ)

theorem stiffSum_continuous (x : Fin M → ℝ) (t : ℝ) : Continuous (stiffSum x t) := by
  unfold stiffSum
  fun_prop

theorem stiffSum_zero (x : Fin M → ℝ) (t : ℝ) :
    stiffSum x t 0 = (((Lagrange.nodal Finset.univ x).eval t : ℝ) : ℂ) := by
  unfold stiffSum
  rw [Finset.sum_eq_single 0]
  · simp
  · intro k _ hk; simp [hk]
  · simp

/-- Inverting `1 - s d/dt` on polynomials. -/
theorem neumann_derivative (P : ℂ[X]) (hP : P.natDegree ≤ M) (s : ℂ) :
    ∑ k ∈ Finset.range (M + 1), C (s ^ k) * derivative^[k] (P - C s * derivative P) = P := by
  have h : ∀ k ∈ Finset.range (M + 1), C (s ^ k) * derivative^[k] (P - C s * derivative P) =
      C (s ^ k) * derivative^[k] P - C (s ^ (k + 1)) * derivative^[k + 1] P := fun k _ => by
    rw [iterate_derivative_sub, iterate_derivative_C_mul, Function.iterate_succ_apply, mul_sub, ← mul_assoc, ← C_mul,
      ← pow_succ]
  rw [Finset.sum_congr rfl h, Finset.sum_range_sub' fun k => C (s ^ k) * derivative^[k] P,
    iterate_derivative_eq_zero (lt_of_le_of_lt hP (Nat.lt_succ_self M))]
  simp

/-- The collocation polynomial, up to a factor, at any point. -/
theorem collocation_stiff {x : Fin M → ℝ} (hc : Function.Injective x) {z : ℂ} (hz : z ≠ 0) {U V : ℝ[X]}
    (hU : U.natDegree ≤ M) (hV : V.natDegree ≤ M)
    (hUd : ∀ i, (derivative U).eval (x i) = z.re * U.eval (x i) - z.im * V.eval (x i))
    (hVd : ∀ i, (derivative V).eval (x i) = z.re * V.eval (x i) + z.im * U.eval (x i)) :
    ∃ c : ℂ, ∀ t : ℝ, (⟨U.eval t, V.eval t⟩ : ℂ) = c * stiffSum x t z⁻¹ := by
  set w := Lagrange.nodal Finset.univ x with hw
  set F := derivative U - C z.re * U + C z.im * V with hF
  set G := derivative V - C z.re * V - C z.im * U with hG
  have hd : ∀ Q : ℝ[X], Q.natDegree ≤ M → (derivative Q).natDegree ≤ M := fun Q h =>
    (natDegree_derivative_le Q).trans (by omega)
  have hm : ∀ (a : ℝ) (Q : ℝ[X]), Q.natDegree ≤ M → (C a * Q).natDegree ≤ M := fun a Q h =>
    (natDegree_C_mul_le a Q).trans h
  have hs : ∀ Q R : ℝ[X], Q.natDegree ≤ M → R.natDegree ≤ M → (Q - R).natDegree ≤ M := fun Q R h h' =>
    (natDegree_sub_le_of_le h h').trans (by simp)
  have hFw : F = C (F.coeff M) * w := eq_C_mul_nodal hc
    (natDegree_add_le_of_degree_le (hs _ _ (hd U hU) (hm _ U hU)) (hm _ V hV))
    fun i => by simp only [hF, eval_add, eval_sub, eval_mul, eval_C, hUd]; ring
  have hGw : G = C (G.coeff M) * w := eq_C_mul_nodal hc
    (hs _ _ (hs _ _ (hd V hV) (hm _ V hV)) (hm _ U hU))
    fun i => by simp only [hG, eval_sub, eval_mul, eval_C, hVd]; ring
  set ι := (Complex.ofRealHom : ℝ →+* ℂ) with hι
  set P : ℂ[X] := U.map ι + C Complex.I * V.map ι with hP
  have hPd : P.natDegree ≤ M := natDegree_add_le_of_degree_le (natDegree_map_le.trans hU)
    ((natDegree_C_mul_le _ _).trans (natDegree_map_le.trans hV))
  have hPt : ∀ t : ℝ, P.eval (t : ℂ) = ⟨U.eval t, V.eval t⟩ := fun t => by
    have e : ∀ Q : ℝ[X], (Q.map ι).eval (t:ℂ) = ((Q.eval t : ℝ) : ℂ) := fun Q => by
      rw [hι, show (t:ℂ) = Complex.ofRealHom t from rfl, eval_map_apply]; rfl
    rw [hP, eval_add, eval_mul, eval_C, e, e, Complex.mk_eq_add_mul_I]
    ring
  set a : ℂ := ⟨F.coeff M, G.coeff M⟩ with ha
  have hzz : z = (z.re : ℂ) + z.im * Complex.I := (Complex.re_add_im z).symm
  have hPz : derivative P - C z * P = C a * w.map ι := by
    have e1 : derivative P - C z * P = F.map ι + C Complex.I * G.map ι := by
      have hI : (C Complex.I : ℂ[X]) * C Complex.I = -1 := by
        rw [← C_mul, Complex.I_mul_I, C_neg, C_1]
      have hzC : (C z : ℂ[X]) = C (ι z.re) + C (ι z.im) * C Complex.I := by
        conv_lhs => rw [hzz]
        rw [C_add, C_mul]; rfl
      simp only [hP, hF, hG, derivative_add, derivative_mul, derivative_C, Polynomial.map_add, Polynomial.map_sub,
        Polynomial.map_mul, map_C, derivative_map, hzC]
      linear_combination (-(C (ι z.im)) * V.map ι) * hI
    rw [e1, hFw, hGw, ha, Complex.mk_eq_add_mul_I, Polynomial.map_mul, Polynomial.map_mul, map_C, map_C, C_add, C_mul]
    rw [show (C ((F.coeff M : ℝ) : ℂ)) = C (ι (F.coeff M)) from rfl,
      show (C ((G.coeff M : ℝ) : ℂ)) = C (ι (G.coeff M)) from rfl]
    ring
  have hN := neumann_derivative P hPd z⁻¹
  have hPs : P - C z⁻¹ * derivative P = C (-z⁻¹ * a) * w.map ι := by
    have : C z⁻¹ * C z = (1 : ℂ[X]) := by rw [← C_mul, inv_mul_cancel₀ hz, C_1]
    rw [C_mul, C_neg]
    linear_combination (-(C z⁻¹)) * hPz - P * this
  refine ⟨-z⁻¹ * a, fun t => ?_⟩
  rw [← hPt t, ← hN, hPs, eval_finsetSum, stiffSum, Finset.mul_sum]
  refine Finset.sum_congr rfl fun k _ => ?_
  rw [iterate_derivative_C_mul, eval_mul, eval_mul, eval_C, eval_C, iterate_derivative_map]
  rw [show (t:ℂ) = Complex.ofRealHom t from rfl, eval_map_apply]
  simp only [Complex.ofRealHom_eq_coe]
  ring

end QMat
