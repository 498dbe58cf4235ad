import Verif.Spec.Pade
import Verif.Lemmas.Stiff
import Verif.Lemmas.Legendre
import Mathlib.Algebra.Polynomial.Taylor

/-!
# Legendre nodes and Padé approximations
-/

namespace QMat

open Polynomial Spec

/-- `tᵃ (t - 1)ᵇ`. -/
noncomputable def endPoly (a b : ℕ) : ℝ[X] := X ^ a * (X - C 1) ^ b

theorem eval_iterate_derivative_taylor (p : ℝ[X]) (n : ℕ) (t : ℝ) :
    (derivative^[n] p).eval t = n.factorial * (taylor t p).coeff n := by
  rw [taylor_coeff, ← factorial_smul_hasseDeriv]
  simp

theorem endPoly_one (a b j : ℕ) (hj : j ≤ a + b) :
    (derivative^[a + b - j] (endPoly a b)).eval 1 = (a + b - j).factorial * a.choose j := by
  rw [eval_iterate_derivative_taylor]
  congr 1
  have e : taylor 1 (endPoly a b) = X ^ b * (X + 1) ^ a := by
    rw [endPoly, taylor_mul, taylor_pow, taylor_pow, map_sub, taylor_X, taylor_C, add_sub_cancel_right, C_1, mul_comm]
  rw [e, coeff_X_pow_mul', coeff_X_add_one_pow]
  split_ifs with h
  · rw [show a + b - j - b = a - j by omega, Nat.choose_symm (by omega)]
  · rw [Nat.choose_eq_zero_of_lt (by omega), Nat.cast_zero]

theorem endPoly_zero (a b j : ℕ) (hj : j ≤ a + b) :
    (derivative^[a + b - j] (endPoly a b)).eval 0 = (a + b - j).factorial * b.choose j * (-1) ^ j := by
  rw [eval_iterate_derivative_taylor, taylor_zero, mul_assoc]
  congr 1
  rw [endPoly, sub_eq_add_neg, ← C_neg, coeff_X_pow_mul', coeff_X_add_C_pow]
  split_ifs with h
  · rw [show a + b - j - a = b - j by omega, Nat.choose_symm (by omega), show b - (b - j) = j by omega, mul_comm]
  · rw [Nat.choose_eq_zero_of_lt (by omega), Nat.cast_zero, zero_mul]

theorem endPoly_low {a b j : ℕ} (ha : j < a) : (derivative^[j] (endPoly a b)).eval 0 = 0 := by
  rw [eval_iterate_derivative_taylor, taylor_zero, endPoly, coeff_X_pow_mul', if_neg (by omega), mul_zero]

theorem endPoly_low' {a b j : ℕ} (hb : j < b) : (derivative^[j] (endPoly a b)).eval 1 = 0 := by
  have := endPoly_one a b (a + b - j) (by omega)
  rw [show a + b - (a + b - j) = j by omega, Nat.choose_eq_zero_of_lt (by omega)] at this
  rw [this]
  simp

theorem endPoly_orth (a b : ℕ) : ∀ j ≤ a, j ≤ b → ∀ q : ℝ[X], q.degree < j → polyInt (q * derivative^[j] (endPoly a b)) 0 1 = 0 := by
  intro j
  induction j with
  | zero =>
    intro _ _ q hq
    have : q = 0 := by
      rw [← degree_eq_bot]
      exact Nat.WithBot.lt_zero_iff.1 (by exact_mod_cast hq)
    subst this
    simp [polyInt]
  | succ j ih =>
    intro ha hb q hq
    have h := polyInt_derivative (q * derivative^[j] (endPoly a b)) 0 1
    rw [derivative_mul, polyInt_add, eval_mul, eval_mul, endPoly_low (by omega), endPoly_low' (by omega), mul_zero, mul_zero, sub_zero] at h
    have hd : (derivative q).degree < j := by
      by_cases h0 : q = 0
      · subst h0; simp
      · by_cases h1 : derivative q = 0
        · rw [h1]; simp
        · have h2 := natDegree_derivative_le q
          have h3 : q.natDegree < j + 1 := (natDegree_lt_iff_degree_lt h0).2 (by exact_mod_cast hq)
          refine (natDegree_lt_iff_degree_lt h1).1 ?_
          rcases Nat.eq_zero_or_pos q.natDegree with h4 | h4
          · exfalso
            apply h1
            rw [eq_C_of_natDegree_eq_zero h4, derivative_C]
          · omega
    rw [ih (by omega) (by omega) _ hd, zero_add, ← Function.iterate_succ_apply' derivative j] at h
    exact h

/-- A polynomial with the orthogonality and the end zeros of the node polynomial is a derivative of `tᵃ (t - 1)ᵇ`. -/
theorem eq_endPoly {M r a b : ℕ} (hab : a + b = M + r) (ha : a = r ∨ a = r + 1) (hb : b = r ∨ b = r + 1) {F : ℝ[X]} (hF : F.Monic)
    (hFd : F.natDegree = M) (horth : ∀ q : ℝ[X], q.degree < r → polyInt (q * F) 0 1 = 0) (h0 : a = r + 1 → F.eval 0 = 0)
    (h1 : b = r + 1 → F.eval 1 = 0) : ∃ κ : ℝ, κ ≠ 0 ∧ derivative^[r] (endPoly a b) = C κ * F := by
  set E := derivative^[r] (endPoly a b) with hE
  set κ := E.coeff M with hκ
  have hmon : (endPoly a b).Monic := (monic_X_pow a).mul ((monic_X_sub_C 1).pow b)
  have hdeg : (endPoly a b).natDegree = M + r := by
    rw [endPoly, (monic_X_pow a).natDegree_mul ((monic_X_sub_C 1).pow b), natDegree_X_pow, (monic_X_sub_C (1:ℝ)).natDegree_pow,
      natDegree_X_sub_C]
    omega
  have hκ0 : κ ≠ 0 := by
    rw [hκ, hE, coeff_iterate_derivative]
    have : (endPoly a b).coeff (M + r) = 1 := by rw [← hdeg]; exact hmon.coeff_natDegree
    rw [this]
    simp only [nsmul_eq_mul, mul_one]
    exact_mod_cast (Nat.descFactorial_pos.2 (by omega)).ne'
  refine ⟨κ, hκ0, ?_⟩
  have hEd : E.natDegree ≤ M := by
    have := natDegree_iterate_derivative (endPoly a b) r
    rw [hdeg, ← hE] at this
    omega
  set H := E - C κ * F with hH
  have hHd : H.degree < M := by
    rw [degree_lt_iff_coeff_zero]
    intro m hm
    rw [hH, coeff_sub, coeff_C_mul]
    rcases hm.eq_or_lt with rfl | hm
    · have : F.coeff M = 1 := by rw [← hFd]; exact hF.coeff_natDegree
      rw [this, mul_one, hκ, sub_self]
    · rw [coeff_eq_zero_of_natDegree_lt (by omega), coeff_eq_zero_of_natDegree_lt (p := F) (by omega)]
      ring
  have hHo : ∀ q : ℝ[X], q.degree < r → polyInt (q * H) 0 1 = 0 := fun q hq => by
    have e : q * H = q * E - C κ * (q * F) := by rw [hH]; ring
    rw [e, polyInt_sub, polyInt_C_mul, horth q hq, hE, endPoly_orth a b r (by omega) (by omega) q hq]
    ring
  have hH0 : a = r + 1 → H.eval 0 = 0 := fun h => by rw [hH, eval_sub, eval_mul, h0 h, hE, endPoly_low (by omega)]; ring
  have hH1 : b = r + 1 → H.eval 1 = 0 := fun h => by rw [hH, eval_sub, eval_mul, h1 h, hE, endPoly_low' (by omega)]; ring
  obtain ⟨K, hK⟩ : endPoly (a - r) (b - r) ∣ H := by
    have hx : a = r + 1 → X ∣ H := fun h => by
      have := dvd_iff_isRoot.2 (show H.IsRoot 0 from hH0 h)
      simpa using this
    have hx1 : b = r + 1 → X - C 1 ∣ H := fun h => dvd_iff_isRoot.2 (show H.IsRoot 1 from hH1 h)
    unfold endPoly
    rcases ha with ha | ha <;> rcases hb with hb | hb
    · simp [ha, hb]
    · simpa [ha, hb] using hx1 hb
    · simpa [ha, hb] using hx ha
    · rw [ha, hb, Nat.add_sub_cancel_left, pow_one, pow_one]
      refine IsCoprime.mul_dvd ?_ (hx ha) (hx1 hb)
      refine ⟨1, -1, ?_⟩
      rw [C_1]
      ring
  have hW : ∀ t : ℝ, 0 ≤ t → t ≤ 1 → 0 ≤ (-1) ^ (b - r) * (endPoly (a - r) (b - r)).eval t := fun t h0 h1 => by
    rw [endPoly, eval_mul, eval_pow, eval_pow, eval_X, eval_sub, eval_X, eval_C]
    have e : (-1) ^ (b - r) * (t ^ (a - r) * (t - 1) ^ (b - r)) = t ^ (a - r) * (1 - t) ^ (b - r) := by
      rw [show (1 - t) = (-1) * (t - 1) by ring, mul_pow]
      ring
    rw [e]
    have : 0 ≤ 1 - t := by linarith
    positivity
  have hWm : (endPoly (a - r) (b - r)).Monic := (monic_X_pow _).mul ((monic_X_sub_C 1).pow _)
  have hWd : (endPoly (a - r) (b - r)).natDegree = M - r := by
    rw [endPoly, (monic_X_pow _).natDegree_mul ((monic_X_sub_C 1).pow _), natDegree_X_pow, (monic_X_sub_C (1:ℝ)).natDegree_pow,
      natDegree_X_sub_C]
    omega
  have hK0 : K = 0 := by
    by_contra hne
    have hKd : K.degree < r := by
      refine (natDegree_lt_iff_degree_lt hne).1 ?_
      have hHne : H ≠ 0 := by rw [hK]; exact mul_ne_zero hWm.ne_zero hne
      have h1 := (natDegree_lt_iff_degree_lt hHne).2 hHd
      rw [hK, natDegree_mul hWm.ne_zero hne, hWd] at h1
      omega
    have h1 := hHo K hKd
    set P : ℝ[X] := C ((-1) ^ (b - r)) * (endPoly (a - r) (b - r) * K ^ 2) with hP
    have h2 : polyInt P 0 1 = 0 := by
      rw [hP, polyInt_C_mul, show endPoly (a - r) (b - r) * K ^ 2 = K * H by rw [hK]; ring, h1, mul_zero]
    have hPne : P ≠ 0 := by
      rw [hP]
      exact mul_ne_zero (C_ne_zero.2 (pow_ne_zero _ (by norm_num))) (mul_ne_zero hWm.ne_zero (pow_ne_zero 2 hne))
    have h3 := polyInt_pos hPne (a := 0) (b := 1) (by norm_num) (fun t h0 h1 => by
      rw [hP, eval_mul, eval_C, eval_mul, ← mul_assoc, eval_pow]
      exact mul_nonneg (hW t h0 h1) (sq_nonneg _))
    linarith
  rw [hK0, mul_zero, hH, sub_eq_zero] at hK
  exact hK

/-- The two sums of derivatives of the node polynomial as the polynomials of Padé approximations. -/
theorem stiffSum_pade {M r a b : ℕ} {x : Fin M → ℝ} (hab : a + b = M + r) (ha : a = r ∨ a = r + 1) (hb : b = r ∨ b = r + 1)
    (horth : ∀ q : ℝ[X], q.degree < r → polyInt (q * Lagrange.nodal Finset.univ x) 0 1 = 0)
    (h0 : a = r + 1 → ∃ i, x i = 0) (h1 : b = r + 1 → ∃ i, x i = 1) :
    ∃ κ : ℂ, κ ≠ 0 ∧ ∀ z : ℂ, z ≠ 0 → κ * (z ^ M * stiffSum x 1 z⁻¹) = padeNum a b z ∧
      κ * (z ^ M * stiffSum x 0 z⁻¹) = padeNum b a (-z) := by
  have hmon : (Lagrange.nodal Finset.univ x).Monic := Lagrange.nodal_monic
  have hnd : (Lagrange.nodal Finset.univ x).natDegree = M := by rw [Lagrange.natDegree_nodal]; simp
  obtain ⟨κ, hκ, hE⟩ := eq_endPoly hab ha hb hmon hnd horth
    (fun h => by obtain ⟨i, hi⟩ := h0 h; have := Lagrange.eval_nodal_at_node (v := x) (Finset.mem_univ i); rwa [hi] at this)
    (fun h => by obtain ⟨i, hi⟩ := h1 h; have := Lagrange.eval_nodal_at_node (v := x) (Finset.mem_univ i); rwa [hi] at this)
  refine ⟨(κ : ℂ), by exact_mod_cast hκ, fun z hz => ?_⟩
  have hder : ∀ k (t : ℝ), κ * (derivative^[k] (Lagrange.nodal Finset.univ x)).eval t = (derivative^[k + r] (endPoly a b)).eval t := fun k t => by
    rw [Function.iterate_add_apply, hE, iterate_derivative_C_mul, eval_mul, eval_C]
  have hsum : ∀ t : ℝ, (κ : ℂ) * (z ^ M * stiffSum x t z⁻¹) =
      ∑ j ∈ Finset.range (M + 1), z ^ j * (((derivative^[a + b - j] (endPoly a b)).eval t : ℝ) : ℂ) := fun t => by
    unfold stiffSum
    rw [← Finset.sum_range_reflect, Finset.mul_sum, Finset.mul_sum]
    refine Finset.sum_congr rfl fun j hj => ?_
    have hj' : j < M + 1 := Finset.mem_range.1 hj
    rw [show a + b - j = (M + 1 - 1 - j) + r by omega, ← hder, Complex.ofReal_mul, inv_pow]
    have e : z ^ M = z ^ j * z ^ (M + 1 - 1 - j) := by rw [← pow_add]; congr 1; omega
    rw [e]
    have := pow_ne_zero (M + 1 - 1 - j) hz
    field_simp
  have hext : ∀ (m : ℕ) (f : ℕ → ℂ), m ≤ M → (∀ j, m < j → f j = 0) → ∑ j ∈ Finset.range (M + 1), f j = ∑ j ∈ Finset.range (m + 1), f j :=
    fun m f hm hf => (Finset.sum_subset (Finset.range_subset_range.2 (by omega)) fun j _ hj => hf j (by simpa using hj)).symm
  constructor
  · rw [hsum, padeNum, ← hext a _ (by omega) fun j hj => by rw [Nat.choose_eq_zero_of_lt hj]; simp]
    refine Finset.sum_congr rfl fun j hj => ?_
    rw [endPoly_one a b j (by have := Finset.mem_range.1 hj; omega)]
    push_cast
    ring
  · rw [hsum, padeNum, ← hext b _ (by omega) fun j hj => by rw [Nat.choose_eq_zero_of_lt hj]; simp]
    refine Finset.sum_congr rfl fun j hj => ?_
    rw [endPoly_zero a b j (by have := Finset.mem_range.1 hj; omega), add_comm b a]
    push_cast
    rw [neg_pow z]
    ring

end QMat
