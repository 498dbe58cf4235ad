import Verif.Model.Lagrange
import Verif.Lemmas.PolyFunctional
import Verif.Lemmas.Lagrange
import Mathlib.Analysis.SpecialFunctions.Trigonometric.Chebyshev.ChebyshevGauss

/-!
# Lemmas on `computeFejerRule`
-/

namespace QMat

open Polynomial Real

/-- Fejér's cosine formula for the weights. -/
noncomputable def fejerW (n : ℕ) (k : ℕ) : ℝ :=
  2 / n * (1 + 2 * ∑ j ∈ Finset.Ico 1 (n - n / 2), cos (j * (2 * k + 1) * π / n) / (1 - 4 * (j:ℝ) ^ 2))

theorem exp_v0_mul (n : ℕ) (j k : ℕ) (hj : j < n - n / 2) :
    fejerV0 n j * Complex.exp (2 * π * Complex.I * j * k / n) =
      2 * Complex.exp (((j * (2 * k + 1) * π / n : ℝ) : ℂ) * Complex.I) /
        ((1 - 4 * (j:ℝ) ^ 2 : ℝ) : ℂ) := by
  unfold fejerV0 fejerLN
  rw [if_pos hj]
  rw [div_mul_eq_mul_div, mul_assoc, ← Complex.exp_add]
  congr 1
  · congr 2
    push_cast
    ring
  · push_cast; rfl

theorem v0_zero (n j : ℕ) (hj : ¬ j < n - n / 2) : fejerV0 n j = 0 := by
  unfold fejerV0 fejerLN
  rw [if_neg hj]

theorem exp_unit_reflect (n : ℕ) (hn : 0 < n) (j k : ℕ) (hj : j ≤ n) :
    Complex.exp (2 * π * Complex.I * ((n - j : ℕ) : ℂ) * k / n) =
      (starRingEnd ℂ) (Complex.exp (2 * π * Complex.I * j * k / n)) := by
  have hn' : (n : ℂ) ≠ 0 := by exact_mod_cast hn.ne'
  rw [← Complex.exp_conj]
  have e : (2 * π * Complex.I * ((n - j : ℕ) : ℂ) * k / n : ℂ) =
      k * (2 * π * Complex.I) + (starRingEnd ℂ) (2 * π * Complex.I * j * k / n) := by
    rw [Nat.cast_sub hj]
    simp only [map_div₀, map_mul, Complex.conj_I, Complex.conj_ofReal, map_natCast, map_ofNat]
    field_simp
    ring
  rw [e, Complex.exp_add, Complex.exp_nat_mul, Complex.exp_two_pi_mul_I]
  simp

theorem sum_v1 (n : ℕ) (hn : 0 < n) (k : ℕ) :
    ∑ j ∈ Finset.range n, ((starRingEnd ℂ) (fejerV0 n (n - j)) + fejerV0 n j) *
        Complex.exp (2 * π * Complex.I * j * k / n) =
      ((2 + 4 * ∑ j ∈ Finset.Ico 1 (n - n / 2),
        cos (j * (2 * k + 1) * π / n) / (1 - 4 * (j:ℝ) ^ 2) : ℝ) : ℂ) := by
  have hm1 : 1 ≤ n - n / 2 := by omega
  have hmn : n - n / 2 ≤ n := by omega
  set g : ℕ → ℂ := fun j => fejerV0 n j * Complex.exp (2 * π * Complex.I * j * k / n) with hg
  have hgz : ∀ j, ¬ j < n - n / 2 → g j = 0 := fun j hj => by
    simp only [hg, v0_zero n j hj, zero_mul]
  -- the second half of the sum
  have h2 : ∑ j ∈ Finset.range n, fejerV0 n j * Complex.exp (2 * π * Complex.I * j * k / n) =
      g 0 + ∑ j ∈ Finset.Ico 1 (n - n / 2), g j := by
    rw [show g 0 + ∑ j ∈ Finset.Ico 1 (n - n / 2), g j = ∑ j ∈ Finset.Ico 0 (n - n / 2), g j from
      (Finset.sum_eq_sum_Ico_succ_bot (by omega) g).symm, ← Finset.range_eq_Ico]
    symm
    refine Finset.sum_subset (Finset.range_subset_range.mpr hmn) fun j _ hj => hgz j ?_
    simpa using hj
  -- the first half, after reflection
  have h1 : ∑ j ∈ Finset.range n, (starRingEnd ℂ) (fejerV0 n (n - j)) *
      Complex.exp (2 * π * Complex.I * j * k / n) =
      ∑ j ∈ Finset.Ico 1 (n - n / 2), (starRingEnd ℂ) (g j) := by
    have e1 : ∀ j ∈ Finset.range n, (starRingEnd ℂ) (fejerV0 n (n - j)) *
        Complex.exp (2 * π * Complex.I * j * k / n) = (starRingEnd ℂ) (g (n - j)) := by
      intro j hj
      have hj : j < n := by simpa using hj
      have hr := exp_unit_reflect n hn (n - j) k (by omega)
      rw [Nat.sub_sub_self hj.le] at hr
      rw [hr]
      simp only [hg, map_mul]
    rw [Finset.sum_congr rfl e1]
    have e2 : ∑ j ∈ Finset.range n, (starRingEnd ℂ) (g (n - j)) =
        ∑ j ∈ Finset.Ico 1 (n + 1), (starRingEnd ℂ) (g j) := by
      refine Finset.sum_bij' (fun j _ => n - j) (fun j _ => n - j) ?_ ?_ ?_ ?_ ?_
      · intro j hj; simp at hj ⊢; omega
      · intro j hj; simp at hj ⊢; omega
      · intro j hj; simp at hj ⊢; omega
      · intro j hj; simp at hj ⊢; omega
      · intro j hj; rfl
    rw [e2]
    symm
    refine Finset.sum_subset (Finset.Ico_subset_Ico_right (by omega)) fun j hj hj' => ?_
    rw [hgz j, map_zero]
    intro hlt
    simp only [Finset.mem_Ico] at hj hj'
    omega
  simp only [add_mul, Finset.sum_add_distrib]
  rw [h1, h2, add_left_comm, ← Finset.sum_add_distrib]
  have hg0 : g 0 = 2 := by
    simp only [hg]
    rw [exp_v0_mul n 0 k (by omega)]
    simp
  rw [hg0]
  push_cast
  congr 1
  rw [Finset.mul_sum]
  refine Finset.sum_congr rfl fun j hj => ?_
  have hj' : j < n - n / 2 := (Finset.mem_Ico.mp hj).2
  rw [add_comm, Complex.add_conj]
  simp only [hg]
  rw [exp_v0_mul n j k hj', mul_div_assoc, ]
  rw [show (2:ℂ) * (Complex.exp (((j * (2 * k + 1) * π / n : ℝ) : ℂ) * Complex.I) /
        ((1 - 4 * (j:ℝ) ^ 2 : ℝ) : ℂ)) = ((2:ℝ):ℂ) * (Complex.exp (((j * (2 * k + 1) * π / n : ℝ) : ℂ) * Complex.I) /
        ((1 - 4 * (j:ℝ) ^ 2 : ℝ) : ℂ)) by norm_num]
  rw [Complex.re_ofReal_mul, Complex.div_ofReal_re, Complex.exp_ofReal_mul_I_re]
  push_cast
  ring

/-- The inverse DFT used by the code is Fejér's formula, with no imaginary part. -/
theorem npIfft_fejerV1 (n : ℕ) (k : Fin n) :
    npIfft (fejerV1 n) k = ((fejerW n k : ℝ) : ℂ) := by
  have hn : 0 < n := k.pos
  unfold npIfft fejerV1
  rw [Fin.sum_univ_eq_sum_range (fun j => ((starRingEnd ℂ) (fejerV0 n (n - j)) + fejerV0 n j) *
        Complex.exp (2 * π * Complex.I * j * (k : ℕ) / n)) n, sum_v1 n hn k, fejerW]
  push_cast
  ring

theorem fejerW_symm (n : ℕ) (k : ℕ) (hk : k < n) : fejerW n (n - 1 - k) = fejerW n k := by
  have hn : (n : ℝ) ≠ 0 := by
    have : 0 < n := by omega
    exact_mod_cast this.ne'
  unfold fejerW
  congr 3
  refine Finset.sum_congr rfl fun j _ => ?_
  congr 1
  have : ((n - 1 - k : ℕ) : ℝ) = n - 1 - k := by
    rw [Nat.cast_sub (by omega), Nat.cast_sub (by omega)]; simp
  rw [this, show (j * (2 * ((n:ℝ) - 1 - k) + 1) * π / n) =
      j * (2 * π) - (j * (2 * k + 1) * π / n) by field_simp; ring]
  rw [Real.cos_nat_mul_two_pi_sub]

/-! ### exactness -/

/-- Angle of the `k`-th Chebyshev root. -/
noncomputable def fejerTheta (n k : ℕ) : ℝ := (2 * k + 1) / (2 * n) * π

theorem sum_T_theta {n : ℕ} (hn : 0 < n) (q : ℤ) (h : ¬ (2 * n : ℤ) ∣ q) :
    ∑ k ∈ Finset.range n, (Chebyshev.T ℝ q).eval (cos (fejerTheta n k)) = 0 := by
  have := Chebyshev.sumZeroes_T_of_not_dvd h
  unfold Chebyshev.sumZeroes at this
  have hne : π / n ≠ 0 := div_ne_zero pi_ne_zero (by exact_mod_cast hn.ne')
  exact (mul_eq_zero.mp this).resolve_left hne

theorem fejerW_eq_T {n : ℕ} (hn : 0 < n) (k : ℕ) :
    fejerW n k = 2 / n * (1 + 2 * ∑ j ∈ Finset.Ico 1 (n - n / 2),
      (Chebyshev.T ℝ (2 * j)).eval (cos (fejerTheta n k)) / (1 - 4 * (j:ℝ) ^ 2)) := by
  have hn' : (n : ℝ) ≠ 0 := by exact_mod_cast hn.ne'
  unfold fejerW
  congr 3
  refine Finset.sum_congr rfl fun j _ => ?_
  congr 1
  rw [Chebyshev.T_real_cos, fejerTheta]
  congr 1
  push_cast
  field_simp

theorem int_T_even (i : ℕ) :
    Spec.polyInt (Chebyshev.T ℝ (2 * i : ℕ)) (-1) 1 = 2 / (1 - 4 * (i:ℝ) ^ 2) := by
  rcases Nat.eq_zero_or_pos i with rfl | hi
  · simp [Spec.polyInt]; norm_num
  · obtain ⟨m, rfl⟩ : ∃ m, i = m + 1 := ⟨i - 1, by omega⟩
    have h1 : (2 * ((m:ℝ) + 1) + 1) ≠ 0 := by positivity
    have h2 : (2 * (m:ℝ) + 1) ≠ 0 := by positivity
    have hd : Chebyshev.T ℝ ((2 * (m + 1) : ℕ) : ℤ) =
        derivative (C (1 / (2 * (2 * ((m:ℝ) + 1) + 1))) * Chebyshev.T ℝ (2 * m + 3) -
          C (1 / (2 * (2 * (m:ℝ) + 1))) * Chebyshev.T ℝ (2 * m + 1)) := by
      rw [derivative_sub, derivative_C_mul, derivative_C_mul, Chebyshev.T_derivative_eq_U,
        Chebyshev.T_derivative_eq_U]
      have h := Chebyshev.two_mul_T_eq_U_sub_U ℝ (2 * m)
      have e1 : C (1 / (2 * (2 * ((m:ℝ) + 1) + 1))) * (((2 * (m:ℤ) + 3 : ℤ) : ℝ[X]) *
          Chebyshev.U ℝ (2 * m + 3 - 1)) = C (1/2) * Chebyshev.U ℝ (2 * m + 2) := by
        rw [← mul_assoc, show ((2 * (m:ℤ) + 3 : ℤ) : ℝ[X]) = C (2 * (m:ℝ) + 3) by
          rw [← map_intCast (C : ℝ →+* ℝ[X])]; push_cast; rfl, ← C_mul]
        congr 2
        · field_simp; ring
        · ring_nf
      have e2 : C (1 / (2 * (2 * (m:ℝ) + 1))) * (((2 * (m:ℤ) + 1 : ℤ) : ℝ[X]) *
          Chebyshev.U ℝ (2 * m + 1 - 1)) = C (1/2) * Chebyshev.U ℝ (2 * m) := by
        rw [← mul_assoc, show ((2 * (m:ℤ) + 1 : ℤ) : ℝ[X]) = C (2 * (m:ℝ) + 1) by
          rw [← map_intCast (C : ℝ →+* ℝ[X])]; push_cast; rfl, ← C_mul]
        congr 2
        · field_simp
        · ring_nf
      rw [e1, e2, ← mul_sub, ← h]
      rw [← mul_assoc, show (C (1/2) * 2 : ℝ[X]) = 1 by
        rw [show (2 : ℝ[X]) = C 2 from rfl, ← C_mul]; norm_num]
      rw [one_mul]
      push_cast
      ring_nf
    rw [hd, polyInt_derivative]
    have o1 : (2 * (m:ℤ) + 3).negOnePow = -1 := by
      rw [Int.negOnePow_odd]; exact ⟨m + 1, by ring⟩
    have o2 : (2 * (m:ℤ) + 1).negOnePow = -1 := by
      rw [Int.negOnePow_odd]; exact ⟨m, by ring⟩
    simp only [eval_sub, eval_mul, eval_C, Chebyshev.T_eval_one, Chebyshev.T_eval_neg_one, o1, o2]
    push_cast
    have h3 : (1 - 4 * ((m:ℝ) + 1) ^ 2) = -((2 * ((m:ℝ) + 1) + 1) * (2 * (m:ℝ) + 1)) := by ring
    rw [h3]
    field_simp
    ring

theorem int_T_odd (i : ℕ) : Spec.polyInt (Chebyshev.T ℝ (2 * i + 1 : ℕ)) (-1) 1 = 0 := by
  have h : ∫ t in (-1:ℝ)..1, (Chebyshev.T ℝ (2 * i + 1 : ℕ)).eval t =
      ∫ t in (-1:ℝ)..1, (Chebyshev.T ℝ (2 * i + 1 : ℕ)).eval (-t) := by
    rw [intervalIntegral.integral_comp_neg (fun t => (Chebyshev.T ℝ (2 * i + 1 : ℕ)).eval t)]
    simp
  have o : ((2 * i + 1 : ℕ) : ℤ).negOnePow = -1 := by
    rw [Int.negOnePow_odd]; exact ⟨i, by push_cast; ring⟩
  simp only [Chebyshev.T_eval_neg, o] at h
  push_cast at h
  simp only [neg_mul, one_mul, intervalIntegral.integral_neg] at h
  unfold Spec.polyInt
  push_cast
  linarith

/-- Exactness on Chebyshev polynomials, nodes in the order of the angles. -/
theorem fejer_T {n : ℕ} (hn : 0 < n) (p : ℕ) (hp : p < n ∨ (p = n ∧ n % 2 = 1)) :
    ∑ k ∈ Finset.range n, fejerW n k * (Chebyshev.T ℝ p).eval (cos (fejerTheta n k)) =
      Spec.polyInt (Chebyshev.T ℝ p) (-1) 1 := by
  have hn' : (n : ℝ) ≠ 0 := by exact_mod_cast hn.ne'
  set S : ℤ → ℝ := fun q => ∑ k ∈ Finset.range n, (Chebyshev.T ℝ q).eval (cos (fejerTheta n k))
    with hS
  have S0 : S 0 = n := by simp [hS]
  have expand : ∑ k ∈ Finset.range n, fejerW n k * (Chebyshev.T ℝ p).eval (cos (fejerTheta n k)) =
      2 / n * (S p + ∑ j ∈ Finset.Ico 1 (n - n / 2), (S (2 * j + p) + S (2 * j - p)) /
        (1 - 4 * (j:ℝ) ^ 2)) := by
    have : ∀ k, fejerW n k * (Chebyshev.T ℝ p).eval (cos (fejerTheta n k)) =
        2 / n * ((Chebyshev.T ℝ p).eval (cos (fejerTheta n k)) +
        ∑ j ∈ Finset.Ico 1 (n - n / 2), ((Chebyshev.T ℝ (2 * j + p)).eval (cos (fejerTheta n k)) +
          (Chebyshev.T ℝ (2 * j - p)).eval (cos (fejerTheta n k))) / (1 - 4 * (j:ℝ) ^ 2)) := by
      intro k
      rw [fejerW_eq_T hn, mul_assoc, add_mul, one_mul, mul_assoc, Finset.sum_mul, Finset.mul_sum]
      congr 2
      refine Finset.sum_congr rfl fun j _ => ?_
      have h := congrArg (fun q => q.eval (cos (fejerTheta n k)))
        (Chebyshev.T_mul_T ℝ (2 * j) p)
      simp only [eval_mul, eval_add, eval_ofNat] at h
      rw [← h]
      ring
    simp only [this, ← Finset.mul_sum, Finset.sum_add_distrib]
    congr 2
    rw [Finset.sum_comm]
    refine Finset.sum_congr rfl fun j _ => ?_
    rw [← Finset.sum_div, Finset.sum_add_distrib]
  rw [expand]
  have Sp : p ≠ 0 → S p = 0 := fun h0 => sum_T_theta hn _ fun hd => by
    have := Int.le_of_dvd (by omega) hd
    omega
  have Splus : ∀ j ∈ Finset.Ico 1 (n - n / 2), S (2 * j + p) = 0 := fun j hj => by
    refine sum_T_theta hn _ fun hd => ?_
    have hj := Finset.mem_Ico.mp hj
    have := Int.le_of_dvd (by omega) hd
    omega
  have Sminus : ∀ j ∈ Finset.Ico 1 (n - n / 2), 2 * j ≠ p → S (2 * j - p) = 0 := fun j hj hne => by
    refine sum_T_theta hn _ fun hd => ?_
    have hj := Finset.mem_Ico.mp hj
    have hne' : (2 * (j:ℤ) - p) ≠ 0 := by omega
    have := Int.le_of_dvd (a := 2 * (n:ℤ)) (b := |2 * (j:ℤ) - p|) (by positivity)
      ((dvd_abs _ _).mpr hd)
    rcases abs_cases (2 * (j:ℤ) - p) with ⟨h1, _⟩ | ⟨h1, _⟩ <;> omega
  rcases Nat.even_or_odd' p with ⟨i, rfl | rfl⟩
  · rw [int_T_even]
    rcases Nat.eq_zero_or_pos i with rfl | hi
    · rw [Finset.sum_eq_zero]
      · push_cast
        simp only [S0]
        field_simp
        simp
      · intro j hj
        have hj' := Finset.mem_Ico.mp hj
        have a := Splus j hj
        have b := Sminus j hj (by omega)
        rw [a, b]; simp
    · rw [Sp (by omega), zero_add, Finset.sum_eq_single i]
      · have him : i ∈ Finset.Ico 1 (n - n / 2) := by
          rw [Finset.mem_Ico]; omega
        rw [Splus i him, zero_add]
        have : (2 * (i:ℤ) - ((2 * i : ℕ) : ℤ)) = 0 := by push_cast; ring
        rw [this, S0]
        field_simp
      · intro j hj hne
        rw [Splus j hj, Sminus j hj (by omega)]; simp
      · intro hni
        exfalso
        apply hni
        rw [Finset.mem_Ico]; omega
  · rw [int_T_odd, Sp (by omega), zero_add, Finset.sum_eq_zero, mul_zero]
    intro j hj
    rw [Splus j hj, Sminus j hj (by omega)]; simp

theorem fejerNodes_eq (n : ℕ) (k : Fin n) :
    fejerNodes n k = cos (fejerTheta n (n - 1 - k)) := by
  have hn : (n : ℝ) ≠ 0 := by exact_mod_cast k.pos.ne'
  have hk := k.isLt
  unfold fejerNodes fejerTheta
  congr 1
  have : ((n - 1 - k : ℕ) : ℝ) = n - 1 - k := by
    rw [Nat.cast_sub (by omega), Nat.cast_sub (by omega)]; simp
  rw [this]
  field_simp
  ring

theorem sum_fejer_nodes {n : ℕ} (f : ℝ → ℝ) :
    ∑ k : Fin n, fejerW n k * f (fejerNodes n k) =
      ∑ k ∈ Finset.range n, fejerW n k * f (cos (fejerTheta n k)) := by
  rw [← Fin.sum_univ_eq_sum_range (fun k => fejerW n k * f (cos (fejerTheta n k))) n]
  refine Fintype.sum_equiv Fin.revPerm _ _ fun k => ?_
  have hrev : ((Fin.revPerm k : Fin n) : ℕ) = n - 1 - k := by
    rw [Fin.revPerm_apply, Fin.val_rev]; have := k.isLt; omega
  rw [fejerNodes_eq, hrev, fejerW_symm n k k.isLt]

/-- The Fejér rule is exact up to degree `n - 1`, and up to degree `n` when `n` is odd. -/
theorem fejer_exact {n : ℕ} (hn : 0 < n) (p : ℝ[X]) (hp : p.degree < (n + n % 2 : ℕ)) :
    Spec.QuadExact (fejerNodes n) (fun k => fejerW n k) (-1) 1 p := by
  refine linear_ext_of_degrees (fun k => Chebyshev.T ℝ k) (quadL (fejerNodes n) fun k => fejerW n k)
    (intL (-1) 1) (n + n % 2) (fun k _ => ?_) (fun k hk => ?_) p hp
  · rw [Chebyshev.degree_T]; simp
  · rw [quadL_apply, intL_apply, sum_fejer_nodes (fun t => (Chebyshev.T ℝ k).eval t)]
    exact fejer_T hn k (by omega)

theorem computeFejerRule_eq {n : ℕ} (hn : 0 < n) :
    computeFejerRule n = .ok (fejerNodes n, fun k => fejerW n k) := by
  unfold computeFejerRule
  obtain ⟨s, hs⟩ := npMax_eq_ok hn fun k => (npIfft (fejerV1 n) k).im
  have hs' := hs
  simp only [npIfft_fejerV1, Complex.ofReal_im] at hs'
  obtain ⟨-, i, hi⟩ := npMax_ok hs'
  simp only [hs, bind, Except.bind, pure, Except.pure]
  rw [if_neg (by rw [← hi]; norm_num)]
  simp only [npIfft_fejerV1, Complex.ofReal_re]

theorem computeFejerRule_zero : computeFejerRule 0 = .error .valueError := by
  simp [computeFejerRule, npMax, bind, Except.bind]

/-! ### positivity -/

theorem sum_inv_telescope (m : ℕ) (hm : 1 ≤ m) :
    ∑ j ∈ Finset.Ico 1 m, 2 / (4 * (j:ℝ) ^ 2 - 1) = 1 - 1 / (2 * (m:ℝ) - 1) := by
  induction m, hm using Nat.le_induction with
  | base => norm_num
  | succ m hm ih =>
    rw [Finset.sum_Ico_succ_top hm, ih]
    have hm' : (1:ℝ) ≤ m := by exact_mod_cast hm
    have h1 : (2 * (m:ℝ) - 1) ≠ 0 := by linarith
    have h3 : (2 * (m:ℝ) + 1) ≠ 0 := by linarith
    have h2 : (4 * (m:ℝ) ^ 2 - 1) = (2 * (m:ℝ) - 1) * (2 * (m:ℝ) + 1) := by ring
    rw [h2]
    push_cast
    rw [show 2 * ((m:ℝ) + 1) - 1 = 2 * (m:ℝ) + 1 by ring]
    field_simp
    ring

theorem fejerW_pos {n : ℕ} (hn : 0 < n) (k : ℕ) : 0 < fejerW n k := by
  have hn' : (0:ℝ) < n := by exact_mod_cast hn
  have hm1 : 1 ≤ n - n / 2 := by omega
  unfold fejerW
  refine mul_pos (by positivity) ?_
  have h : -(∑ j ∈ Finset.Ico 1 (n - n / 2), 2 / (4 * (j:ℝ) ^ 2 - 1)) ≤
      2 * ∑ j ∈ Finset.Ico 1 (n - n / 2), cos (j * (2 * k + 1) * π / n) / (1 - 4 * (j:ℝ) ^ 2) := by
    rw [Finset.mul_sum, ← Finset.sum_neg_distrib]
    refine Finset.sum_le_sum fun j hj => ?_
    have hj1 : (1:ℝ) ≤ j := by exact_mod_cast (Finset.mem_Ico.mp hj).1
    have hpos : 0 < 4 * (j:ℝ) ^ 2 - 1 := by nlinarith
    have hc := cos_le_one (j * (2 * k + 1) * π / n)
    rw [show (1 - 4 * (j:ℝ) ^ 2) = -(4 * (j:ℝ) ^ 2 - 1) by ring, div_neg, mul_neg, ← mul_div_assoc]
    rw [neg_le_neg_iff, div_le_div_iff_of_pos_right hpos]
    linarith
  rw [sum_inv_telescope _ hm1] at h
  have hm' : (1:ℝ) ≤ ((n - n / 2 : ℕ) : ℝ) := by exact_mod_cast hm1
  have : 0 < 1 / (2 * ((n - n / 2 : ℕ) : ℝ) - 1) := by
    apply one_div_pos.mpr; linarith
  linarith

theorem fejerNodes_strictMono (n : ℕ) : StrictMono (fejerNodes n) := by
  intro i j hij
  have hn : (0:ℝ) < n := by exact_mod_cast i.pos
  unfold fejerNodes
  have hi : (i:ℝ) + 1 ≤ n := by exact_mod_cast i.isLt
  have hj : (j:ℝ) + 1 ≤ n := by exact_mod_cast j.isLt
  have hij' : (i:ℝ) < j := by exact_mod_cast hij
  have h0 : (0:ℝ) ≤ i := by positivity
  have hpi : 0 < π / (2 * n) := by positivity
  refine cos_lt_cos_of_nonneg_of_le_pi ?_ ?_ ?_
  · apply mul_nonneg _ hpi.le; linarith
  · rw [mul_div_assoc', div_le_iff₀ (by positivity)]
    nlinarith [pi_pos]
  · apply mul_lt_mul_of_pos_right _ hpi; linarith

theorem fejerNodes_mem (n : ℕ) (k : Fin n) : fejerNodes n k ∈ Set.Ioo (-1 : ℝ) 1 := by
  have hn : (0:ℝ) < n := by exact_mod_cast k.pos
  have hk : (k:ℝ) + 1 ≤ n := by exact_mod_cast k.isLt
  have h0 : (0:ℝ) ≤ k := by positivity
  have hpi : 0 < π / (2 * n) := by positivity
  set x := (((n:ℝ) - k) * 2 - 1) * (π / (2 * n)) with hx
  have hx0 : 0 < x := mul_pos (by linarith) hpi
  have hxpi : x < π := by
    rw [hx, mul_div_assoc', div_lt_iff₀ (by positivity)]
    nlinarith [pi_pos]
  have h1 := cos_lt_cos_of_nonneg_of_le_pi le_rfl hxpi.le hx0
  have h2 := cos_lt_cos_of_nonneg_of_le_pi hx0.le le_rfl hxpi
  rw [cos_zero] at h1
  rw [cos_pi] at h2
  exact ⟨h2, h1⟩

end QMat
