import Verif.Model.Num
import Verif.Spec.Poly
import Verif.Props.Lagrange
import Mathlib.LinearAlgebra.Matrix.DotProduct

/-!
# C63, C64: `getExtrapolationMatrix` and `numericalOrder`
-/

namespace QMat

open Matrix Polynomial Spec

/-! ## C63 -/

theorem vander_mulVec {n : ℕ} (x : Fin n → ℝ) (N : ℕ) (v : Fin N → ℝ) (i : Fin n) :
    (npVander x N *ᵥ v) i = (∑ j : Fin N, C (v j) * X ^ (j : ℕ) : ℝ[X]).eval (x i) := by
  change ∑ j : Fin N, x i ^ (j : ℕ) * v j = _
  rw [Polynomial.eval_finsetSum]
  refine Finset.sum_congr rfl fun j _ => ?_
  rw [Polynomial.eval_mul, Polynomial.eval_C, Polynomial.eval_pow, Polynomial.eval_X, mul_comm]

theorem vander_coeff {n : ℕ} (x : Fin n → ℝ) {N : ℕ} {p : ℝ[X]} (hp : p.natDegree < N) :
    (npVander x N *ᵥ fun j => p.coeff j) = vals p x := by
  funext i
  change ∑ j : Fin N, x i ^ (j : ℕ) * p.coeff j = p.eval (x i)
  rw [Polynomial.eval_eq_sum_range' hp, Finset.sum_range]
  exact Finset.sum_congr rfl fun j _ => mul_comm _ _

theorem natDegree_ofVec {N : ℕ} (hN : 0 < N) (v : Fin N → ℝ) :
    (∑ j : Fin N, C (v j) * X ^ (j : ℕ) : ℝ[X]).natDegree < N := by
  refine lt_of_le_of_lt (Polynomial.natDegree_sum_le_of_forall_le (n := N - 1) _ _ fun j _ => ?_) (by omega)
  exact (Polynomial.natDegree_C_mul_X_pow_le _ _).trans (by have := j.2; omega)

theorem coeff_ofVec {N : ℕ} (v : Fin N → ℝ) (i : Fin N) :
    (∑ j : Fin N, C (v j) * X ^ (j : ℕ) : ℝ[X]).coeff i = v i := by
  rw [Polynomial.finsetSum_coeff, Finset.sum_eq_single i]
  · simp
  · intro j _ hj
    rw [Polynomial.coeff_C_mul, Polynomial.coeff_X_pow, if_neg, mul_zero]
    exact fun h => hj (Fin.ext h.symm)
  · simp

/-- The normal matrix is regular if and only if there are enough different nodes. -/
theorem vander_normal {n : ℕ} (x : Fin n → ℝ) (N : ℕ) :
    ((npVander x N)ᵀ * npVander x N).det ≠ 0 ↔ N ≤ (Finset.univ.image x).card := by
  have hker : ((npVander x N)ᵀ * npVander x N).det = 0 ↔ ∃ v : Fin N → ℝ, v ≠ 0 ∧ npVander x N *ᵥ v = 0 := by
    rw [← Matrix.exists_mulVec_eq_zero_iff]
    refine exists_congr fun v => and_congr_right fun _ => ⟨fun h => ?_, fun h => ?_⟩
    · have h1 : (npVander x N *ᵥ v) ⬝ᵥ (npVander x N *ᵥ v) = 0 := by
        rw [Matrix.dotProduct_mulVec, Matrix.vecMul_mulVec, ← Matrix.dotProduct_mulVec, h,
          dotProduct_zero]
      exact dotProduct_self_eq_zero.mp h1
    · rw [← Matrix.mulVec_mulVec, h, Matrix.mulVec_zero]
  rw [ne_eq, hker]
  constructor
  · intro h
    by_contra hlt
    push Not at hlt
    -- the node polynomial has a non-zero coefficient vector in the kernel
    set s := Finset.univ.image x with hs
    set q : ℝ[X] := ∏ a ∈ s, (X - C a) with hq
    have hmon : q.Monic := Polynomial.monic_prod_of_monic _ _ fun a _ => Polynomial.monic_X_sub_C a
    have hdeg : q.natDegree = s.card := by
      rw [hq, Polynomial.natDegree_prod_of_monic _ _ fun a _ => Polynomial.monic_X_sub_C a]
      simp
    refine h ⟨fun j => q.coeff j, fun h0 => ?_, ?_⟩
    · have := congrFun h0 ⟨s.card, hlt⟩
      have h1 : q.coeff s.card = 1 := by
        rw [← hdeg]
        exact hmon
      simp only [h1, Pi.zero_apply] at this
      exact one_ne_zero this
    · rw [vander_coeff x (by rw [hdeg]; exact hlt)]
      funext i
      rw [vals, hq, Polynomial.eval_prod]
      exact Finset.prod_eq_zero (Finset.mem_image_of_mem x (Finset.mem_univ i)) (by simp)
  · rintro h ⟨v, hv, h0⟩
    apply hv
    rcases Nat.eq_zero_or_pos N with rfl | hN
    · exact Subsingleton.elim _ _
    set p : ℝ[X] := ∑ j : Fin N, C (v j) * X ^ (j : ℕ) with hp
    have hdeg : p.natDegree < N := natDegree_ofVec hN v
    have hp0 : p = 0 := by
      refine Polynomial.eq_zero_of_natDegree_lt_card_of_eval_eq_zero' p (Finset.univ.image x) ?_
        (hdeg.trans_le h)
      intro a ha
      obtain ⟨i, -, rfl⟩ := Finset.mem_image.mp ha
      rw [hp, ← vander_mulVec, h0]
      rfl
    funext i
    rw [← coeff_ofVec v i, ← hp, hp0]
    rfl

theorem extrapolation_eq {M N : ℕ} (nodes : Fin M → ℝ) (times : Fin N → ℝ) (d : ℕ)
    (h : d + 1 ≤ (Finset.univ.image nodes).card) :
    getExtrapolationMatrix nodes times (some d) = .ok (npVander times (d + 1) *
      (((npVander nodes (d + 1))ᵀ * npVander nodes (d + 1))⁻¹ * (npVander nodes (d + 1))ᵀ)) := by
  have hd := (vander_normal nodes (d + 1)).mpr h
  unfold getExtrapolationMatrix
  simp only [Option.getD_some]
  rw [if_neg (by omega)]
  change (do
    let C ← npSolveMat ((npVander nodes (d + 1))ᵀ * npVander nodes (d + 1)) (npVander nodes (d + 1))ᵀ
    return npVander times (d + 1) * C : PyResult _) = _
  simp only [npSolveMat, if_neg hd, bind, Except.bind, pure, Except.pure]

/-- C63: when a matrix is returned: `pOrder ≥ -1` (else `ValueError`), and at least `pOrder + 1` different
nodes (else `LinAlgError`). -/
theorem C63_total {M N : ℕ} (nodes : Fin M → ℝ) (times : Fin N → ℝ) (d : ℤ) :
    (d < -1 → getExtrapolationMatrix nodes times (some d) = .error .valueError) ∧
    (-1 ≤ d → (Finset.univ.image nodes).card < d + 1 →
      getExtrapolationMatrix nodes times (some d) = .error .linAlgError) ∧
    (-1 ≤ d → d + 1 ≤ (Finset.univ.image nodes).card →
      ∃ P, getExtrapolationMatrix nodes times (some d) = .ok P) := by
  refine ⟨fun h => ?_, fun h h2 => ?_, fun h h2 => ?_⟩
  · unfold getExtrapolationMatrix
    simp only [Option.getD_some]
    rw [if_pos (by omega)]
    rfl
  · have hd := (vander_normal nodes (d + 1).toNat).not.mpr (by omega)
    rw [not_not] at hd
    unfold getExtrapolationMatrix
    simp only [Option.getD_some]
    rw [if_neg (by omega)]
    simp only [npSolveMat, if_pos hd, bind, Except.bind]
  · have hd := (vander_normal nodes (d + 1).toNat).mpr (by omega)
    unfold getExtrapolationMatrix
    simp only [Option.getD_some]
    rw [if_neg (by omega)]
    simp only [npSolveMat, if_neg hd, bind, Except.bind, pure, Except.pure]
    exact ⟨_, rfl⟩

theorem extrapolation_cond {M N : ℕ} {nodes : Fin M → ℝ} {times : Fin N → ℝ} {d : ℕ}
    {P : Matrix (Fin N) (Fin M) ℝ} (h : getExtrapolationMatrix nodes times (some d) = .ok P) :
    d + 1 ≤ (Finset.univ.image nodes).card := by
  by_contra hlt
  have := (C63_total nodes times d).2.1 (by omega) (by omega)
  rw [this] at h
  cases h

/-- C63: the values of a polynomial of degree at most `pOrder` are mapped to its values at the times. -/
theorem C63_exact {M N : ℕ} (nodes : Fin M → ℝ) (times : Fin N → ℝ) (d : ℕ)
    (P : Matrix (Fin N) (Fin M) ℝ) (h : getExtrapolationMatrix nodes times (some d) = .ok P)
    (p : ℝ[X]) (hp : p.natDegree ≤ d) : P *ᵥ vals p nodes = vals p times := by
  have hc := extrapolation_cond h
  rw [extrapolation_eq nodes times d hc] at h
  cases h
  have hu := isUnit_iff_ne_zero.mpr ((vander_normal nodes (d + 1)).mpr hc)
  rw [← vander_coeff nodes (Nat.lt_succ_of_le hp), ← vander_coeff times (Nat.lt_succ_of_le hp),
    Matrix.mulVec_mulVec, Matrix.mul_assoc, Matrix.mul_assoc, Matrix.nonsing_inv_mul _ hu, Matrix.mul_one]

/-- C63: for any node values the result is the values at the times of the unique polynomial of degree at
most `pOrder` that is closest to the node values in the least squares sense. -/
theorem C63_least_squares {M N : ℕ} (nodes : Fin M → ℝ) (times : Fin N → ℝ) (d : ℕ)
    (P : Matrix (Fin N) (Fin M) ℝ) (h : getExtrapolationMatrix nodes times (some d) = .ok P)
    (y : Fin M → ℝ) :
    ∃ p : ℝ[X], p.natDegree ≤ d ∧ P *ᵥ y = vals p times ∧
      ∀ q : ℝ[X], q.natDegree ≤ d → q ≠ p →
        ∑ i, (p.eval (nodes i) - y i) ^ 2 < ∑ i, (q.eval (nodes i) - y i) ^ 2 := by
  have hc := extrapolation_cond h
  rw [extrapolation_eq nodes times d hc] at h
  cases h
  have hd := (vander_normal nodes (d + 1)).mpr hc
  have hu := isUnit_iff_ne_zero.mpr hd
  set V := npVander nodes (d + 1) with hV
  set v : Fin (d + 1) → ℝ := ((Vᵀ * V)⁻¹ * Vᵀ) *ᵥ y with hv
  set p : ℝ[X] := ∑ j : Fin (d + 1), C (v j) * X ^ (j : ℕ) with hp
  have hpd : p.natDegree < d + 1 := natDegree_ofVec (by omega) v
  have hVv : V *ᵥ v = vals p nodes := funext fun i => vander_mulVec nodes _ v i
  refine ⟨p, by omega, ?_, fun q hq hne => ?_⟩
  · rw [← Matrix.mulVec_mulVec]
    exact funext fun i => vander_mulVec times _ v i
  · -- normal equations: the residual is orthogonal to the polynomials
    have hort : Vᵀ *ᵥ (V *ᵥ v - y) = 0 := by
      rw [Matrix.mulVec_sub, Matrix.mulVec_mulVec, hv, Matrix.mulVec_mulVec, ← Matrix.mul_assoc,
        Matrix.mul_nonsing_inv _ hu, Matrix.one_mul, sub_self]
    set w : Fin (d + 1) → ℝ := (fun j : Fin (d + 1) => q.coeff j) - v with hw
    have hVw : V *ᵥ w = vals q nodes - vals p nodes := by
      rw [hw, Matrix.mulVec_sub, hVv, vander_coeff nodes (by omega)]
    have hw0 : V *ᵥ w ≠ 0 := by
      intro h0
      apply hne
      have hker : (Vᵀ * V) *ᵥ w = 0 := by rw [← Matrix.mulVec_mulVec, h0, Matrix.mulVec_zero]
      have : w = 0 := by
        by_contra hw1
        exact hd (Matrix.exists_mulVec_eq_zero_iff.mp ⟨w, hw1, hker⟩)
      ext j
      by_cases hj : j < d + 1
      · have h1 := congrFun this ⟨j, hj⟩
        have h2 := coeff_ofVec v ⟨j, hj⟩
        simp only [hw, Pi.sub_apply, Pi.zero_apply] at h1
        rw [hp, h2]
        linarith
      · rw [Polynomial.coeff_eq_zero_of_natDegree_lt (by omega),
          Polynomial.coeff_eq_zero_of_natDegree_lt (by omega)]
    have hcross : (V *ᵥ w) ⬝ᵥ (V *ᵥ v - y) = 0 := by
      rw [dotProduct_comm, Matrix.dotProduct_mulVec, ← Matrix.mulVec_transpose, hort, zero_dotProduct]
    have hpos : 0 < (V *ᵥ w) ⬝ᵥ (V *ᵥ w) :=
      lt_of_le_of_ne (Finset.sum_nonneg fun i _ => mul_self_nonneg _)
        (fun h => hw0 (dotProduct_self_eq_zero.mp h.symm))
    have e1 : ∑ i, (p.eval (nodes i) - y i) ^ 2 = (V *ᵥ v - y) ⬝ᵥ (V *ᵥ v - y) := by
      rw [hVv]
      exact Finset.sum_congr rfl fun i _ => by simp [vals, pow_two]
    have e2 : ∑ i, (q.eval (nodes i) - y i) ^ 2 =
        (V *ᵥ w + (V *ᵥ v - y)) ⬝ᵥ (V *ᵥ w + (V *ᵥ v - y)) := by
      rw [hVw, hVv]
      refine Finset.sum_congr rfl fun i _ => ?_
      simp only [vals, Pi.add_apply, Pi.sub_apply]
      ring
    rw [e1, e2, add_dotProduct, dotProduct_add, dotProduct_add, hcross,
      dotProduct_comm (V *ᵥ v - y) (V *ᵥ w), hcross]
    linarith

/-- Instance: the straight line through three points that are not on a line. -/
example : ∃ (P : Matrix (Fin 1) (Fin 3) ℝ) (p : ℝ[X]), getExtrapolationMatrix ![0, 1, 2] ![3] (some (1 : ℕ)) = .ok P ∧
    p.natDegree ≤ 1 ∧ P *ᵥ ![1, 0, 5] = vals p ![3] := by
  have hcard : (Finset.univ.image ![(0:ℝ), 1, 2]).card = 3 := by
    rw [Finset.card_image_of_injective _ (by
      intro i j hij
      fin_cases i <;> fin_cases j <;> simp at hij ⊢), Finset.card_univ, Fintype.card_fin]
  obtain ⟨P, hP⟩ := (C63_total ![(0:ℝ), 1, 2] ![(3:ℝ)] (1 : ℕ)).2.2 (by norm_num) (by rw [hcard]; norm_num)
  obtain ⟨p, h1, h2, -⟩ := C63_least_squares _ _ 1 P hP ![1, 0, 5]
  exact ⟨P, p, hP, h1, h2⟩

/-- C63: the default order is the largest possible. -/
theorem C63_default {M N : ℕ} (hM : 0 < M) (nodes : Fin M → ℝ) (times : Fin N → ℝ) :
    getExtrapolationMatrix nodes times = getExtrapolationMatrix nodes times (some (M - 1 : ℕ)) := by
  have : ((M:ℤ) - 1) = ((M - 1 : ℕ) : ℤ) := by omega
  rw [← this]
  rfl

/-- Instance: three nodes. -/
example : getExtrapolationMatrix ![(0:ℝ), 1, 2] ![(3:ℝ)] = getExtrapolationMatrix ![0, 1, 2] ![3] (some (2 : ℕ)) :=
  C63_default (by norm_num) _ _

/-- C63: with the default order and different nodes, the extrapolation matrix is the interpolation
matrix of `LagrangeApproximation`. -/
theorem C63_is_interpolation {M N : ℕ} (hM : 0 < M) (nodes : Fin M → ℝ) (times : Fin N → ℝ)
    (hinc : StrictMono nodes) (L : LagrangeApproximation M)
    (hL : LagrangeApproximation.new nodes = .ok L) :
    getExtrapolationMatrix nodes times = .ok (L.getInterpolationMatrix times) := by
  have hcard : (Finset.univ.image nodes).card = M := by
    rw [Finset.card_image_of_injective _ hinc.injective, Finset.card_univ, Fintype.card_fin]
  obtain ⟨P, hP⟩ := (C63_total nodes times (M - 1 : ℕ)).2.2 (by omega) (by rw [hcard]; omega)
  rw [C63_default hM, hP]
  congr 1
  ext i j
  -- both map the values of every polynomial to the values at the times
  set p := Lagrange.interpolate Finset.univ nodes (Pi.single j 1) with hp
  have hdeg : p.degree < M := by
    have := Lagrange.degree_interpolate_lt (s := Finset.univ) (v := nodes) (Pi.single j (1:ℝ))
      hinc.injective.injOn
    rwa [Finset.card_univ, Fintype.card_fin] at this
  have hval : vals p nodes = Pi.single j 1 := by
    funext k
    exact Lagrange.eval_interpolate_at_node _ hinc.injective.injOn (Finset.mem_univ k)
  have hnd : p.natDegree ≤ M - 1 := by
    rcases eq_or_ne p 0 with h0 | h0
    · rw [h0]; simp
    · have := (Polynomial.natDegree_lt_iff_degree_lt h0).mpr hdeg
      omega
  have h1 := congrFun (C63_exact nodes times _ P hP p hnd) i
  have h2 := congrFun (C01_interpolation_exact nodes hinc _ _ _ _ _ (by simp) L hL times p hdeg) i
  rw [hval, Matrix.mulVec_single_one] at h1 h2
  exact h1.trans h2.symm

/-- C63, instance: a line through three nodes. -/
example : ∃ P : Matrix (Fin 1) (Fin 3) ℝ, getExtrapolationMatrix ![0, 1, 2] ![3] (some 1) = .ok P ∧
    P *ᵥ ![1, 3, 5] = ![7] := by
  have hcard : (Finset.univ.image ![(0:ℝ), 1, 2]).card = 3 := by
    rw [Finset.card_image_of_injective _ (by
      intro i j hij
      fin_cases i <;> fin_cases j <;> simp at hij ⊢), Finset.card_univ, Fintype.card_fin]
  obtain ⟨P, hP⟩ := (C63_total ![(0:ℝ), 1, 2] ![(3:ℝ)] (1 : ℕ)).2.2 (by norm_num) (by rw [hcard]; norm_num)
  refine ⟨P, hP, ?_⟩
  have h := C63_exact _ _ 1 P hP (C 2 * X + C 1) (by
    exact Polynomial.natDegree_linear_le)
  have e1 : vals (C 2 * X + C 1) ![(0:ℝ), 1, 2] = ![1, 3, 5] := by
    funext i; fin_cases i <;> norm_num [vals]
  have e2 : vals (C 2 * X + C 1) ![(3:ℝ)] = ![7] := by
    funext i; fin_cases i; norm_num [vals]
  rwa [e1, e2] at h

/-! ## C64 -/

section
variable {n : ℕ} (x y : Fin n → ℝ)

theorem sum_sub_mean (hn : 0 < n) : ∑ i, (x i - npMean x) = 0 := by
  have : (n:ℝ) ≠ 0 := by positivity
  rw [Finset.sum_sub_distrib, Finset.sum_const, Finset.card_univ, Fintype.card_fin, nsmul_eq_mul, npMean]
  field_simp
  simp

theorem sX_pos (h : ∃ i j, x i ≠ x j) : 0 < ∑ i, (x i - npMean x) ^ 2 := by
  refine lt_of_le_of_ne (Finset.sum_nonneg fun i _ => sq_nonneg _) fun h0 => ?_
  have h1 := (Finset.sum_eq_zero_iff_of_nonneg fun i _ => sq_nonneg (x i - npMean x)).mp h0.symm
  obtain ⟨i, j, hij⟩ := h
  have hi := pow_eq_zero_iff (two_ne_zero) |>.mp (h1 i (Finset.mem_univ i))
  have hj := pow_eq_zero_iff (two_ne_zero) |>.mp (h1 j (Finset.mem_univ j))
  exact hij (by linarith)

end

/-- `log10 (1 / n)` and `log10 e`, the data of the regression. -/
noncomputable def orderPoints {n : ℕ} (nSteps err : Fin n → ℝ) (i : Fin n) : ℝ × ℝ :=
  (Real.logb 10 (1 / nSteps i), Real.logb 10 (err i))

theorem orderX_ne {n : ℕ} {nSteps : Fin n → ℝ} (hpos : ∀ i, 0 < nSteps i)
    (hdiff : ∃ i j, nSteps i ≠ nSteps j) : ∃ i j, orderX nSteps i ≠ orderX nSteps j := by
  obtain ⟨i, j, h⟩ := hdiff
  refine ⟨i, j, fun he => h ?_⟩
  have h1 : (1 / nSteps i) = 1 / nSteps j :=
    Real.logb_injOn_pos (by norm_num) (by simpa using hpos i) (by simpa using hpos j) he
  have := hpos i
  have := hpos j
  field_simp at h1
  linarith

/-- C64: `numericalOrder` is the least squares line of `log10 err` against `log10 (1/nSteps)`: its slope is
the first result, and the second is the root mean square of the residual; no other line has a smaller
residual, and only this one has a residual that small. -/
theorem C64_regression {n : ℕ} (nSteps err : Fin n → ℝ) (hpos : ∀ i, 0 < nSteps i)
    (hdiff : ∃ i j, nSteps i ≠ nSteps j) :
    ∃ alpha : ℝ,
      (numericalOrder nSteps err).2 ^ 2 = (∑ i, ((orderPoints nSteps err i).2 -
        (alpha + (numericalOrder nSteps err).1 * (orderPoints nSteps err i).1)) ^ 2) / n ∧
      0 ≤ (numericalOrder nSteps err).2 ∧
      ∀ a b : ℝ, (a, b) ≠ (alpha, (numericalOrder nSteps err).1) →
        (numericalOrder nSteps err).2 ^ 2 <
          (∑ i, ((orderPoints nSteps err i).2 - (a + b * (orderPoints nSteps err i).1)) ^ 2) / n := by
  obtain ⟨i0, j0, h0⟩ := hdiff
  have hn : 0 < n := i0.pos
  have hn' : (0:ℝ) < n := by exact_mod_cast hn
  have hX := sX_pos (orderX nSteps) (orderX_ne hpos ⟨i0, j0, h0⟩)
  set x := orderX nSteps with hx
  set y : Fin n → ℝ := fun i => Real.logb 10 (err i) with hy
  set sX := ∑ i, (x i - npMean x) ^ 2 with hsX
  set beta := (∑ i, (x i - npMean x) * (y i - npMean y)) / sX with hb
  set alpha := npMean y - beta * npMean x with ha
  have hsq : (Real.sqrt (∑ i, (y i - (alpha + beta * x i)) ^ 2) / Real.sqrt n) ^ 2 =
      (∑ i, (y i - (alpha + beta * x i)) ^ 2) / n := by
    rw [div_pow, Real.sq_sqrt (Finset.sum_nonneg fun i _ => sq_nonneg _), Real.sq_sqrt hn'.le]
  refine ⟨alpha, hsq, by change 0 ≤ Real.sqrt _ / Real.sqrt n; positivity, fun a b hab => ?_⟩
  change (Real.sqrt (∑ i, (y i - (alpha + beta * x i)) ^ 2) / Real.sqrt n) ^ 2 <
    (∑ i, (y i - (a + b * x i)) ^ 2) / n
  rw [hsq]
  refine div_lt_div_of_pos_right ?_ hn'
  -- residuals of the regression are orthogonal to the constants and to `x`
  have hbX : beta * sX = ∑ i, (x i - npMean x) * (y i - npMean y) := by
    rw [hb, div_mul_cancel₀ _ hX.ne']
  have r1 : ∑ i, (y i - (alpha + beta * x i)) = 0 := by
    have : ∀ i, y i - (alpha + beta * x i) = (y i - npMean y) - beta * (x i - npMean x) := fun i => by
      rw [ha]; ring
    simp only [this]
    rw [Finset.sum_sub_distrib, ← Finset.mul_sum, sum_sub_mean y hn, sum_sub_mean x hn]
    ring
  have r2 : ∑ i, (y i - (alpha + beta * x i)) * x i = 0 := by
    have : ∀ i, (y i - (alpha + beta * x i)) * x i = (x i - npMean x) * (y i - npMean y) -
        beta * (x i - npMean x) ^ 2 + npMean x * (y i - (alpha + beta * x i)) := fun i => by
      rw [ha]; ring
    simp only [this]
    rw [Finset.sum_add_distrib, Finset.sum_sub_distrib, ← Finset.mul_sum, ← Finset.mul_sum, r1, ← hsX,
      ← hbX]
    ring
  have hexp : ∑ i, (y i - (a + b * x i)) ^ 2 = ∑ i, (y i - (alpha + beta * x i)) ^ 2 +
      ∑ i, ((alpha - a) + (beta - b) * x i) ^ 2 := by
    have : ∀ i, (y i - (a + b * x i)) ^ 2 = (y i - (alpha + beta * x i)) ^ 2 +
        ((alpha - a) + (beta - b) * x i) ^ 2 + (2 * (alpha - a) * (y i - (alpha + beta * x i)) +
          2 * (beta - b) * ((y i - (alpha + beta * x i)) * x i)) := fun i => by ring
    simp only [this]
    rw [Finset.sum_add_distrib, Finset.sum_add_distrib, Finset.sum_add_distrib, ← Finset.mul_sum,
      ← Finset.mul_sum, r1, r2]
    ring
  rw [hexp]
  have hpos2 : 0 < ∑ i, ((alpha - a) + (beta - b) * x i) ^ 2 := by
    refine lt_of_le_of_ne (Finset.sum_nonneg fun i _ => sq_nonneg _) fun hz => hab ?_
    have h1 := (Finset.sum_eq_zero_iff_of_nonneg fun i _ => sq_nonneg ((alpha - a) + (beta - b) * x i)).mp hz.symm
    have h2 : ∀ i, (alpha - a) + (beta - b) * x i = 0 := fun i =>
      pow_eq_zero_iff two_ne_zero |>.mp (h1 i (Finset.mem_univ i))
    obtain ⟨i, j, hij⟩ := orderX_ne hpos ⟨i0, j0, h0⟩
    have hbb : (beta - b) * (x i - x j) = 0 := by linear_combination h2 i - h2 j
    have hb0 : beta - b = 0 := (mul_eq_zero.mp hbb).resolve_right (sub_ne_zero.mpr hij)
    have ha0 : alpha - a = 0 := by have := h2 i; rw [hb0] at this; linarith
    exact Prod.ext (by simp only; linarith) (by
      change b = beta
      linarith)
  linarith

/-- Instance: three errors. -/
example := C64_regression ![1, 2, 4] ![1, 1 / 2, 1 / 3] (fun i => by fin_cases i <;> norm_num) ⟨0, 1, by norm_num⟩

theorem logb_power {C p m : ℝ} (hC : 0 < C) (hm : 0 < m) :
    Real.logb 10 (C * m ^ (-p)) = Real.logb 10 C + p * Real.logb 10 (1 / m) := by
  rw [Real.logb_mul hC.ne' (Real.rpow_pos_of_pos hm _).ne', Real.logb_rpow_eq_mul_logb_of_pos hm, one_div,
    Real.logb_inv]
  ring

/-- C64: errors `C n^{-p}` give the order `p` and residual zero, and only such errors give residual zero. -/
theorem C64_power_law {n : ℕ} (nSteps err : Fin n → ℝ) (hpos : ∀ i, 0 < nSteps i)
    (herr : ∀ i, 0 < err i) (hdiff : ∃ i j, nSteps i ≠ nSteps j) (p : ℝ) :
    (∃ C > 0, ∀ i, err i = C * nSteps i ^ (-p)) ↔
      (numericalOrder nSteps err).1 = p ∧ (numericalOrder nSteps err).2 = 0 := by
  have hn : 0 < n := by obtain ⟨i, -⟩ := hdiff; exact i.pos
  have hn' : (0:ℝ) < n := by exact_mod_cast hn
  obtain ⟨alpha, h1, h2, h3⟩ := C64_regression nSteps err hpos hdiff
  constructor
  · rintro ⟨C, hC, he⟩
    have hz : (∑ i, ((orderPoints nSteps err i).2 -
        (Real.logb 10 C + p * (orderPoints nSteps err i).1)) ^ 2) / n = 0 := by
      rw [Finset.sum_eq_zero fun i _ => ?_, zero_div]
      simp only [orderPoints]
      rw [he i, logb_power hC (hpos i), sub_self]
      ring
    by_cases hab : (Real.logb 10 C, p) = (alpha, (numericalOrder nSteps err).1)
    · have hp := (Prod.ext_iff.mp hab).2
      have ha := (Prod.ext_iff.mp hab).1
      simp only at hp ha
      refine ⟨hp.symm, ?_⟩
      rw [← ha, ← hp, hz] at h1
      exact pow_eq_zero_iff two_ne_zero |>.mp h1
    · have := h3 _ _ hab
      rw [hz] at this
      exact absurd this (not_lt.mpr (sq_nonneg _))
  · rintro ⟨hp, hr⟩
    rw [hr, hp] at h1
    have h4 : ∑ i, ((orderPoints nSteps err i).2 - (alpha + p * (orderPoints nSteps err i).1)) ^ 2 = 0 := by
      have h5 : (0:ℝ) = (∑ i, ((orderPoints nSteps err i).2 -
        (alpha + p * (orderPoints nSteps err i).1)) ^ 2) / n := by simpa using h1
      rcases div_eq_zero_iff.mp h5.symm with h | h
      · exact h
      · exact absurd h hn'.ne'
    have h5 := (Finset.sum_eq_zero_iff_of_nonneg fun i _ => sq_nonneg _).mp h4
    refine ⟨10 ^ alpha, by positivity, fun i => ?_⟩
    have h6 := pow_eq_zero_iff two_ne_zero |>.mp (h5 i (Finset.mem_univ i))
    simp only [orderPoints] at h6
    have h7 : Real.logb 10 (err i) = Real.logb 10 (10 ^ alpha * nSteps i ^ (-p)) := by
      rw [logb_power (by positivity) (hpos i), Real.logb_rpow (by norm_num) (by norm_num)]
      linarith
    exact Real.logb_injOn_pos (by norm_num : (1:ℝ) < 10) (herr i)
      (mul_pos (by positivity) (Real.rpow_pos_of_pos (hpos i) _)) h7

/-- C64: multiplying all errors, or all numbers of steps, by a positive number changes nothing. -/
theorem C64_scaling {n : ℕ} (nSteps err : Fin n → ℝ) (hpos : ∀ i, 0 < nSteps i)
    (herr : ∀ i, 0 < err i) (hn : 0 < n) (a b : ℝ) (ha : 0 < a) (hb : 0 < b) :
    numericalOrder (fun i => a * nSteps i) (fun i => b * err i) = numericalOrder nSteps err := by
  have hn' : (n:ℝ) ≠ 0 := by positivity
  have hx : orderX (fun i => a * nSteps i) = fun i => orderX nSteps i + Real.logb 10 (1 / a) := by
    funext i
    have := hpos i
    unfold orderX
    have e : 1 / (a * nSteps i) = 1 / nSteps i * (1 / a) := by field_simp
    rw [e, Real.logb_mul (by positivity) (by positivity)]
  have hy : ∀ i, Real.logb 10 (b * err i) = Real.logb 10 (err i) + Real.logb 10 b := by
    intro i
    rw [Real.logb_mul hb.ne' (herr i).ne']
    ring
  have hmean : ∀ (f : Fin n → ℝ) (t : ℝ), npMean (fun i => f i + t) = npMean f + t := fun f t => by
    unfold npMean
    rw [Finset.sum_add_distrib, Finset.sum_const, Finset.card_univ, Fintype.card_fin, nsmul_eq_mul]
    field_simp
  simp only [numericalOrder, hx, hy, hmean]
  have e1 : ∀ u v t : ℝ, u + t - (v + t) = u - v := fun u v t => by ring
  simp only [e1]
  have e3 : ∀ (β : ℝ) (i : Fin n), Real.logb 10 (err i) + Real.logb 10 b -
      (npMean (fun i => Real.logb 10 (err i)) + Real.logb 10 b - β * (npMean (orderX nSteps) +
        Real.logb 10 (1 / a)) + β * (orderX nSteps i + Real.logb 10 (1 / a))) =
      Real.logb 10 (err i) - (npMean (fun i => Real.logb 10 (err i)) - β * npMean (orderX nSteps) +
        β * orderX nSteps i) := fun β i => by ring
  simp only [e3]

/-- C64, instance: halving the error when the number of steps doubles is order one. -/
example : (numericalOrder ![1, 2, 4] ![1, 1 / 2, 1 / 4]).1 = 1 ∧
    (numericalOrder ![1, 2, 4] ![1, 1 / 2, 1 / 4]).2 = 0 := by
  refine (C64_power_law _ _ ?_ ?_ ⟨0, 1, by norm_num⟩ 1).mp ⟨1, one_pos, ?_⟩
  · intro i; fin_cases i <;> norm_num
  · intro i; fin_cases i <;> norm_num
  · intro i; fin_cases i <;> norm_num [Real.rpow_neg_one]

end QMat
