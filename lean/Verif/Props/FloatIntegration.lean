import Verif.Lemmas.RoundingIntegration
import Verif.Props.Integration

/-!
# C92: the Fejer rule and the integration matrix in rounded arithmetic
-/

namespace QMat

open Spec Polynomial LagrangeApproximation

/-- C92 (the rule): if integers up to `2n` are floating point numbers and the operations of numpy are so accurate that
`4κ/n + 4(1+κ)ρ/√n ≤ 10⁻¹⁵`, the check of imaginary parts never raises; the computed nodes are those of the exact rule up to
`v + π γ₃`, the weights up to `4κ/n + 4(1+κ)ρ/√n`. -/
theorem C92_fejer_rule (R : Rounding) (F : FejerOps) {n : ℕ} (hn : 0 < n) (hint : ∀ k : ℕ, k ≤ 2 * n → R.fl k = k)
    (h3 : (3 : ℕ) * R.u < 1) (hη : 4 * F.κ / n + 4 * (1 + F.κ) * F.ρ / √n ≤ 1 / 10 ^ 15) :
    ∃ x w tau omega, computeFejerRule n = .ok (x, w) ∧ R.computeFejerRule F n = .ok (tau, omega) ∧
      (∀ k, |tau k - x k| ≤ F.v + Real.pi * gamma R.u 3) ∧
      ∀ k, |omega k - w k| ≤ 4 * F.κ / n + 4 * (1 + F.κ) * F.ρ / √n := by
  obtain ⟨tau, omega, h1, h2, h4⟩ := R.computeFejerRule_spec F hn hint h3 hη
  exact ⟨_, _, tau, omega, computeFejerRule_eq hn, h1, h2, h4⟩

/-- The number of points of the rule used for `n` points. -/
theorem fejer_size {n : ℕ} (hn : 0 < n) :
    0 < n - (n + 1) % 2 ∧ n ≤ (n - (n + 1) % 2) + (n - (n + 1) % 2) % 2 ∧ n - (n + 1) % 2 ≤ n := by omega

/-- C92: the entries of `getIntegrationMatrix([(a, b)])` computed in rounded arithmetic with the weights of 'FAST', in any order of all sums
and products.  `δ` bounds the errors of the evaluation times, `Λ` the Lebesgue function of the points and `D` the derivative of the
Lagrange polynomial, on an interval that contains `[a, b]` with a margin of `δ`.  The rule does not raise, and the error of an
entry is at most
`|b - a|/2 ((1 + G) Λ ((2 + mη) γ_{m+3} + mη) + 2 (G Λ + D δ))` with `G = γ_{3n+2} (1 + Λ) / (1 - γ_{3n+2} Λ)`. -/
theorem C92_integration (R : Rounding) (F : FejerOps) {n : ℕ} {x w : Fin n → ℝ} (hx : Function.Injective x) (hw : R.Analytic x w)
    (hint : ∀ k : ℕ, k ≤ 2 * n → R.fl k = k) {m : ℕ} (hm : m = n - (n + 1) % 2) {ε η δ Λ D a b lo hi : ℝ}
    (hε : ε = F.v + Real.pi * gamma R.u 3) (hη : η = 4 * F.κ / m + 4 * (1 + F.κ) * F.ρ / √m) (hη' : η ≤ 1 / 10 ^ 15)
    (h4 : (4 : ℕ) * R.u < 1) (hδ : |b - a| / 2 * (gamma R.u 4 * (1 + ε) + ε) + gamma R.u 3 * (|b + a| / 2) ≤ δ)
    (hlo : lo + δ ≤ min a b) (hhi : max a b + δ ≤ hi) (hu : (3 * n + 2 : ℕ) * R.u < 1)
    (hL : ∀ s ∈ Set.Icc lo hi, lebesgue x s ≤ Λ) (hΛ : gamma R.u (3 * n + 2) * Λ < 1) (j : Fin n)
    (hD : ∀ s ∈ Set.Icc lo hi, |(derivative (Lagrange.basis Finset.univ x j)).eval s| ≤ D)
    (hum : (m + 3 : ℕ) * R.u < 1) :
    let G := gamma R.u (3 * n + 2) * (1 + Λ) / (1 - gamma R.u (3 * n + 2) * Λ)
    (∃ Q, R.FejerRow F x w a b Q) ∧ ∀ Q, R.FejerRow F x w a b Q →
      |Q j - ∫ t in a..b, (Lagrange.basis Finset.univ x j).eval t|
        ≤ |b - a| / 2 * ((1 + G) * Λ * ((2 + m * η) * gamma R.u (m + 3) + m * η) + 2 * (G * Λ + D * δ)) := by
  intro G
  subst hm
  obtain ⟨hm0, hmn, hmle⟩ := fejer_size j.pos
  have h3 : (3 : ℕ) * R.u < 1 := by
    have := R.u_nonneg
    push_cast at h4 ⊢
    linarith
  obtain ⟨tau, omega, h1, h2, h5⟩ := R.computeFejerRule_spec F hm0 (fun k hk => hint k (by omega)) h3
    (show Rounding.fejerEta F _ ≤ _ by rw [Rounding.fejerEta, ← hη]; exact hη')
  constructor
  · choose P hP using fun k => Rounding.InterpolationRow.exists R x w (R.tEval a b (tau k))
    choose Q hQ using fun j => Rounding.NpSum.exists (R := R) (fun k => R.fl (R.fl (P k j * omega k) * R.halfLength a b))
    exact ⟨Q, tau, omega, h1, P, hP, hQ⟩
  · rintro Q ⟨tau', omega', h1', hQ⟩
    rw [h1] at h1'
    cases h1'
    obtain ⟨xe, we, he, hpos, -, -, hsum⟩ := C06_fejer_weights hm0
    rw [computeFejerRule_eq hm0] at he
    cases he
    refine Rounding.integration_bound hx hw hm0 (τ := fejerNodes _) (ω := fun k => fejerW _ k) (fun p hp => ?_)
      (fun k => (hpos k).le) hsum (fun k => ?_) (fun k => by rw [hε]; exact h2 k) (fun k => by rw [hη]; exact h5 k) h4 hδ hlo hhi hu
      hL hΛ j hD hum hQ
    · exact fejer_exact hm0 p (lt_of_lt_of_le hp (by exact_mod_cast hmn))
    · have := fejerNodes_mem _ k
      exact abs_le.2 ⟨this.1.le, this.2.le⟩

/-- C92 (integrals): with exact values `f` at the points, the computed row gives the integral of the interpolant up to the bound of
`C92_integration` times `∑ |f_j|`; in particular its entries add up to `b - a` up to `n` times this bound. -/
theorem C92_integral (R : Rounding) (F : FejerOps) {n : ℕ} {x w : Fin n → ℝ} (hx : Function.Injective x) (hw : R.Analytic x w)
    (hint : ∀ k : ℕ, k ≤ 2 * n → R.fl k = k) {m : ℕ} (hm : m = n - (n + 1) % 2) {ε η δ Λ D a b lo hi : ℝ}
    (hε : ε = F.v + Real.pi * gamma R.u 3) (hη : η = 4 * F.κ / m + 4 * (1 + F.κ) * F.ρ / √m) (hη' : η ≤ 1 / 10 ^ 15)
    (h4 : (4 : ℕ) * R.u < 1) (hδ : |b - a| / 2 * (gamma R.u 4 * (1 + ε) + ε) + gamma R.u 3 * (|b + a| / 2) ≤ δ)
    (hlo : lo + δ ≤ min a b) (hhi : max a b + δ ≤ hi) (hu : (3 * n + 2 : ℕ) * R.u < 1)
    (hL : ∀ s ∈ Set.Icc lo hi, lebesgue x s ≤ Λ) (hΛ : gamma R.u (3 * n + 2) * Λ < 1)
    (hD : ∀ j, ∀ s ∈ Set.Icc lo hi, |(derivative (Lagrange.basis Finset.univ x j)).eval s| ≤ D)
    (hum : (m + 3 : ℕ) * R.u < 1) (hn : 0 < n) (Q : Fin n → ℝ) (hQ : R.FejerRow F x w a b Q) :
    let G := gamma R.u (3 * n + 2) * (1 + Λ) / (1 - gamma R.u (3 * n + 2) * Λ)
    let B := |b - a| / 2 * ((1 + G) * Λ * ((2 + m * η) * gamma R.u (m + 3) + m * η) + 2 * (G * Λ + D * δ))
    (∀ f : Fin n → ℝ, |∑ j, Q j * f j - ∫ t in a..b, (Lagrange.interpolate Finset.univ x f).eval t| ≤ B * ∑ j, |f j|) ∧
    |∑ j, Q j - (b - a)| ≤ n * B := by
  intro G B
  have main : ∀ f : Fin n → ℝ,
      |∑ j, Q j * f j - ∫ t in a..b, (Lagrange.interpolate Finset.univ x f).eval t| ≤ B * ∑ j, |f j| := by
    intro f
    have e : ∫ t in a..b, (Lagrange.interpolate Finset.univ x f).eval t
        = ∑ j, (∫ t in a..b, (Lagrange.basis Finset.univ x j).eval t) * f j := by
      have : ∀ t, (Lagrange.interpolate Finset.univ x f).eval t = ∑ j, (Lagrange.basis Finset.univ x j).eval t * f j := by
        intro t
        rw [Lagrange.interpolate_apply, eval_finsetSum]
        exact Finset.sum_congr rfl fun j _ => by rw [eval_mul, eval_C, mul_comm]
      simp only [this]
      rw [intervalIntegral.integral_finsetSum (f := fun j t => (Lagrange.basis Finset.univ x j).eval t * f j) fun j _ =>
        Continuous.intervalIntegrable (by fun_prop) _ _]
      exact Finset.sum_congr rfl fun j _ => intervalIntegral.integral_mul_const _ _
    rw [e, ← Finset.sum_sub_distrib, Finset.mul_sum]
    refine (Finset.abs_sum_le_sum_abs _ _).trans (Finset.sum_le_sum fun j _ => ?_)
    rw [← sub_mul, abs_mul]
    exact mul_le_mul_of_nonneg_right ((C92_integration R F hx hw hint hm hε hη hη' h4 hδ hlo hhi hu hL hΛ j (hD j) hum).2 Q hQ)
      (abs_nonneg _)
  refine ⟨main, ?_⟩
  have h := main fun _ => 1
  have e : Lagrange.interpolate Finset.univ x (fun _ => (1:ℝ)) = 1 := by
    rw [Lagrange.interpolate_apply]
    simp only [map_one, one_mul]
    exact Lagrange.sum_basis hx.injOn ⟨⟨0, hn⟩, Finset.mem_univ _⟩
  rw [e] at h
  simp only [mul_one, eval_one, intervalIntegral.integral_const, smul_eq_mul, abs_one, Finset.sum_const, Finset.card_univ,
    Fintype.card_fin, nsmul_eq_mul] at h
  linarith

/-- A transform with an error of `10⁻¹⁵` relative to the norm. -/
noncomputable def badOps : FejerOps where
  cos := Real.cos
  v := 0
  v_nonneg := le_rfl
  cos_err y := by simp
  v0 := fejerV0
  κ := 0
  κ_nonneg := le_rfl
  v0_err n j := by simp
  ifft y k := npIfft y k + ((1 / 10 ^ 15 * (√(∑ j, ‖y j‖ ^ 2) / √(Fintype.card (Fin _) : ℝ)) : ℝ) : ℂ) * Complex.I
  ρ := 1 / 10 ^ 15
  ρ_nonneg := by positivity
  ifft_err y k := by
    rw [add_sub_cancel_left, norm_mul, Complex.norm_I, mul_one, Complex.norm_real, Real.norm_eq_abs, Fintype.card_fin,
      abs_of_nonneg (by positivity)]

/-- C92 (the check): the threshold `10⁻¹⁵` is absolute and near the unit roundoff.  A transform with a relative error of `10⁻¹⁵` (nine
units of roundoff) is enough for `computeFejerRule` to raise `ValueError`, although the weights it would return are exact. -/
theorem C92_check_fails (R : Rounding) :
    R.computeFejerRule badOps 1 = .error .valueError ∧ ∀ k, (badOps.ifft (Rounding.fejerV1 badOps 1) k).re = fejerW 1 k := by
  have hv : ∀ j, Rounding.fejerV1 badOps 1 j = fejerV1 1 j := fun j => rfl
  have hv' : Rounding.fejerV1 badOps 1 = fejerV1 1 := funext hv
  have h1 : fejerV1 1 0 = 2 := by
    simp [fejerV1, fejerV0, fejerLN]
  have hi : ∀ k, badOps.ifft (Rounding.fejerV1 badOps 1) k = ((fejerW 1 k : ℝ) : ℂ) + ((2 / 10 ^ 15 : ℝ) : ℂ) * Complex.I := by
    intro k
    show npIfft (Rounding.fejerV1 badOps 1) k + ((1 / 10 ^ 15 * (√(∑ j, ‖Rounding.fejerV1 badOps 1 j‖ ^ 2)
      / √(Fintype.card (Fin 1) : ℝ)) : ℝ) : ℂ) * Complex.I = _
    rw [hv', npIfft_fejerV1, Fin.sum_univ_one, h1, Real.sqrt_sq (norm_nonneg _)]
    congr 3
    simp
    ring
  refine ⟨?_, fun k => by
    rw [hi, Complex.add_re, Complex.ofReal_re, Complex.re_ofReal_mul, Complex.I_re, mul_zero, add_zero]⟩
  unfold Rounding.computeFejerRule
  obtain ⟨s, hs⟩ := npMax_eq_ok one_pos fun k => (badOps.ifft (Rounding.fejerV1 badOps 1) k).im
  obtain ⟨-, k, hk⟩ := npMax_ok hs
  have hs' : s > 1 / 10 ^ 15 := by
    rw [← hk, hi, Complex.add_im, Complex.ofReal_im, Complex.im_ofReal_mul, Complex.I_im, mul_one, zero_add]
    norm_num
  simp only [hs, bind, Except.bind]
  rw [if_pos hs']
  rfl

/-! ## Examples -/

/-- Operations with a rounded cosine, an error of one rounding in `v0` and an exact transform. -/
noncomputable def Rounding.fejerOps (R : Rounding) : FejerOps where
  cos y := R.fl (Real.cos y)
  v := R.u
  v_nonneg := R.u_nonneg
  cos_err y := R.err _
  v0 n j := fejerV0 n j * (1 + R.u)
  κ := R.u
  κ_nonneg := R.u_nonneg
  v0_err n j := by
    rw [mul_add, mul_one, add_sub_cancel_left, norm_mul, mul_comm, Complex.norm_real, Real.norm_eq_abs,
      abs_of_nonneg R.u_nonneg]
  ifft y k := npIfft y k
  ρ := 0
  ρ_nonneg := le_rfl
  ifft_err y k := by simp

theorem double_nat {k : ℕ} (h : k < 2 ^ 53) : double.fl k = k := Rounding.nearest_nat h

/-- Instance: double precision, any number of points up to `2^51`. -/
example (n : ℕ) (h0 : 0 < n) (hn : n ≤ 2 ^ 51) : ∃ tau omega, double.computeFejerRule double.fejerOps n = .ok (tau, omega) := by
  have hn1 : (1:ℝ) ≤ n := by exact_mod_cast h0
  obtain ⟨x, w, tau, omega, -, h, -⟩ := C92_fejer_rule double double.fejerOps h0 (fun k hk => double_nat (by omega))
    (by rw [double_u]; norm_num) (by
      show 4 * double.u / n + 4 * (1 + double.u) * 0 / √n ≤ 1 / 10 ^ 15
      rw [mul_zero, zero_div, add_zero]
      refine (div_le_self (by rw [double_u]; positivity) hn1).trans ?_
      rw [double_u]; norm_num)
  exact ⟨tau, omega, h⟩

theorem pts3_basis (s : ℝ) : (∀ j, |(Lagrange.basis Finset.univ pts3 j).eval s| =
    ![|2 * ((s - 1 / 2) * (s - 1))|, |4 * (s * (s - 1))|, |2 * (s * (s - 1 / 2))|] j) ∧
    ∀ j, |(derivative (Lagrange.basis Finset.univ pts3 j)).eval s| = ![|4 * s - 3|, |8 * s - 4|, |4 * s - 1|] j := by
  have h0 : (Finset.univ : Finset (Fin 3)).erase 0 = {1, 2} := by decide
  have h1 : (Finset.univ : Finset (Fin 3)).erase 1 = {0, 2} := by decide
  have h2 : (Finset.univ : Finset (Fin 3)).erase 2 = {0, 1} := by decide
  have e01 : (0 : Fin 3) ≠ 1 := by decide
  have e02 : (0 : Fin 3) ≠ 2 := by decide
  have e12 : (1 : Fin 3) ≠ 2 := by decide
  have b0 : Lagrange.basis Finset.univ pts3 0 = C 2 * ((X - C (1 / 2)) * (X - C 1)) := by
    simp only [Lagrange.basis, h0, Lagrange.basisDivisor]
    rw [Finset.prod_pair e12]
    simp only [pts3, Matrix.cons_val_zero, Matrix.cons_val_one, Matrix.cons_val]
    rw [show (C 2 : ℝ[X]) = C ((0 - 1 / 2)⁻¹) * C ((0 - 1)⁻¹) by rw [← C_mul]; norm_num]
    ring
  have b1 : Lagrange.basis Finset.univ pts3 1 = C (-4) * ((X - C 0) * (X - C 1)) := by
    simp only [Lagrange.basis, h1, Lagrange.basisDivisor]
    rw [Finset.prod_pair e02]
    simp only [pts3, Matrix.cons_val_zero, Matrix.cons_val_one, Matrix.cons_val]
    rw [show (C (-4) : ℝ[X]) = C ((1 / 2 - 0)⁻¹) * C ((1 / 2 - 1)⁻¹) by rw [← C_mul]; norm_num]
    ring
  have b2 : Lagrange.basis Finset.univ pts3 2 = C 2 * ((X - C 0) * (X - C (1 / 2))) := by
    simp only [Lagrange.basis, h2, Lagrange.basisDivisor]
    rw [Finset.prod_pair e01]
    simp only [pts3, Matrix.cons_val_zero, Matrix.cons_val_one, Matrix.cons_val]
    rw [show (C 2 : ℝ[X]) = C ((1 - 0)⁻¹) * C ((1 - 1 / 2)⁻¹) by rw [← C_mul]; norm_num]
    ring
  constructor
  · intro j
    have hj : j = 0 ∨ j = 1 ∨ j = 2 := by fin_cases j <;> simp
    rcases hj with rfl | rfl | rfl
    · rw [b0]; simp [eval_mul]
    · rw [b1]
      simp only [eval_mul, eval_sub, eval_C, eval_X, sub_zero, Matrix.cons_val_one, Matrix.cons_val_zero]
      rw [← abs_neg]; congr 1; ring
    · rw [b2]; simp [eval_mul]
  · intro j
    have hj : j = 0 ∨ j = 1 ∨ j = 2 := by fin_cases j <;> simp
    rcases hj with rfl | rfl | rfl
    · rw [b0]
      simp only [derivative_mul, derivative_C, derivative_sub, derivative_X, eval_add, eval_mul, eval_sub, eval_C, eval_X,
        eval_zero, eval_one, Matrix.cons_val_zero]
      congr 1; ring
    · rw [b1]
      simp only [derivative_mul, derivative_C, derivative_sub, derivative_X, eval_add, eval_mul, eval_sub, eval_C, eval_X,
        eval_zero, eval_one, Matrix.cons_val_one, Matrix.cons_val_zero]
      rw [← abs_neg]; congr 1; ring
    · rw [b2]
      simp only [derivative_mul, derivative_C, derivative_sub, derivative_X, eval_add, eval_mul, eval_sub, eval_C, eval_X,
        eval_zero, eval_one, Matrix.cons_val]
      congr 1; ring

/-- Instance: three points in double precision integrate over `[0, 1]` with errors below `10⁻¹⁰`. -/
example : ∃ w, double.Analytic pts3 w ∧ (∃ Q, double.FejerRow double.fejerOps pts3 w 0 1 Q) ∧
    ∀ Q, double.FejerRow double.fejerOps pts3 w 0 1 Q → ∀ j,
      |Q j - ∫ t in (0:ℝ)..1, (Lagrange.basis Finset.univ pts3 j).eval t| ≤ 1 / 10 ^ 10 := by
  obtain ⟨w, hw⟩ := Rounding.Analytic.exists double pts3
  have key := fun j => C92_integration double double.fejerOps pts3_injective hw (fun k hk => double_nat (by omega)) (m := 3) rfl
    (ε := double.u + Real.pi * gamma double.u 3) (η := 4 * double.u / (3:ℕ) + 4 * (1 + double.u) * 0 / √(3:ℕ))
    (δ := 1 / 10 ^ 12) (Λ := 4) (D := 6) (a := 0) (b := 1) (lo := -1 / 10) (hi := 11 / 10) rfl rfl
    (by rw [double_u]; norm_num) (by rw [double_u]; norm_num)
    (by
      have := Real.pi_le_four
      rw [double_u, gamma, gamma]
      norm_num
      nlinarith)
    (by norm_num) (by norm_num) (by rw [double_u]; norm_num)
    (fun s hs => by
      rw [lebesgue, Fin.sum_univ_three, (pts3_basis s).1, (pts3_basis s).1, (pts3_basis s).1]
      simp only [Matrix.cons_val_zero, Matrix.cons_val_one, Matrix.cons_val]
      have h1 : |2 * ((s - 1 / 2) * (s - 1))| ≤ 27 / 20 := by
        rw [abs_le]; constructor <;> nlinarith [hs.1, hs.2]
      have h2 : |4 * (s * (s - 1))| ≤ 1 := by
        rw [abs_le]; constructor <;> nlinarith [hs.1, hs.2, sq_nonneg (2 * s - 1)]
      have h3 : |2 * (s * (s - 1 / 2))| ≤ 27 / 20 := by
        rw [abs_le]; constructor <;> nlinarith [hs.1, hs.2]
      linarith)
    (by rw [double_u, gamma]; norm_num) j
    (fun s hs => by
      rw [(pts3_basis s).2]
      have hj : j = 0 ∨ j = 1 ∨ j = 2 := by fin_cases j <;> simp
      rcases hj with rfl | rfl | rfl
      · simp only [Matrix.cons_val_zero]
        rw [abs_le]; constructor <;> linarith [hs.1, hs.2]
      · simp only [Matrix.cons_val_one, Matrix.cons_val_zero]
        rw [abs_le]; constructor <;> linarith [hs.1, hs.2]
      · simp only [Matrix.cons_val]
        rw [abs_le]; constructor <;> linarith [hs.1, hs.2])
    (by rw [double_u]; norm_num)
  refine ⟨w, hw, (key 0).1, fun Q hQ j => ((key j).2 Q hQ).trans ?_⟩
  rw [double_u, gamma, gamma]
  norm_num

end QMat
