import Verif.Lemmas.RoundingLagrange
import Verif.Lemmas.RoundingBinary

/-!
# C85-C87: weights, interpolation and derivatives in rounded arithmetic
-/

namespace QMat

open Spec Polynomial LagrangeApproximation

variable (R : Rounding) {n : ℕ} {x w : Fin n → ℝ}

/-! ## C85 -/

/-- C85: the weights computed by `weightComputation='FAST'` in rounded arithmetic, in any order of the products, have a relative
error of at most `2n - 1` roundings. -/
theorem C85_fast (hw : R.Analytic x w) (hk : (2 * n - 1 : ℕ) * R.u < 1) (j : Fin n) :
    |w j - 1 / ∏ k ∈ Finset.univ.erase j, (x j - x k)|
      ≤ gamma R.u (2 * n - 1) * |1 / ∏ k ∈ Finset.univ.erase j, (x j - x k)| := by
  obtain ⟨φ, h1, h2⟩ := analytic_eq hw j
  have hn := j.pos
  have hc : ((2 * n - 1 : ℕ) : ℝ) = 2 * n - 1 := by
    rw [Nat.cast_sub (by omega)]; push_cast; ring
  have : Lagrange.nodalWeight Finset.univ x j = 1 / ∏ k ∈ Finset.univ.erase j, (x j - x k) := by
    rw [Lagrange.nodalWeight, Finset.prod_inv_distrib, one_div]
  rw [h2, this]
  refine R.rel_err hk ?_
  rwa [hc]

/-- C85: with `scaleWeights=True` the relative error is that of at most `4n - 1` roundings. -/
theorem C85_scaled (hx : Function.Injective x) (hw : R.Analytic x w) (hk : (4 * n - 1 : ℕ) * R.u < 1) (j : Fin n) :
    let v : Fin n → ℝ := fun j => 1 / ∏ k ∈ Finset.univ.erase j, (x j - x k)
    |R.scaled w j - v j / (⨆ k, |v k|)| ≤ gamma R.u (4 * n - 1) * |v j / (⨆ k, |v k|)| := by
  intro v
  have hn := j.pos
  have hc : ((4 * n - 1 : ℕ) : ℝ) = 4 * n - 1 := by
    rw [Nat.cast_sub (by omega)]; push_cast; ring
  have hv : ∀ j, Lagrange.nodalWeight Finset.univ x j = v j := fun j => by
    rw [Lagrange.nodalWeight, Finset.prod_inv_distrib, ← one_div]
  have hv0 : ∀ j, v j ≠ 0 := fun j => by
    rw [← hv]; exact Lagrange.nodalWeight_ne_zero hx.injOn (Finset.mem_univ j)
  have : Nonempty (Fin n) := ⟨j⟩
  choose φ hφ he using fun j => analytic_eq hw j
  have hbd : ∀ f : Fin n → ℝ, BddAbove (Set.range f) := fun f => (Set.finite_range f).bddAbove
  have hvs : 0 < ⨆ k, |v k| := (abs_pos.2 (hv0 j)).trans_le (le_ciSup (hbd fun k => |v k|) j)
  have hws : 0 < ⨆ k, |w k| := sup_pos hx (analytic_approx hw) j
  -- the maxima are near each other
  have hmax : Within ((2 * n - 1) * R.ω) ((⨆ k, |w k|) / ⨆ k, |v k|) := by
    refine ⟨div_pos hws hvs, ?_⟩
    have hle : ⨆ k, |w k| ≤ Real.exp ((2 * n - 1) * R.ω) * ⨆ k, |v k| := by
      refine ciSup_le fun k => ?_
      rw [he k, hv, abs_mul, abs_of_pos (hφ k).1, mul_comm]
      exact mul_le_mul (hφ k).le (le_ciSup (hbd fun k => |v k|) k) (abs_nonneg _) (Real.exp_pos _).le
    have hge : ⨆ k, |v k| ≤ Real.exp ((2 * n - 1) * R.ω) * ⨆ k, |w k| := by
      refine ciSup_le fun k => ?_
      have : |v k| = (φ k)⁻¹ * |w k| := by
        rw [he k, hv, abs_mul, abs_of_pos (hφ k).1]
        field_simp [(hφ k).ne]
      rw [this]
      exact mul_le_mul (hφ k).inv.le (le_ciSup (hbd fun k => |w k|) k) (abs_nonneg _) (Real.exp_pos _).le
    rw [abs_le]
    constructor
    · rw [Real.le_log_iff_exp_le (div_pos hws hvs), le_div_iff₀ hvs, Real.exp_neg,
        inv_mul_le_iff₀ (Real.exp_pos _)]
      exact hge
    · rw [Real.log_le_iff_le_exp (div_pos hws hvs), div_le_iff₀ hvs]
      exact hle
  obtain ⟨χ, h3, h4⟩ := R.fl_eq (w j / ⨆ k, |w k|)
  have hfin : R.scaled w j = v j / (⨆ k, |v k|) * (φ j * ((⨆ k, |w k|) / ⨆ k, |v k|)⁻¹ * χ) := by
    rw [Rounding.scaled, h4]
    nth_rewrite 1 [he j]
    rw [hv]
    field_simp
  rw [hfin]
  refine R.rel_err hk ((((hφ j).mul hmax.inv).mul h3).mono ?_)
  rw [hc]
  linarith

/-- C85: the weights of `weightComputation='STABLE'` in rounded arithmetic are, up to a common factor, those of the formula with a relative
error of at most `exp ε - 1`, where `ε` depends on the number of points, the roundings and the sum `T` of the absolute values of the
logarithms of distances (not on the size of the weights, which may be out of the range of `float`). -/
theorem C85_stable (F : Rounding.Elementary) (scaleRef : String) (hx : Function.Injective x) (hw : R.LogScale F scaleRef x w) {T : ℝ}
    (hT : ∀ j, ∑ k ∈ Finset.univ.erase j, |Real.log (|x j - x k|)| ≤ T) :
    ∃ c > 0, ∀ j, |w j - c * (1 / ∏ k ∈ Finset.univ.erase j, (x j - x k))|
      ≤ (Real.exp (logScaleErr R.u F.v n T) - 1) * |c * (1 / ∏ k ∈ Finset.univ.erase j, (x j - x k))| := by
  obtain ⟨c, hc, h⟩ := logScale_approx hx hw hT
  refine ⟨c, hc, fun j => ?_⟩
  obtain ⟨φ, h1, h2⟩ := h j
  have : Lagrange.nodalWeight Finset.univ x j = 1 / ∏ k ∈ Finset.univ.erase j, (x j - x k) := by
    rw [Lagrange.nodalWeight, Finset.prod_inv_distrib, one_div]
  rw [h2, this, ← mul_sub_one, abs_mul, mul_comm]
  exact mul_le_mul_of_nonneg_right h1.abs_sub_one_le (abs_nonneg _)

/-! ## C86 -/

/-- Bound of a computed row, for weights known up to a factor and errors. -/
theorem interp_bound (hx : Function.Injective x) {ε g : ℝ} (h : ApproxW x ε w) (hg : Real.exp (ε + (n + 3) * R.ω) - 1 ≤ g)
    {t : ℝ} (ht : ∀ j, t ≠ x j) {P : Fin n → ℝ} (hP : R.InterpolationRow x w t P)
    (hΛ : g * lebesgue x t < 1) (j : Fin n) :
    |P j - (Lagrange.basis Finset.univ x j).eval t|
      ≤ g * (1 + lebesgue x t) / (1 - g * lebesgue x t) * |(Lagrange.basis Finset.univ x j).eval t| := by
  have hn := j.pos
  obtain ⟨φ, ψ, hφ, hψ, he⟩ := row_eq h ht hn hP
  have hω := R.ω_nonneg
  have hn1 : (1 : ℝ) ≤ n := by exact_mod_cast hn
  have := quotient_bound (l := fun j => (Lagrange.basis Finset.univ x j).eval t) (g := g) (φ := φ) (ψ := ψ)
    (by rw [← eval_finsetSum, Lagrange.sum_basis hx.injOn ⟨j, Finset.mem_univ _⟩, eval_one])
    (fun j => (((hφ j).mono (by nlinarith)).abs_sub_one_le.trans hg))
    (fun j => (((hψ j).mono (by nlinarith)).abs_sub_one_le.trans hg)) hΛ (Pi.single j 1)
  simpa [← he, Pi.single_apply, lebesgue, apply_ite abs] using this

/-- C86: the entries of the interpolation matrix computed in rounded arithmetic, with the weights of 'FAST', in any order of all
sums and products: relative errors of `3n + 2` roundings, amplified by the Lebesgue function of the points. -/
theorem C86_interpolation (hx : Function.Injective x) (hw : R.Analytic x w) {t : ℝ} (ht : ∀ j, t ≠ x j) {P : Fin n → ℝ}
    (hP : R.InterpolationRow x w t P) (hu : (3 * n + 2 : ℕ) * R.u < 1)
    (hΛ : gamma R.u (3 * n + 2) * lebesgue x t < 1) (j : Fin n) :
    |P j - (Lagrange.basis Finset.univ x j).eval t|
      ≤ gamma R.u (3 * n + 2) * (1 + lebesgue x t) / (1 - gamma R.u (3 * n + 2) * lebesgue x t)
        * |(Lagrange.basis Finset.univ x j).eval t| := by
  have hn := j.pos
  refine interp_bound R hx (analytic_approx hw) (le_trans (le_of_eq ?_) (R.exp_sub_one_le hu)) ht hP hΛ j
  push_cast
  ring_nf

/-- C86 with `scaleWeights=True`: one more rounding. -/
theorem C86_interpolation_scaled (hx : Function.Injective x) (hw : R.Analytic x w) {t : ℝ} (ht : ∀ j, t ≠ x j) {P : Fin n → ℝ}
    (hP : R.InterpolationRow x (R.scaled w) t P) (hu : (3 * n + 3 : ℕ) * R.u < 1)
    (hΛ : gamma R.u (3 * n + 3) * lebesgue x t < 1) (j : Fin n) :
    |P j - (Lagrange.basis Finset.univ x j).eval t|
      ≤ gamma R.u (3 * n + 3) * (1 + lebesgue x t) / (1 - gamma R.u (3 * n + 3) * lebesgue x t)
        * |(Lagrange.basis Finset.univ x j).eval t| := by
  have hn := j.pos
  refine interp_bound R hx (scaled_approx hx (analytic_approx hw)) (le_trans (le_of_eq ?_) (R.exp_sub_one_le hu)) ht hP hΛ j
  push_cast
  ring_nf

/-- C86 with the weights of 'STABLE'. -/
theorem C86_interpolation_stable (F : Rounding.Elementary) (scaleRef : String) (hx : Function.Injective x)
    (hw : R.LogScale F scaleRef x w) {T : ℝ} (hT : ∀ j, ∑ k ∈ Finset.univ.erase j, |Real.log (|x j - x k|)| ≤ T)
    {t : ℝ} (ht : ∀ j, t ≠ x j) {P : Fin n → ℝ} (hP : R.InterpolationRow x w t P) {g : ℝ}
    (hg : Real.exp (logScaleErr R.u F.v n T + (n + 3) * R.ω) - 1 ≤ g) (hΛ : g * lebesgue x t < 1) (j : Fin n) :
    |P j - (Lagrange.basis Finset.univ x j).eval t|
      ≤ g * (1 + lebesgue x t) / (1 - g * lebesgue x t) * |(Lagrange.basis Finset.univ x j).eval t| := by
  obtain ⟨c, hc, h⟩ := logScale_approx hx hw hT
  exact interp_bound R hx ⟨c, hc.ne', h⟩ hg ht hP hΛ j

/-- C86: at a point of the grid the row is exact, whatever the rounding and the order of the sum. -/
theorem C86_nodes (hx : Function.Injective x) (hw : R.Analytic x w) (i : Fin n) {P : Fin n → ℝ}
    (hP : R.InterpolationRow x w (x i) P) (j : Fin n) : P j = if j = i then 1 else 0 := by
  obtain ⟨S, hS, hP⟩ := hP
  have hfw : ∀ j, R.fl (w j) = w j := fun j => by
    obtain ⟨p, -, h⟩ := hw j
    rw [h, R.idem]
  have hcon : ∀ j, R.fl (x i - x j) = 0 ↔ j = i := fun j => by
    rw [R.fl_eq_zero, sub_eq_zero]
    exact ⟨fun h => (hx h).symm, fun h => by rw [h]⟩
  have hterm : ∀ j, R.rowTerms x w (x i) j = if j = i then w j else 0 := fun j => by
    rw [Rounding.rowTerms, if_pos ⟨i, (hcon i).2 rfl⟩]
    simp only [hcon j]
    split_ifs
    · rw [one_mul, hfw]
    · rw [zero_mul, R.fl_zero]
  have hred : ∀ (s : Finset (Fin n)) (a : ℝ), R.Reduce (· + ·) (R.rowTerms x w (x i)) s a →
      a = if i ∈ s then w i else 0 := by
    intro s a h
    induction h with
    | single k =>
      rw [hterm]
      by_cases hk : k = i
      · simp [hk]
      · simp [hk, Ne.symm hk]
    | @combine s t a b hst hs ht ihs iht =>
      rw [ihs, iht]
      by_cases h1 : i ∈ s
      · have h2 : i ∉ t := Finset.disjoint_left.1 hst h1
        simp [h1, h2, hfw]
      · by_cases h2 : i ∈ t
        · simp [h1, h2, hfw]
        · simp [h1, h2, R.fl_zero]
  have hS' : S = w i := by
    rcases hS with ⟨h, -⟩ | h
    · exact (h.false i).elim
    · rw [hred _ _ h, if_pos (Finset.mem_univ i)]
  have hwi : w i ≠ 0 := approx_ne_zero hx (analytic_approx hw) i
  rw [hP, hS', hterm]
  split_ifs with h
  · rw [h, div_self hwi, R.one]
  · rw [zero_div, R.fl_zero]

/-- C86: evaluation of the interpolant, `approx(t)`, with a dot product in any order, with or without fused multiply-add. -/
theorem C86_call (hx : Function.Injective x) (hw : R.Analytic x w) {t : ℝ} (ht : ∀ j, t ≠ x j) {P f : Fin n → ℝ} {v : ℝ}
    (hn : 0 < n) (hP : R.InterpolationRow x w t P) (hv : R.NpDot P f v) (hu : (4 * n + 2 : ℕ) * R.u < 1)
    (hΛ : gamma R.u (4 * n + 2) * lebesgue x t < 1) :
    |v - (Lagrange.interpolate Finset.univ x f).eval t|
      ≤ gamma R.u (4 * n + 2) * (1 + lebesgue x t) / (1 - gamma R.u (4 * n + 2) * lebesgue x t)
        * ∑ j, |(Lagrange.basis Finset.univ x j).eval t| * |f j| := by
  obtain ⟨φ, ψ, hφ, hψ, he⟩ := row_eq (analytic_approx hw) ht hn hP
  obtain ⟨χ, hχ, hve⟩ := hv.sum
  have hω := R.ω_nonneg
  have hn1 : (1 : ℝ) ≤ n := by exact_mod_cast hn
  have hg := R.exp_sub_one_le hu
  rw [Fintype.card_fin] at hχ
  have := quotient_bound (l := fun j => (Lagrange.basis Finset.univ x j).eval t) (g := gamma R.u (4 * n + 2))
    (φ := fun j => φ j * χ j) (ψ := ψ)
    (by rw [← eval_finsetSum, Lagrange.sum_basis hx.injOn ⟨⟨0, hn⟩, Finset.mem_univ _⟩, eval_one])
    (fun j => ((((hφ j).mul (hχ j)).mono (by push_cast; nlinarith)).abs_sub_one_le.trans hg))
    (fun j => (((hψ j).mono (by push_cast; nlinarith)).abs_sub_one_le.trans hg)) hΛ f
  have h1 : v = ∑ j, (Lagrange.basis Finset.univ x j).eval t * (φ j * χ j) /
      (∑ k, (Lagrange.basis Finset.univ x k).eval t * ψ k) * f j := by
    rw [hve]
    refine Finset.sum_congr rfl fun j _ => ?_
    rw [he]; ring
  have h2 : (Lagrange.interpolate Finset.univ x f).eval t = ∑ j, (Lagrange.basis Finset.univ x j).eval t * f j := by
    rw [Lagrange.interpolate_apply, eval_finsetSum]
    refine Finset.sum_congr rfl fun j _ => ?_
    rw [eval_mul, eval_C, mul_comm]
  rw [h1, h2]
  exact this

/-! ## C87 -/

/-- C87: the first derivative matrix in rounded arithmetic: off-diagonal entries have small relative errors, whatever the points; the
diagonal has a small error relative to the sum of the absolute values of the row; the row sums are small relative to the computed row. -/
theorem C87_first (hx : Function.Injective x) (hw : R.Analytic x w) {D : Fin n → Fin n → ℝ} (hD : R.Derivative1 x w D)
    (hu : (5 * n + 1 : ℕ) * R.u < 1) (i : Fin n) :
    (∀ j, j ≠ i → |D i j - (derivative (Lagrange.basis Finset.univ x j)).eval (x i)|
      ≤ gamma R.u (4 * n + 2) * |(derivative (Lagrange.basis Finset.univ x j)).eval (x i)|) ∧
    |D i i - (derivative (Lagrange.basis Finset.univ x i)).eval (x i)|
      ≤ gamma R.u (5 * n + 1) * ∑ j ∈ Finset.univ.erase i, |(derivative (Lagrange.basis Finset.univ x j)).eval (x i)| ∧
    |∑ j, D i j| ≤ gamma R.u (n - 1) * ∑ j ∈ Finset.univ.erase i, |D i j| := by
  have hn := i.pos
  have hn1 : (1 : ℝ) ≤ n := by exact_mod_cast hn
  have hu0 := R.u_nonneg
  have hu1 : (4 * n + 2 : ℕ) * R.u < 1 := by
    rcases Nat.lt_or_ge n 2 with h | h
    · obtain rfl : n = 1 := by omega
      push_cast at hu ⊢; linarith
    · refine lt_of_le_of_lt (mul_le_mul_of_nonneg_right ?_ hu0) hu
      exact_mod_cast (by omega : 4 * n + 2 ≤ 5 * n + 1)
  have hu2 : (n - 1 : ℕ) * R.u < 1 := by
    refine lt_of_le_of_lt (mul_le_mul_of_nonneg_right ?_ hu0) hu
    exact_mod_cast (by omega : n - 1 ≤ 5 * n + 1)
  have hoff : ∀ j, j ≠ i → ∃ φ, Within ((4 * n + 2) * R.ω) φ ∧
      R.dBase x w i j = (derivative (Lagrange.basis Finset.univ x j)).eval (x i) * φ := fun j hj => by
    obtain ⟨φ, h1, h2⟩ := dBase_eq (R := R) hx (analytic_approx hw) hj.symm
    exact ⟨φ, h1.mono (by nlinarith), h2⟩
  obtain ⟨hDo, S, hS, hDi⟩ := hD i
  have hSe := hS.sum (by simpa using hn)
  obtain ⟨ψ, hψ, hSe⟩ := hSe
  rw [Fintype.card_fin] at hψ
  have hsum : S = ∑ j ∈ Finset.univ.erase i, R.dBase x w i j * ψ j := by
    rw [hSe, ← Finset.add_sum_erase _ _ (Finset.mem_univ i), dBase_self_zero, zero_mul, zero_add]
  refine ⟨fun j hj => ?_, ?_, ?_⟩
  · obtain ⟨φ, h1, h2⟩ := hoff j hj
    rw [hDo j hj, h2]
    exact R.rel_err hu1 (by push_cast; exact h1)
  · have hd := sum_derivative_basis hx hn (x i)
    rw [← Finset.add_sum_erase _ _ (Finset.mem_univ i)] at hd
    have e1 : (derivative (Lagrange.basis Finset.univ x i)).eval (x i)
        = -∑ j ∈ Finset.univ.erase i, (derivative (Lagrange.basis Finset.univ x j)).eval (x i) := by linarith
    rw [hDi, hsum, e1, neg_sub_neg, ← Finset.sum_sub_distrib, Finset.mul_sum]
    refine (Finset.abs_sum_le_sum_abs _ _).trans (Finset.sum_le_sum fun j hj => ?_)
    obtain ⟨φ, h1, h2⟩ := hoff j (Finset.ne_of_mem_erase hj)
    rw [h2, abs_sub_comm, mul_assoc]
    refine R.rel_err hu ((h1.mul (hψ j)).mono (le_of_eq ?_))
    push_cast; ring
  · rw [← Finset.add_sum_erase _ _ (Finset.mem_univ i), hDi, hsum, ← Finset.sum_neg_distrib, ← Finset.sum_add_distrib,
      Finset.mul_sum]
    refine (Finset.abs_sum_le_sum_abs _ _).trans (Finset.sum_le_sum fun j hj => ?_)
    rw [hDo j (Finset.ne_of_mem_erase hj), show -(R.dBase x w i j * ψ j) + R.dBase x w i j
      = -(R.dBase x w i j * ψ j - R.dBase x w i j) by ring, abs_neg]
    refine R.rel_err hu2 ((hψ j).mono (le_of_eq ?_))
    rw [Nat.cast_sub (by omega), Nat.cast_one]

/-- C87: the second derivative matrix in rounded arithmetic: the errors are small relative to the sum of the absolute values of the
terms of the formula. -/
theorem C87_second (hx : Function.Injective x) (hw : R.Analytic x w) {D : Fin n → Fin n → ℝ} (hD : R.Derivative2 x w D)
    (hu : (10 * n + 5 : ℕ) * R.u < 1) (i : Fin n) :
    let d : Fin n → ℝ := fun j => (derivative (Lagrange.basis Finset.univ x j)).eval (x i)
    let a : Fin n → ℝ := fun j => 2 * |d j| * (1 / |x i - x j| + ∑ k ∈ Finset.univ.erase i, |d k|)
    (∀ j, j ≠ i → |D i j - (derivative (derivative (Lagrange.basis Finset.univ x j))).eval (x i)|
      ≤ gamma R.u (9 * n + 6) * a j) ∧
    |D i i - (derivative (derivative (Lagrange.basis Finset.univ x i))).eval (x i)|
      ≤ gamma R.u (10 * n + 5) * ∑ j ∈ Finset.univ.erase i, a j := by
  intro d a
  have hn := i.pos
  have hu0 := R.u_nonneg
  have hu1 : (9 * n + 6 : ℕ) * R.u < 1 := by
    rcases Nat.lt_or_ge n 2 with h | h
    · obtain rfl : n = 1 := by omega
      push_cast at hu ⊢; linarith
    · refine lt_of_le_of_lt (mul_le_mul_of_nonneg_right ?_ hu0) hu
      exact_mod_cast (by omega : 9 * n + 6 ≤ 10 * n + 5)
  obtain ⟨S, hS, hD⟩ := hD
  have hoff := fun j (hj : j ≠ i) => d2_eq hx (analytic_approx hw) hj.symm (hS i)
  have hexact : ∀ j, j ≠ i → (derivative (derivative (Lagrange.basis Finset.univ x j))).eval (x i)
      = -2 * d j * (1 / (x i - x j) + ∑ k ∈ Finset.univ.erase i, d k) := by
    intro j hj
    have hd := sum_derivative_basis hx hn (x i)
    rw [← Finset.add_sum_erase _ _ (Finset.mem_univ i)] at hd
    rw [eval_derivative2_basis_ne hx hj.symm]
    have : (derivative (Lagrange.basis Finset.univ x i)).eval (x i) = -∑ k ∈ Finset.univ.erase i, d k := by
      linarith
    rw [this]; ring
  -- a value with perturbed terms
  have key : ∀ j, j ≠ i → ∀ {m : ℕ} (χ : ℝ) (φ : Fin n → ℝ), m * R.u < 1 → Within (m * R.ω) χ →
      (∀ k, Within (m * R.ω) (φ k)) →
      |-2 * d j * (1 / (x i - x j) * χ + ∑ k ∈ Finset.univ.erase i, d k * φ k)
        - (derivative (derivative (Lagrange.basis Finset.univ x j))).eval (x i)| ≤ gamma R.u m * a j := by
    intro j hj m χ φ hm hχ hφ
    rw [hexact j hj]
    have e : -2 * d j * (1 / (x i - x j) * χ + ∑ k ∈ Finset.univ.erase i, d k * φ k)
        - -2 * d j * (1 / (x i - x j) + ∑ k ∈ Finset.univ.erase i, d k)
        = -2 * d j * ((1 / (x i - x j) * χ - 1 / (x i - x j)) + ∑ k ∈ Finset.univ.erase i, (d k * φ k - d k)) := by
      rw [Finset.sum_sub_distrib]; ring
    rw [e, abs_mul, abs_mul, abs_neg, abs_two]
    have e1 : |(1 / (x i - x j) * χ - 1 / (x i - x j)) + ∑ k ∈ Finset.univ.erase i, (d k * φ k - d k)|
        ≤ gamma R.u m * (1 / |x i - x j| + ∑ k ∈ Finset.univ.erase i, |d k|) := by
      refine (abs_add_le _ _).trans ?_
      rw [mul_add, Finset.mul_sum]
      refine add_le_add ?_ ((Finset.abs_sum_le_sum_abs _ _).trans (Finset.sum_le_sum fun k _ => R.rel_err hm (hφ k)))
      have := R.rel_err hm hχ (a := 1 / (x i - x j))
      rwa [abs_one_div (x i - x j)] at this
    calc _ ≤ 2 * |d j| * (gamma R.u m * (1 / |x i - x j| + ∑ k ∈ Finset.univ.erase i, |d k|)) :=
          mul_le_mul_of_nonneg_left e1 (by positivity)
      _ = _ := by ring
  have hc : 4 * ((2 * (n : ℝ) - 1) * R.ω) + (n + 10) * R.ω = (9 * n + 6 : ℕ) * R.ω := by push_cast; ring
  refine ⟨fun j hj => ?_, ?_⟩
  · obtain ⟨χ, φ, h1, h2, h3⟩ := hoff j hj
    rw [(hD i).1 j hj]
    dsimp only
    rw [h3]
    rw [hc] at h1
    exact key j hj χ φ hu1 h1 fun k => hc ▸ h2 k
  · obtain ⟨T, hT, hDi⟩ := (hD i).2
    obtain ⟨ψ, hψ, hTe⟩ := hT.sum (by simpa using hn)
    rw [Fintype.card_fin] at hψ
    have hd := sum_derivative2_basis hx hn (x i)
    rw [← Finset.add_sum_erase _ _ (Finset.mem_univ i)] at hd
    have e1 : (derivative (derivative (Lagrange.basis Finset.univ x i))).eval (x i)
        = -∑ j ∈ Finset.univ.erase i, (derivative (derivative (Lagrange.basis Finset.univ x j))).eval (x i) := by linarith
    rw [hDi, hTe, ← Finset.add_sum_erase _ _ (Finset.mem_univ i)]
    dsimp only
    rw [dBase_self_zero, mul_zero, R.fl_zero, zero_mul,
      R.fl_zero, zero_mul, zero_add, e1, neg_sub_neg, ← Finset.sum_sub_distrib, Finset.mul_sum]
    refine (Finset.abs_sum_le_sum_abs _ _).trans (Finset.sum_le_sum fun j hj => ?_)
    obtain ⟨χ, φ, h1, h2, h3⟩ := hoff j (Finset.ne_of_mem_erase hj)
    rw [abs_sub_comm, h3]
    have hc' : (9 * n + 6 : ℕ) * R.ω + (n - 1) * R.ω = (10 * n + 5 : ℕ) * R.ω := by push_cast; ring
    have := key j (Finset.ne_of_mem_erase hj) (χ * ψ j) (fun k => φ k * ψ j) hu
      (hc' ▸ (hc ▸ h1).mul (hψ j)) (fun k => hc' ▸ (hc ▸ h2 k).mul (hψ j))
    have e2 : ∀ (p q r : ℝ) (S : Fin n → ℝ), p * (q * χ + ∑ k ∈ Finset.univ.erase i, S k) * r
        = p * (q * (χ * r) + ∑ k ∈ Finset.univ.erase i, S k * r) := by
      intro p q r S
      rw [mul_assoc, add_mul, Finset.sum_mul, mul_assoc]
    rw [e2]
    simpa only [mul_assoc] using this

/-! ## Examples: double precision, three points -/

section Examples

/-- Weights, rows and matrices exist for all points. -/
theorem Rounding.Analytic.exists (x : Fin n → ℝ) : ∃ w, R.Analytic x w := by
  choose p hp using fun i => Rounding.NpProd.exists (R := R) (R.diffs x i)
  exact ⟨fun i => R.fl (1 / p i), fun i => ⟨p i, hp i, rfl⟩⟩

theorem Rounding.InterpolationRow.exists (x w : Fin n → ℝ) (t : ℝ) : ∃ P, R.InterpolationRow x w t P := by
  obtain ⟨S, hS⟩ := Rounding.NpSum.exists (R := R) (R.rowTerms x w t)
  exact ⟨_, S, hS, fun j => rfl⟩

theorem Rounding.FillDiagonal.exists (B : Fin n → Fin n → ℝ) : ∃ D, R.FillDiagonal B D := by
  choose S hS using fun i => Rounding.NpSum.exists (R := R) (B i)
  exact ⟨fun i j => if j = i then -S i else B i j, fun i => ⟨fun j hj => if_neg hj, S i, hS i, if_pos rfl⟩⟩

theorem Rounding.Derivative2.exists (x w : Fin n → ℝ) : ∃ D, R.Derivative2 x w D := by
  choose S hS using fun i => Rounding.NpSum.exists (R := R) (R.dBase x w i)
  obtain ⟨D, hD⟩ := Rounding.FillDiagonal.exists R
    (fun i j => R.fl (R.fl (-2 * R.dBase x w i j) * R.fl (R.dDiff x i j + S i)))
  exact ⟨D, S, hS, hD⟩

/-- Logarithm and exponential rounded to nearest. -/
noncomputable def Rounding.elementary : Rounding.Elementary where
  log y := R.fl (Real.log y)
  exp y := R.fl (Real.exp y)
  v := R.u
  v_nonneg := R.u_nonneg
  v_lt_one := R.u_lt_one
  log_err y := R.err _
  exp_err y := (R.err _).trans (by rw [abs_of_pos (Real.exp_pos _)])

theorem Rounding.LogScale.exists (F : Rounding.Elementary) (hn : 0 < n) (x : Fin n → ℝ) :
    ∃ w, R.LogScale F "MAX" x w := by
  choose S hS using fun i => Rounding.NpSum.exists (R := R) (fun j => F.log |R.diffs x i j|)
  haveI : Nonempty (Fin n) := ⟨⟨0, hn⟩⟩
  obtain ⟨k, hk⟩ := Finite.exists_max (fun i => -S i)
  exact ⟨_, fun i => -S i, fun i => ⟨S i, hS i, rfl⟩, k, Or.inr ⟨rfl, hk⟩, fun i => rfl⟩

/-- Double precision. -/
noncomputable abbrev double : Rounding := Rounding.binary 53 (by norm_num)

theorem double_u : double.u = (1 / 2) ^ 53 := rfl

/-- Three points. -/
noncomputable def pts3 : Fin 3 → ℝ := ![0, 1 / 2, 1]

theorem pts3_injective : Function.Injective pts3 := by
  intro i j h
  fin_cases i <;> fin_cases j <;> first | rfl | (exfalso; revert h; norm_num [pts3])

theorem pts3_lebesgue : lebesgue pts3 (1 / 4) = 5 / 4 := by
  have h0 : (Finset.univ : Finset (Fin 3)).erase 0 = {1, 2} := by decide
  have h1 : (Finset.univ : Finset (Fin 3)).erase 1 = {0, 2} := by decide
  have h2 : (Finset.univ : Finset (Fin 3)).erase 2 = {0, 1} := by decide
  simp only [lebesgue, Fin.sum_univ_three, Lagrange.basis, h0, h1, h2, Lagrange.basisDivisor]
  have e01 : (0 : Fin 3) ≠ 1 := by decide
  have e02 : (0 : Fin 3) ≠ 2 := by decide
  have e12 : (1 : Fin 3) ≠ 2 := by decide
  rw [Finset.prod_pair e01, Finset.prod_pair e02, Finset.prod_pair e12]
  simp only [pts3, Matrix.cons_val_zero, Matrix.cons_val_one, Matrix.cons_val, eval_mul, eval_sub, eval_C, eval_X]
  norm_num

theorem pts3_ne (j : Fin 3) : (1 / 4 : ℝ) ≠ pts3 j := by
  fin_cases j <;> norm_num [pts3]

example : ∃ w, double.Analytic pts3 w ∧ (∀ j, |w j - 1 / ∏ k ∈ Finset.univ.erase j, (pts3 j - pts3 k)|
    ≤ gamma double.u 5 * |1 / ∏ k ∈ Finset.univ.erase j, (pts3 j - pts3 k)|) := by
  obtain ⟨w, hw⟩ := Rounding.Analytic.exists double pts3
  exact ⟨w, hw, C85_fast double hw (by rw [double_u]; norm_num)⟩

example : ∃ w, double.Analytic pts3 w ∧ (4 * 3 - 1 : ℕ) * double.u < 1 := by
  obtain ⟨w, hw⟩ := Rounding.Analytic.exists double pts3
  exact ⟨w, hw, by rw [double_u]; norm_num⟩

example : ∃ w, double.LogScale double.elementary "MAX" pts3 w ∧
    ∀ j, ∑ k ∈ Finset.univ.erase j, |Real.log (|pts3 j - pts3 k|)| ≤
      ∑ j, ∑ k ∈ Finset.univ.erase j, |Real.log (|pts3 j - pts3 k|)| := by
  obtain ⟨w, hw⟩ := Rounding.LogScale.exists double double.elementary (by norm_num) pts3
  exact ⟨w, hw, fun j => Finset.single_le_sum (f := fun j => ∑ k ∈ Finset.univ.erase j, |Real.log (|pts3 j - pts3 k|)|)
    (fun j _ => Finset.sum_nonneg fun k _ => abs_nonneg _) (Finset.mem_univ j)⟩

example : ∃ w P v, double.Analytic pts3 w ∧ double.InterpolationRow pts3 w (1 / 4) P ∧ double.NpDot P ![1, 2, 5] v ∧
    gamma double.u (4 * 3 + 2) * lebesgue pts3 (1 / 4) < 1 ∧
    |v - (Lagrange.interpolate Finset.univ pts3 ![1, 2, 5]).eval (1 / 4)| ≤ (1 / 2) ^ 45 := by
  obtain ⟨w, hw⟩ := Rounding.Analytic.exists double pts3
  obtain ⟨P, hP⟩ := Rounding.InterpolationRow.exists double pts3 w (1 / 4)
  obtain ⟨v, hv⟩ := Rounding.NpDot.exists (R := double) P ![1, 2, 5]
  have hg : gamma double.u (4 * 3 + 2) * lebesgue pts3 (1 / 4) < 1 := by
    rw [pts3_lebesgue, double_u, gamma]; norm_num
  refine ⟨w, P, v, hw, hP, hv, hg, (C86_call double pts3_injective hw pts3_ne (by norm_num) hP hv
    (by rw [double_u]; norm_num) hg).trans ?_⟩
  have h1 : ∑ j, |(Lagrange.basis Finset.univ pts3 j).eval (1 / 4)| * |(![1, 2, 5] : Fin 3 → ℝ) j|
      ≤ lebesgue pts3 (1 / 4) * 5 := by
    rw [lebesgue, Finset.sum_mul]
    refine Finset.sum_le_sum fun j _ => mul_le_mul_of_nonneg_left ?_ (abs_nonneg _)
    fin_cases j <;> norm_num
  refine (mul_le_mul_of_nonneg_left h1 ?_).trans ?_ <;>
  · rw [pts3_lebesgue, double_u, gamma]; norm_num

example : ∃ w D D', double.Analytic pts3 w ∧ double.Derivative1 pts3 w D ∧ double.Derivative2 pts3 w D' ∧
    (10 * 3 + 5 : ℕ) * double.u < 1 := by
  obtain ⟨w, hw⟩ := Rounding.Analytic.exists double pts3
  obtain ⟨D, hD⟩ := Rounding.FillDiagonal.exists double (double.dBase pts3 w)
  obtain ⟨D', hD'⟩ := Rounding.Derivative2.exists double pts3 w
  exact ⟨w, D, D', hw, hD, hD', by rw [double_u]; norm_num⟩

end Examples

/-- Instance of `C85_scaled`, `C86_interpolation`, `C86_interpolation_scaled`, `C86_nodes`, `C87_first` with double
precision and three points. -/
example : ∃ w P P' D, double.Analytic pts3 w ∧ double.InterpolationRow pts3 w (1 / 4) P ∧
    double.InterpolationRow pts3 (double.scaled w) (1 / 4) P' ∧ double.Derivative1 pts3 w D ∧
    (∀ j, |P j - (Lagrange.basis Finset.univ pts3 j).eval (1 / 4)|
      ≤ gamma double.u 11 * (1 + lebesgue pts3 (1 / 4)) / (1 - gamma double.u 11 * lebesgue pts3 (1 / 4))
        * |(Lagrange.basis Finset.univ pts3 j).eval (1 / 4)|) ∧
    (∀ j, |P' j - (Lagrange.basis Finset.univ pts3 j).eval (1 / 4)|
      ≤ gamma double.u 12 * (1 + lebesgue pts3 (1 / 4)) / (1 - gamma double.u 12 * lebesgue pts3 (1 / 4))
        * |(Lagrange.basis Finset.univ pts3 j).eval (1 / 4)|) ∧
    ∀ i, |∑ j, D i j| ≤ gamma double.u 2 * ∑ j ∈ Finset.univ.erase i, |D i j| := by
  obtain ⟨w, hw⟩ := Rounding.Analytic.exists double pts3
  obtain ⟨P, hP⟩ := Rounding.InterpolationRow.exists double pts3 w (1 / 4)
  obtain ⟨P', hP'⟩ := Rounding.InterpolationRow.exists double pts3 (double.scaled w) (1 / 4)
  obtain ⟨D, hD⟩ := Rounding.FillDiagonal.exists double (double.dBase pts3 w)
  have h1 := C85_scaled double pts3_injective hw (by rw [double_u]; norm_num)
  refine ⟨w, P, P', D, hw, hP, hP', hD, fun j => ?_, fun j => ?_, fun i => ?_⟩
  · exact C86_interpolation double pts3_injective hw pts3_ne hP (by rw [double_u]; norm_num)
      (by rw [pts3_lebesgue, double_u, gamma]; norm_num) j
  · exact C86_interpolation_scaled double pts3_injective hw pts3_ne hP' (by rw [double_u]; norm_num)
      (by rw [pts3_lebesgue, double_u, gamma]; norm_num) j
  · exact (C87_first double pts3_injective hw hD (by rw [double_u]; norm_num) i).2.2

example : ∃ w P, double.Analytic pts3 w ∧ double.InterpolationRow pts3 w (pts3 1) P ∧
    ∀ j, P j = if j = 1 then 1 else 0 := by
  obtain ⟨w, hw⟩ := Rounding.Analytic.exists double pts3
  obtain ⟨P, hP⟩ := Rounding.InterpolationRow.exists double pts3 w (pts3 1)
  exact ⟨w, P, hw, hP, C86_nodes double pts3_injective hw 1 hP⟩

end QMat
