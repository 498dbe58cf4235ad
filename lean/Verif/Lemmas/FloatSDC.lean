import Verif.Model.FloatSDC
import Verif.Spec.FloatSDC
import Verif.Lemmas.RoundingLagrange
import Mathlib.Analysis.Complex.Norm
import Mathlib.LinearAlgebra.Matrix.NonsingularInverse

/-!
# Rounding errors of the sweeps of `solveDahlquistSDC`
-/

namespace QMat

open Finset Spec Matrix

namespace Rounding

variable {ι : Type*} [DecidableEq ι] [Fintype ι] {R : Rounding} {M : ℕ}

theorem cfl_err (z : ℂ) : ‖R.cfl z - z‖ ≤ R.u * ‖z‖ := by
  have h1 := R.err z.re
  have h2 := R.err z.im
  have h0 := R.u_nonneg
  rw [← abs_of_nonneg (norm_nonneg (R.cfl z - z)), ← abs_of_nonneg (mul_nonneg h0 (norm_nonneg z))]
  rw [← sq_le_sq, mul_pow, Complex.sq_norm, Complex.sq_norm, Complex.normSq_apply, Complex.normSq_apply]
  have e1 : (R.cfl z - z).re = R.fl z.re - z.re := rfl
  have e2 : (R.cfl z - z).im = R.fl z.im - z.im := rfl
  rw [e1, e2]
  have h3 := mul_self_le_mul_self (abs_nonneg _) h1
  have h4 := mul_self_le_mul_self (abs_nonneg _) h2
  rw [abs_mul_abs_self] at h3 h4
  have e3 : R.u * |z.re| * (R.u * |z.re|) = R.u ^ 2 * (z.re * z.re) := by
    rw [← abs_mul_abs_self z.re]; ring
  have e4 : R.u * |z.im| * (R.u * |z.im|) = R.u ^ 2 * (z.im * z.im) := by
    rw [← abs_mul_abs_self z.im]; ring
  rw [e3] at h3
  rw [e4] at h4
  linarith

theorem npDot_err {x y : ι → ℝ} {a : ℝ} (h : R.NpDot x y a) (hk : (Fintype.card ι) * R.u < 1) :
    |a - ∑ i, x i * y i| ≤ gamma R.u (Fintype.card ι) * ∑ i, |x i| * |y i| := by
  obtain ⟨φ, hφ, rfl⟩ := h.sum
  rw [← Finset.sum_sub_distrib, Finset.mul_sum]
  refine (Finset.abs_sum_le_sum_abs _ _).trans (Finset.sum_le_sum fun i _ => ?_)
  rw [← abs_mul]
  exact R.rel_err hk (hφ i)

theorem part_le (x y : ℂ) : |x.re| * |y.re| + |x.im| * |y.im| ≤ ‖x‖ * ‖y‖ := by
  have h : (|x.re| * |y.re| + |x.im| * |y.im|) ^ 2 ≤ (‖x‖ * ‖y‖) ^ 2 := by
    rw [mul_pow, Complex.sq_norm, Complex.sq_norm, Complex.normSq_apply, Complex.normSq_apply,
      ← abs_mul_abs_self x.re, ← abs_mul_abs_self x.im, ← abs_mul_abs_self y.re, ← abs_mul_abs_self y.im]
    have := sq_nonneg (|x.re| * |y.im| - |x.im| * |y.re|)
    linarith
  exact (abs_le_of_sq_le_sq' h (by positivity)).2

theorem npCDot_err {x y : ι → ℂ} {a : ℂ} (h : R.NpCDot x y a) (hk : ((2 * Fintype.card ι : ℕ) : ℝ) * R.u < 1) :
    ‖a - ∑ i, x i * y i‖ ≤ √2 * gamma R.u (2 * Fintype.card ι) * ∑ i, ‖x i‖ * ‖y i‖ := by
  have hc : Fintype.card (ι ⊕ ι) = 2 * Fintype.card ι := by rw [Fintype.card_sum]; ring
  have h1 := npDot_err h.1 (by rw [hc]; exact hk)
  have h2 := npDot_err h.2 (by rw [hc]; exact hk)
  have hg : 0 ≤ gamma R.u (2 * Fintype.card ι) := div_nonneg (mul_nonneg (Nat.cast_nonneg _) R.u_nonneg) (by linarith)
  rw [hc, Fintype.sum_sum_type, Fintype.sum_sum_type] at h1 h2
  simp only [Sum.elim_inl, Sum.elim_inr] at h1 h2
  have b1 : |(a - ∑ i, x i * y i).re| ≤ gamma R.u (2 * Fintype.card ι) * ∑ i, ‖x i‖ * ‖y i‖ := by
    have e : (a - ∑ i, x i * y i).re = a.re - (∑ i, (x i).re * (y i).re + ∑ i, (x i).im * -(y i).im) := by
      rw [Complex.sub_re, Complex.re_sum, ← Finset.sum_add_distrib]
      congr 1
      refine Finset.sum_congr rfl fun i _ => ?_
      rw [Complex.mul_re]; ring
    rw [e]
    refine h1.trans (mul_le_mul_of_nonneg_left ?_ hg)
    rw [← Finset.sum_add_distrib]
    refine Finset.sum_le_sum fun i _ => ?_
    rw [abs_neg]
    exact part_le _ _
  have b2 : |(a - ∑ i, x i * y i).im| ≤ gamma R.u (2 * Fintype.card ι) * ∑ i, ‖x i‖ * ‖y i‖ := by
    have e : (a - ∑ i, x i * y i).im = a.im - (∑ i, (x i).re * (y i).im + ∑ i, (x i).im * (y i).re) := by
      rw [Complex.sub_im, Complex.im_sum, ← Finset.sum_add_distrib]
      congr 1
    rw [e]
    refine h2.trans (mul_le_mul_of_nonneg_left ?_ hg)
    rw [← Finset.sum_add_distrib]
    refine Finset.sum_le_sum fun i _ => ?_
    have := part_le (x i) ⟨(y i).im, (y i).re⟩
    have e : ‖(⟨(y i).im, (y i).re⟩ : ℂ)‖ = ‖y i‖ := by
      rw [← abs_of_nonneg (norm_nonneg (⟨(y i).im, (y i).re⟩ : ℂ)), ← abs_of_nonneg (norm_nonneg (y i)), ← sq_eq_sq_iff_abs_eq_abs,
        Complex.sq_norm, Complex.sq_norm, Complex.normSq_apply, Complex.normSq_apply]
      ring
    rw [e] at this
    exact this
  refine (Complex.norm_le_sqrt_two_mul_max _).trans ?_
  rw [mul_assoc]
  exact mul_le_mul_of_nonneg_left (max_le b1 b2) (Real.sqrt_nonneg _)

/-- Relative error of a complex product. -/
noncomputable def mulErr (u : ℝ) : ℝ := √2 * gamma u 2

theorem npCMul_err {x y a : ℂ} (h : R.NpCMul x y a) (hk : 2 * R.u < 1) : ‖a - x * y‖ ≤ mulErr R.u * (‖x‖ * ‖y‖) := by
  have := npCDot_err h (by simpa using hk)
  simpa [mulErr] using this

/-- Two relative errors. -/
theorem rel_trans {E : Type*} [NormedAddCommGroup E] {a b c : E} {α β s : ℝ} (hα : 0 ≤ α) (h1 : ‖a - b‖ ≤ α * ‖b‖) (h2 : ‖b - c‖ ≤ β * s)
    (hc : ‖c‖ ≤ s) : ‖a - c‖ ≤ ((1 + α) * (1 + β) - 1) * s := by
  have e : ‖a - c‖ ≤ ‖a - b‖ + ‖b - c‖ := by
    calc ‖a - c‖ = ‖(a - b) + (b - c)‖ := by congr 1; abel
      _ ≤ _ := norm_add_le _ _
  have hb : ‖b‖ ≤ (1 + β) * s := by
    calc ‖b‖ = ‖(b - c) + c‖ := by congr 1; abel
      _ ≤ _ := norm_add_le _ _
      _ ≤ (1 + β) * s := by linarith
  have := mul_le_mul_of_nonneg_left hb hα
  linarith

theorem mulErr_nonneg (hk : 2 * R.u < 1) : 0 ≤ mulErr R.u :=
  mul_nonneg (Real.sqrt_nonneg _) (div_nonneg (mul_nonneg (by norm_num) R.u_nonneg) (by push_cast; linarith))

theorem lamDt_err {lam c : ℂ} {tEnd : ℝ} {n : ℕ} (h : R.LamDt lam tEnd n c) (hk : 2 * R.u < 1) :
    ‖c - lam * (tEnd / n : ℝ)‖ ≤ ((1 + mulErr R.u) * (1 + R.u) - 1) * ‖lam * (tEnd / n : ℝ)‖ := by
  have h1 := npCMul_err h hk
  rw [← norm_mul] at h1
  have h2 : ‖lam * (R.fl (tEnd / n) : ℝ) - lam * (tEnd / n : ℝ)‖ ≤ R.u * ‖lam * (tEnd / n : ℝ)‖ := by
    rw [← mul_sub, norm_mul, norm_mul, ← Complex.ofReal_sub, Complex.norm_real, Complex.norm_real, Real.norm_eq_abs, Real.norm_eq_abs]
    have := mul_le_mul_of_nonneg_left (R.err (tEnd / n)) (norm_nonneg lam)
    linarith
  exact rel_trans (mulErr_nonneg hk) h1 h2 le_rfl

/-- Relative error of the entries of matrices. -/
noncomputable def entryErr (u : ℝ) : ℝ := (1 + mulErr u) ^ 2 * (1 + u) ^ 2 - 1

theorem matrix_err {lam : ℂ} {tEnd : ℝ} {n : ℕ} {D : Matrix (Fin M) (Fin M) ℝ} {P : Matrix (Fin M) (Fin M) ℂ}
    (h : R.SDCMatrix lam tEnd n D P) (hk : 2 * R.u < 1) (i j : Fin M) :
    ‖P i j - (1 - (lam * (tEnd / n : ℝ)) • cmat D) i j‖ ≤
      entryErr R.u * ((if i = j then 1 else 0) + ‖lam * (tEnd / n : ℝ)‖ * |D i j|) := by
  obtain ⟨c, hc, h⟩ := h
  obtain ⟨q, hq, e⟩ := h i j
  have h1 := lamDt_err hc hk
  have h2 := npCMul_err hq hk
  have hμ := mulErr_nonneg hk
  have hu := R.u_nonneg
  set z := lam * (tEnd / n : ℝ) with hz
  have h3 : ‖c * (D i j : ℝ) - z * (D i j : ℝ)‖ ≤ ((1 + mulErr R.u) * (1 + R.u) - 1) * ‖z * (D i j : ℝ)‖ := by
    rw [← sub_mul, norm_mul, norm_mul, ← mul_assoc]
    exact mul_le_mul_of_nonneg_right h1 (norm_nonneg _)
  rw [← norm_mul] at h2
  have h4 := rel_trans hμ h2 h3 le_rfl
  have e2 : (1 - z • cmat D) i j = (if i = j then 1 else 0) - z * (D i j : ℝ) := by
    simp [Matrix.one_apply, cmat]
  rw [e, e2]
  set δ : ℂ := if i = j then 1 else 0 with hδ
  have hδn : ‖δ‖ = if i = j then 1 else 0 := by rw [hδ]; split_ifs <;> simp
  have h5 := cfl_err (R := R) (δ - q)
  have h6 : ‖(δ - q) - (δ - z * (D i j : ℝ))‖ ≤ ((1 + mulErr R.u) * ((1 + mulErr R.u) * (1 + R.u)) - 1) *
      (‖δ‖ + ‖z * (D i j : ℝ)‖) := by
    have e3 : (δ - q) - (δ - z * (D i j : ℝ)) = -(q - z * (D i j : ℝ)) := by ring
    rw [e3, norm_neg]
    refine h4.trans ?_
    have e4 : 1 + ((1 + mulErr R.u) * (1 + R.u) - 1) = (1 + mulErr R.u) * (1 + R.u) := by ring
    rw [e4]
    refine mul_le_mul_of_nonneg_left (by have := norm_nonneg δ; linarith) ?_
    have : 0 ≤ mulErr R.u * mulErr R.u := mul_nonneg hμ hμ
    have : 0 ≤ mulErr R.u * mulErr R.u * R.u := mul_nonneg this hu
    have : 0 ≤ mulErr R.u * R.u := mul_nonneg hμ hu
    nlinarith
  have h7 := rel_trans hu h5 h6 (norm_sub_le _ _)
  have e5 : (1 + R.u) * (1 + ((1 + mulErr R.u) * ((1 + mulErr R.u) * (1 + R.u)) - 1)) - 1 = entryErr R.u := by
    unfold entryErr; ring
  rw [e5, hδn, norm_mul, Complex.norm_real, Real.norm_eq_abs] at h7
  exact h7

theorem rhs_err {lam ui : ℂ} {tEnd : ℝ} {n : ℕ} {Q D : Matrix (Fin M) (Fin M) ℝ} {U b : Fin M → ℂ}
    (h : R.SDCRhs lam tEnd n Q D ui U b) (hk : 2 * R.u < 1) (hM : ((2 * M : ℕ) : ℝ) * R.u < 1) (i : Fin M) :
    ‖b i - (ui + ((lam * (tEnd / n : ℝ)) • cmat (Q - D)) i ⬝ᵥ U)‖ ≤
      R.u * ‖ui‖ + ((1 + R.u) * ((1 + √2 * gamma R.u (2 * M)) * (1 + entryErr R.u)) - 1) *
        (‖lam * (tEnd / n : ℝ)‖ * ∑ j, |Q i j - D i j| * ‖U j‖) := by
  obtain ⟨c, hc, B, hB, h⟩ := h
  obtain ⟨s, hs, e⟩ := h i
  have h1 := lamDt_err hc hk
  have hμ := mulErr_nonneg hk
  have hu := R.u_nonneg
  have hγ : 0 ≤ √2 * gamma R.u (2 * M) :=
    mul_nonneg (Real.sqrt_nonneg _) (div_nonneg (mul_nonneg (Nat.cast_nonneg _) R.u_nonneg) (by linarith))
  set z := lam * (tEnd / n : ℝ) with hz
  clear_value z
  have hBij : ∀ j, ‖B i j - z * (Q i j - D i j : ℝ)‖ ≤ entryErr R.u * ‖z * (Q i j - D i j : ℝ)‖ := by
    intro j
    have h2 := npCMul_err (hB i j) hk
    have h3 : ‖c * (R.fl (Q i j - D i j) : ℝ) - z * (R.fl (Q i j - D i j) : ℝ)‖ ≤
        ((1 + mulErr R.u) * (1 + R.u) - 1) * ‖z * (R.fl (Q i j - D i j) : ℝ)‖ := by
      rw [← sub_mul, norm_mul, norm_mul, ← mul_assoc]
      exact mul_le_mul_of_nonneg_right h1 (norm_nonneg _)
    have h4 : ‖z * (R.fl (Q i j - D i j) : ℝ) - z * (Q i j - D i j : ℝ)‖ ≤ R.u * ‖z * (Q i j - D i j : ℝ)‖ := by
      rw [← mul_sub, norm_mul, norm_mul, ← Complex.ofReal_sub, Complex.norm_real, Complex.norm_real, Real.norm_eq_abs,
        Real.norm_eq_abs]
      have := mul_le_mul_of_nonneg_left (R.err (Q i j - D i j)) (norm_nonneg z)
      linarith
    have h5 := rel_trans (by nlinarith [mul_nonneg hμ hu]) h3 h4 le_rfl
    rw [← norm_mul] at h2
    have h6 := rel_trans hμ h2 h5 le_rfl
    have e5 : (1 + mulErr R.u) * (1 + ((1 + ((1 + mulErr R.u) * (1 + R.u) - 1)) * (1 + R.u) - 1)) - 1 = entryErr R.u := by
      unfold entryErr; ring
    rwa [e5] at h6
  have hη : 0 ≤ entryErr R.u := by
    unfold entryErr
    have h1 : 1 ≤ (1 + mulErr R.u) ^ 2 := one_le_pow₀ (by linarith)
    have h2 : 1 ≤ (1 + R.u) ^ 2 := one_le_pow₀ (by linarith)
    have := mul_le_mul h1 h2 zero_le_one (by linarith)
    linarith
  set T := ‖z‖ * ∑ j, |Q i j - D i j| * ‖U j‖ with hT
  have hT' : T = ∑ j, ‖z * (Q i j - D i j : ℝ)‖ * ‖U j‖ := by
    rw [hT, Finset.mul_sum]
    refine Finset.sum_congr rfl fun j _ => ?_
    rw [norm_mul, Complex.norm_real, Real.norm_eq_abs, mul_assoc]
  have hT0 : 0 ≤ T := by rw [hT']; exact Finset.sum_nonneg fun j _ => by positivity
  have hBT : ∑ j, ‖B i j‖ * ‖U j‖ ≤ (1 + entryErr R.u) * T := by
    rw [hT', Finset.mul_sum]
    refine Finset.sum_le_sum fun j _ => ?_
    rw [← mul_assoc]
    refine mul_le_mul_of_nonneg_right ?_ (norm_nonneg _)
    calc ‖B i j‖ = ‖(B i j - z * (Q i j - D i j : ℝ)) + z * (Q i j - D i j : ℝ)‖ := by congr 1; ring
      _ ≤ _ := norm_add_le _ _
      _ ≤ _ := by linarith [hBij j]
  have hd : ((z • cmat (Q - D)) i ⬝ᵥ U) = ∑ j, z * (Q i j - D i j : ℝ) * U j := by
    simp [dotProduct, cmat]
  have h2 : ‖(∑ j, B i j * U j) - ((z • cmat (Q - D)) i ⬝ᵥ U)‖ ≤ entryErr R.u * T := by
    rw [hd, ← Finset.sum_sub_distrib, hT', Finset.mul_sum]
    refine (norm_sum_le _ _).trans (Finset.sum_le_sum fun j _ => ?_)
    rw [← sub_mul, norm_mul, ← mul_assoc]
    exact mul_le_mul_of_nonneg_right (hBij j) (norm_nonneg _)
  have h3 : ‖s - ∑ j, B i j * U j‖ ≤ √2 * gamma R.u (2 * M) * ((1 + entryErr R.u) * T) := by
    have := npCDot_err hs (by simpa using hM)
    rw [Fintype.card_fin] at this
    exact this.trans (mul_le_mul_of_nonneg_left hBT hγ)
  set X := (z • cmat (Q - D)) i ⬝ᵥ U with hX
  have hXT : ‖X‖ ≤ T := by
    rw [hd, hT']
    exact (norm_sum_le _ _).trans (Finset.sum_le_sum fun j _ => by rw [norm_mul])
  have h4 : ‖s - X‖ ≤ ((1 + √2 * gamma R.u (2 * M)) * (1 + entryErr R.u) - 1) * T := by
    calc ‖s - X‖ = ‖(s - ∑ j, B i j * U j) + ((∑ j, B i j * U j) - X)‖ := by congr 1; ring
      _ ≤ _ := norm_add_le _ _
      _ ≤ _ := by linarith
  have h5 : ‖ui + s‖ ≤ ‖ui‖ + (1 + √2 * gamma R.u (2 * M)) * (1 + entryErr R.u) * T := by
    calc ‖ui + s‖ = ‖ui + ((s - X) + X)‖ := by congr 1; ring
      _ ≤ ‖ui‖ + (‖s - X‖ + ‖X‖) := (norm_add_le _ _).trans (by gcongr; exact norm_add_le _ _)
      _ ≤ _ := by linarith
  have h6 := cfl_err (R := R) (ui + s)
  have h7 := mul_le_mul_of_nonneg_left h5 hu
  rw [e]
  calc ‖R.cfl (ui + s) - (ui + X)‖ = ‖(R.cfl (ui + s) - (ui + s)) + (s - X)‖ := by congr 1; ring
    _ ≤ _ := norm_add_le _ _
    _ ≤ _ := by linarith

theorem entryErr_nonneg (hk : 2 * R.u < 1) : 0 ≤ entryErr R.u := by
  have hμ := mulErr_nonneg hk
  have hu := R.u_nonneg
  unfold entryErr
  have h1 : 1 ≤ (1 + mulErr R.u) ^ 2 := one_le_pow₀ (by linarith)
  have h2 : 1 ≤ (1 + R.u) ^ 2 := one_le_pow₀ (by linarith)
  have := mul_le_mul h1 h2 zero_le_one (by linarith)
  linarith

theorem sweepErr_eq (σ : ℝ) (M : ℕ) :
    sweepErr R.u σ M = ((1 + R.u) * ((1 + √2 * gamma R.u (2 * M)) * (1 + entryErr R.u)) - 1) + σ * (1 + entryErr R.u) := by
  unfold sweepErr entryErr mulErr; ring

variable {S : SolveOps}

theorem sweepErr_ge (hk : 2 * R.u < 1) (hM : ((2 * M : ℕ) : ℝ) * R.u < 1) {σ : ℝ} (hσ : 0 ≤ σ) :
    entryErr R.u + σ * (1 + entryErr R.u) ≤ sweepErr R.u σ M ∧ R.u ≤ sweepErr R.u σ M ∧
    (1 + R.u) * ((1 + √2 * gamma R.u (2 * M)) * (1 + entryErr R.u)) - 1 ≤ sweepErr R.u σ M := by
  have hγ : 0 ≤ √2 * gamma R.u (2 * M) :=
    mul_nonneg (Real.sqrt_nonneg _) (div_nonneg (mul_nonneg (Nat.cast_nonneg _) R.u_nonneg) (by linarith))
  have hη := entryErr_nonneg (R := R) hk
  have hu := R.u_nonneg
  rw [sweepErr_eq]
  have h1 : 0 ≤ σ * (1 + entryErr R.u) := mul_nonneg hσ (by linarith)
  have h2 : 1 + entryErr R.u ≤ (1 + √2 * gamma R.u (2 * M)) * (1 + entryErr R.u) :=
    le_mul_of_one_le_left (by linarith) (by linarith)
  have h3 : (1 + √2 * gamma R.u (2 * M)) * (1 + entryErr R.u) ≤ (1 + R.u) * ((1 + √2 * gamma R.u (2 * M)) * (1 + entryErr R.u)) :=
    le_mul_of_one_le_left (by linarith) (by linarith)
  have h4 : (1 + R.u) * 1 ≤ (1 + R.u) * ((1 + √2 * gamma R.u (2 * M)) * (1 + entryErr R.u)) :=
    mul_le_mul_of_nonneg_left (by linarith) (by linarith)
  exact ⟨by linarith, by linarith, by linarith⟩

/-- The residual of the solution of a system with a matrix `I - z D`. -/
theorem solve_residual (hM0 : 0 < M) {lam : ℂ} {tEnd : ℝ} {n : ℕ} {D : Matrix (Fin M) (Fin M) ℝ} {P : Matrix (Fin M) (Fin M) ℂ}
    (b : Fin M → ℂ) (hP : R.SDCMatrix lam tEnd n D P) (hk : 2 * R.u < 1) {V p : ℝ} (hV0 : 0 ≤ V)
    (hp : ∀ i, 1 + ‖lam * (tEnd / n : ℝ)‖ * ∑ j, |D i j| ≤ p)
    (hV : ∀ x, ‖x‖ ≤ V * ‖(1 - (lam * (tEnd / n : ℝ)) • cmat D) *ᵥ x‖)
    (hsmall : V * p * (entryErr R.u + S.σ * (1 + entryErr R.u)) < 1) :
    ∃ U', S.solve P b = .ok U' ∧
      ‖(1 - (lam * (tEnd / n : ℝ)) • cmat D) *ᵥ U' - b‖ ≤ (entryErr R.u + S.σ * (1 + entryErr R.u)) * (p * ‖U'‖) := by
  haveI : Nonempty (Fin M) := ⟨⟨0, hM0⟩⟩
  have hPe := matrix_err hP hk
  have hη := entryErr_nonneg (R := R) hk
  have hu := R.u_nonneg
  set z := lam * (tEnd / n : ℝ) with hz
  clear_value z
  set A := 1 - z • cmat D with hA
  set η := entryErr R.u with hηd
  have hp0 : 1 ≤ p := by
    have := hp ⟨0, hM0⟩
    have : 0 ≤ ‖z‖ * ∑ j, |D ⟨0, hM0⟩ j| := mul_nonneg (norm_nonneg _) (Finset.sum_nonneg fun _ _ => abs_nonneg _)
    linarith
  have hrow : ∀ i, ∑ j, ((if i = j then (1:ℝ) else 0) + ‖z‖ * |D i j|) ≤ p := by
    intro i
    rw [Finset.sum_add_distrib, ← Finset.mul_sum]
    simpa using hp i
  have hAij : ∀ i j, ‖A i j‖ ≤ (if i = j then (1:ℝ) else 0) + ‖z‖ * |D i j| := by
    intro i j
    have e2 : A i j = (if i = j then 1 else 0) - z * (D i j : ℝ) := by
      simp [hA, Matrix.one_apply, cmat]
    rw [e2]
    refine (norm_sub_le _ _).trans ?_
    rw [norm_mul, Complex.norm_real, Real.norm_eq_abs]
    split_ifs <;> simp
  have hdiff : ∀ x : Fin M → ℂ, ‖P *ᵥ x - A *ᵥ x‖ ≤ η * p * ‖x‖ := by
    intro x
    rw [pi_norm_le_iff_of_nonneg (by positivity)]
    intro i
    have e : (P *ᵥ x - A *ᵥ x) i = ∑ j, (P i j - A i j) * x j := by
      simp only [Pi.sub_apply, Matrix.mulVec, dotProduct]
      rw [← Finset.sum_sub_distrib]
      exact Finset.sum_congr rfl fun j _ => by ring
    rw [e]
    calc ‖∑ j, (P i j - A i j) * x j‖ ≤ ∑ j, η * ((if i = j then 1 else 0) + ‖z‖ * |D i j|) * ‖x‖ := by
          refine (norm_sum_le _ _).trans (Finset.sum_le_sum fun j _ => ?_)
          rw [norm_mul]
          have h0 : (0:ℝ) ≤ (if i = j then 1 else 0) + ‖z‖ * |D i j| := (norm_nonneg _).trans (hAij i j)
          exact mul_le_mul (hPe i j) (norm_le_pi_norm x j) (norm_nonneg _) (mul_nonneg hη h0)
      _ = η * (∑ j, ((if i = j then (1:ℝ) else 0) + ‖z‖ * |D i j|)) * ‖x‖ := by
          rw [← Finset.sum_mul, ← Finset.mul_sum]
      _ ≤ η * p * ‖x‖ := mul_le_mul_of_nonneg_right (mul_le_mul_of_nonneg_left (hrow i) hη) (norm_nonneg _)
  have hPn : (⨆ i, ∑ j, ‖P i j‖) ≤ (1 + η) * p := by
    refine ciSup_le fun i => ?_
    calc ∑ j, ‖P i j‖ ≤ ∑ j, (1 + η) * ((if i = j then 1 else 0) + ‖z‖ * |D i j|) := by
          refine Finset.sum_le_sum fun j _ => ?_
          have h1 : ‖P i j‖ ≤ ‖P i j - A i j‖ + ‖A i j‖ := by
            simpa using norm_add_le (P i j - A i j) (A i j)
          have h2 := hPe i j
          have h3 := hAij i j
          linarith
      _ = (1 + η) * ∑ j, ((if i = j then (1:ℝ) else 0) + ‖z‖ * |D i j|) := by rw [← Finset.mul_sum]
      _ ≤ (1 + η) * p := mul_le_mul_of_nonneg_left (hrow i) (by linarith)
  have hPn0 : 0 ≤ ⨆ i, ∑ j, ‖P i j‖ := Real.iSup_nonneg fun i => Finset.sum_nonneg fun j _ => norm_nonneg _
  have hσ := S.σ_nonneg
  have hVp : 0 ≤ V * p := mul_nonneg hV0 (by linarith)
  have hs1 : 0 ≤ V * p * (S.σ * (1 + η)) := mul_nonneg hVp (mul_nonneg hσ (by linarith))
  have hden : 0 < 1 - V * p * η := by linarith
  obtain ⟨U', hU', hres⟩ := S.spec P b (V / (1 - V * p * η)) (by
      intro x
      have h1 := hV x
      have h2 : ‖A *ᵥ x‖ ≤ ‖P *ᵥ x‖ + η * p * ‖x‖ := by
        have h3 := norm_sub_le (P *ᵥ x) (P *ᵥ x - A *ᵥ x)
        rw [sub_sub_cancel] at h3
        linarith [hdiff x]
      have h3 := mul_le_mul_of_nonneg_left h2 hV0
      rw [div_mul_eq_mul_div, le_div_iff₀ hden]
      linarith) (by
      have h1 : S.σ * (V / (1 - V * p * η)) * (⨆ i, ∑ j, ‖P i j‖) ≤ S.σ * (V / (1 - V * p * η)) * ((1 + η) * p) :=
        mul_le_mul_of_nonneg_left hPn (mul_nonneg hσ (div_nonneg hV0 hden.le))
      refine h1.trans_lt ?_
      have e : S.σ * (V / (1 - V * p * η)) * ((1 + η) * p) = (V * p * (S.σ * (1 + η))) / (1 - V * p * η) := by ring
      rw [e, div_lt_one hden]
      linarith)
  refine ⟨U', hU', ?_⟩
  have e : A *ᵥ U' - b = -(P *ᵥ U' - A *ᵥ U') + (P *ᵥ U' - b) := by abel
  rw [e]
  have h1 := norm_add_le (-(P *ᵥ U' - A *ᵥ U')) (P *ᵥ U' - b)
  rw [norm_neg] at h1
  have h2 := hdiff U'
  have h3 : S.σ * (⨆ i, ∑ j, ‖P i j‖) * ‖U'‖ ≤ S.σ * ((1 + η) * p) * ‖U'‖ :=
    mul_le_mul_of_nonneg_right (mul_le_mul_of_nonneg_left hPn hσ) (norm_nonneg _)
  linarith

/-- One sweep: it does not raise, and it solves the equation of the sweep up to a small residual. -/
theorem sweep_residual (hM0 : 0 < M) {lam ui : ℂ} {tEnd : ℝ} {n : ℕ} {Q D : Matrix (Fin M) (Fin M) ℝ} {P : Matrix (Fin M) (Fin M) ℂ}
    {U b : Fin M → ℂ} (hP : R.SDCMatrix lam tEnd n D P) (hb : R.SDCRhs lam tEnd n Q D ui U b)
    (hk : 2 * R.u < 1) (hM : ((2 * M : ℕ) : ℝ) * R.u < 1) {V p β : ℝ} (hV0 : 0 ≤ V)
    (hp : ∀ i, 1 + ‖lam * (tEnd / n : ℝ)‖ * ∑ j, |D i j| ≤ p)
    (hβ : ∀ i, ‖lam * (tEnd / n : ℝ)‖ * ∑ j, |Q i j - D i j| ≤ β)
    (hV : ∀ x, ‖x‖ ≤ V * ‖(1 - (lam * (tEnd / n : ℝ)) • cmat D) *ᵥ x‖)
    (hsmall : V * p * (entryErr R.u + S.σ * (1 + entryErr R.u)) < 1) :
    ∃ U', S.solve P b = .ok U' ∧
      ‖(1 - (lam * (tEnd / n : ℝ)) • cmat D) *ᵥ U' - ((fun _ => ui) + ((lam * (tEnd / n : ℝ)) • cmat (Q - D)) *ᵥ U)‖ ≤
        sweepErr R.u S.σ M * (p * ‖U'‖ + β * ‖U‖ + ‖ui‖) := by
  haveI : Nonempty (Fin M) := ⟨⟨0, hM0⟩⟩
  have hbe := rhs_err hb hk hM
  have hη := entryErr_nonneg (R := R) hk
  obtain ⟨g1, g2, g3⟩ := sweepErr_ge (R := R) hk hM S.σ_nonneg
  have hu := R.u_nonneg
  have hs := solve_residual (S := S) hM0 b hP hk hV0 hp hV hsmall
  set z := lam * (tEnd / n : ℝ) with hz
  clear_value z
  set A := 1 - z • cmat D with hA
  set η := entryErr R.u with hηd
  have hp0 : 1 ≤ p := by
    have := hp ⟨0, hM0⟩
    have : 0 ≤ ‖z‖ * ∑ j, |D ⟨0, hM0⟩ j| := mul_nonneg (norm_nonneg _) (Finset.sum_nonneg fun _ _ => abs_nonneg _)
    linarith
  have hβ0 : 0 ≤ β := le_trans (mul_nonneg (norm_nonneg _) (Finset.sum_nonneg fun _ _ => abs_nonneg _)) (hβ ⟨0, hM0⟩)
  obtain ⟨U', hU', hr⟩ := hs
  refine ⟨U', hU', ?_⟩
  have hbn : ‖b - ((fun _ => ui) + (z • cmat (Q - D)) *ᵥ U)‖ ≤ R.u * ‖ui‖ +
      ((1 + R.u) * ((1 + √2 * gamma R.u (2 * M)) * (1 + η)) - 1) * (β * ‖U‖) := by
    have hc : 0 ≤ (1 + R.u) * ((1 + √2 * gamma R.u (2 * M)) * (1 + η)) - 1 := by
      have hγ : 0 ≤ √2 * gamma R.u (2 * M) :=
        mul_nonneg (Real.sqrt_nonneg _) (div_nonneg (mul_nonneg (Nat.cast_nonneg _) R.u_nonneg) (by linarith))
      have h1 : 1 ≤ (1 + √2 * gamma R.u (2 * M)) * (1 + η) := one_le_mul_of_one_le_of_one_le (by linarith) (by linarith)
      have h2 : 1 ≤ (1 + R.u) * ((1 + √2 * gamma R.u (2 * M)) * (1 + η)) := one_le_mul_of_one_le_of_one_le (by linarith) h1
      linarith
    rw [pi_norm_le_iff_of_nonneg (by positivity)]
    intro i
    refine (hbe i).trans (add_le_add le_rfl (mul_le_mul_of_nonneg_left ?_ hc))
    calc ‖z‖ * ∑ j, |Q i j - D i j| * ‖U j‖ ≤ ‖z‖ * ∑ j, |Q i j - D i j| * ‖U‖ := by
          refine mul_le_mul_of_nonneg_left (Finset.sum_le_sum fun j _ => ?_) (norm_nonneg _)
          exact mul_le_mul_of_nonneg_left (norm_le_pi_norm U j) (abs_nonneg _)
      _ = (‖z‖ * ∑ j, |Q i j - D i j|) * ‖U‖ := by rw [← Finset.sum_mul, mul_assoc]
      _ ≤ β * ‖U‖ := mul_le_mul_of_nonneg_right (hβ i) (norm_nonneg _)
  have e : A *ᵥ U' - ((fun _ => ui) + (z • cmat (Q - D)) *ᵥ U) =
      (A *ᵥ U' - b) + (b - ((fun _ => ui) + (z • cmat (Q - D)) *ᵥ U)) := by abel
  rw [e]
  have h1 := norm_add_le (A *ᵥ U' - b) (b - ((fun _ => ui) + (z • cmat (Q - D)) *ᵥ U))
  have k1 := mul_le_mul_of_nonneg_right g1 (mul_nonneg (by linarith : (0:ℝ) ≤ p) (norm_nonneg U'))
  have k2 := mul_le_mul_of_nonneg_right g2 (norm_nonneg ui)
  have k3 := mul_le_mul_of_nonneg_right g3 (mul_nonneg hβ0 (norm_nonneg U))
  linarith

theorem det_ne_zero_of_bounded {A : Matrix (Fin M) (Fin M) ℂ} {V : ℝ} (hV : ∀ x, ‖x‖ ≤ V * ‖A *ᵥ x‖) : A.det ≠ 0 := by
  intro h
  obtain ⟨x, hx, h0⟩ := Matrix.exists_mulVec_eq_zero_iff.2 h
  have := hV x
  rw [h0, norm_zero, mul_zero] at this
  exact hx (norm_le_zero_iff.1 this)

/-- From one sweep to the next. -/
theorem recursion_step {κ ρ A a b : ℝ} (hκ : κ < 1) (h : b ≤ ρ * a + κ * (A + a + b)) :
    b ≤ (ρ + κ) / (1 - κ) * a + κ / (1 - κ) * A := by
  have h1 : 0 < 1 - κ := by linarith
  rw [div_mul_eq_mul_div, div_mul_eq_mul_div, ← add_div, le_div_iff₀ h1]
  linarith

theorem sweeps_bound (hM0 : 0 < M) {lam ui : ℂ} {tEnd : ℝ} {n : ℕ} {Q : Matrix (Fin M) (Fin M) ℝ}
    {f : ℕ → Matrix (Fin M) (Fin M) ℝ} {P : ℕ → Matrix (Fin M) (Fin M) ℂ} {K : ℕ} {N : Seminorm ℂ (Fin M → ℂ)} {C V p β ρ : ℝ}
    (hB : SweepBounds (lam * (tEnd / n : ℝ)) Q f K N C V p β ρ)
    (hP : ∀ k < K, R.SDCMatrix lam tEnd n (f k) (P k)) (hk : 2 * R.u < 1) (hM : ((2 * M : ℕ) : ℝ) * R.u < 1)
    (hκ : C * V * sweepErr R.u S.σ M * (p + β) < 1)
    {X : ℕ → Fin M → ℂ} (hX : ∀ k < K, (1 - (lam * (tEnd / n : ℝ)) • cmat (f k)) *ᵥ X (k + 1) =
      (fun _ => ui) + ((lam * (tEnd / n : ℝ)) • cmat (Q - f k)) *ᵥ X k) {m m' : ℝ} (hm : ∀ k ≤ K, ‖X k‖ ≤ m)
    (hm' : 0 < K → ‖ui‖ ≤ (p + β) * m')
    {k : ℕ} {r : PyResult (Fin M → ℂ)} (hkK : k ≤ K) (h : R.SDCSweeps S lam tEnd n Q f P ui k r) :
    ∃ U, r = .ok U ∧ N (U - X k) ≤
      ((ρ + C * V * sweepErr R.u S.σ M * (p + β)) / (1 - C * V * sweepErr R.u S.σ M * (p + β))) ^ k * N ((fun _ => ui) - X 0) +
        sweepsErr (C * V * sweepErr R.u S.σ M * (p + β)) ρ k * (m + m') := by
  haveI : Nonempty (Fin M) := ⟨⟨0, hM0⟩⟩
  set e := sweepErr R.u S.σ M with he
  set κ := C * V * e * (p + β) with hκd
  set z := lam * (tEnd / n : ℝ) with hz
  obtain ⟨g1, g2, -⟩ := sweepErr_ge (R := R) hk hM S.σ_nonneg
  have he0 : 0 ≤ e := R.u_nonneg.trans g2
  have hC : 1 ≤ C := by
    have h1 := (hB.lower (fun _ => 1)).trans (hB.upper fun _ => 1)
    rw [pi_norm_const, norm_one, mul_one] at h1
    exact h1
  induction h with
  | start => exact ⟨_, rfl, by simp [sweepsErr]⟩
  | raised h ih =>
    obtain ⟨U, hU, -⟩ := ih (by omega)
    cases hU
  | @sweep k U b h hb ih =>
    obtain ⟨U', hU', hN⟩ := ih (by omega)
    cases hU'
    have hk1 : k < K := by omega
    have hp0 : 1 ≤ p := by
      have := hB.diag k hk1 ⟨0, hM0⟩
      have : 0 ≤ ‖z‖ * ∑ j, |f k ⟨0, hM0⟩ j| := mul_nonneg (norm_nonneg _) (Finset.sum_nonneg fun _ _ => abs_nonneg _)
      linarith
    have hβ0 : 0 ≤ β := le_trans (mul_nonneg (norm_nonneg _) (Finset.sum_nonneg fun _ _ => abs_nonneg _)) (hB.rest k hk1 ⟨0, hM0⟩)
    have hVe : 0 ≤ V * e := mul_nonneg hB.V_nonneg he0
    have hsmall : V * p * (entryErr R.u + S.σ * (1 + entryErr R.u)) < 1 := by
      have h1 : V * p * (entryErr R.u + S.σ * (1 + entryErr R.u)) ≤ V * p * e :=
        mul_le_mul_of_nonneg_left g1 (mul_nonneg hB.V_nonneg (by linarith))
      have h2 : V * e * p ≤ V * e * (p + β) := mul_le_mul_of_nonneg_left (by linarith) hVe
      have h3 : V * e * (p + β) ≤ C * (V * e * (p + β)) :=
        le_mul_of_one_le_left (mul_nonneg hVe (by linarith)) hC
      have h4 : κ = C * (V * e * (p + β)) := by rw [hκd]; ring
      linarith
    obtain ⟨U', hs, hres⟩ := sweep_residual hM0 (hP k hk1) hb hk hM hB.V_nonneg (hB.diag k hk1) (hB.rest k hk1) (hB.inv k hk1) hsmall
    refine ⟨U', hs, ?_⟩
    set A := 1 - z • cmat (f k) with hA
    set B := z • cmat (Q - f k) with hBd
    have hdet := det_ne_zero_of_bounded (hB.inv k hk1)
    set r := A *ᵥ U' - ((fun _ => ui) + B *ᵥ U) with hr
    set y := A⁻¹ *ᵥ (B *ᵥ (U - X k)) with hy
    have hAy : A *ᵥ y = B *ᵥ (U - X k) := by
      rw [hy, Matrix.mulVec_mulVec, Matrix.mul_nonsing_inv _ (isUnit_iff_ne_zero.2 hdet), Matrix.one_mulVec]
    have hAr : A *ᵥ (U' - X (k + 1) - y) = r := by
      rw [Matrix.mulVec_sub, Matrix.mulVec_sub, hAy, hX k hk1, Matrix.mulVec_sub, hr]
      abel
    have h1 := hB.contract k hk1 _ _ hAy
    have h2 : N (U' - X (k + 1) - y) ≤ C * (V * ‖r‖) := by
      refine (hB.upper _).trans (mul_le_mul_of_nonneg_left ?_ (by linarith))
      have := hB.inv k hk1 (U' - X (k + 1) - y)
      rwa [hAr] at this
    have h3 : N (U' - X (k + 1)) ≤ ρ * N (U - X k) + C * (V * ‖r‖) := by
      have := map_add_le_add N y (U' - X (k + 1) - y)
      rw [add_sub_cancel] at this
      linarith
    have n1 : ‖U'‖ ≤ m + N (U' - X (k + 1)) := by
      have := norm_add_le (X (k + 1)) (U' - X (k + 1))
      rw [add_sub_cancel] at this
      linarith [hB.lower (U' - X (k + 1)), hm (k + 1) hkK]
    have n2 : ‖U‖ ≤ m + N (U - X k) := by
      have := norm_add_le (X k) (U - X k)
      rw [add_sub_cancel] at this
      linarith [hB.lower (U - X k), hm k hk1.le]
    have n3 := hm' (by omega)
    have a0 : 0 ≤ N (U' - X (k + 1)) := apply_nonneg N _
    have b0 : 0 ≤ N (U - X k) := apply_nonneg N _
    have hr2 : ‖r‖ ≤ e * ((p + β) * (m + m' + N (U - X k) + N (U' - X (k + 1)))) := by
      refine hres.trans (mul_le_mul_of_nonneg_left ?_ he0)
      have k1 := mul_le_mul_of_nonneg_left n1 (by linarith : (0:ℝ) ≤ p)
      have k2 := mul_le_mul_of_nonneg_left n2 hβ0
      have k3 := mul_nonneg (by linarith : (0:ℝ) ≤ p) b0
      have k4 := mul_nonneg hβ0 a0
      linarith
    have h4 : N (U' - X (k + 1)) ≤ ρ * N (U - X k) + κ * (m + m' + N (U - X k) + N (U' - X (k + 1))) := by
      have := mul_le_mul_of_nonneg_left (mul_le_mul_of_nonneg_left hr2 hB.V_nonneg) (by linarith : (0:ℝ) ≤ C)
      have e1 : C * (V * (e * ((p + β) * (m + m' + N (U - X k) + N (U' - X (k + 1)))))) =
        κ * (m + m' + N (U - X k) + N (U' - X (k + 1))) := by rw [hκd]; ring
      linarith
    have h5 := recursion_step hκ h4
    have hκ0 : 0 ≤ κ := by
      rw [hκd]
      exact mul_nonneg (mul_nonneg (mul_nonneg (by linarith) hB.V_nonneg) he0) (by linarith)
    have hq : 0 ≤ (ρ + κ) / (1 - κ) := div_nonneg (add_nonneg hB.ρ_nonneg hκ0) (by linarith)
    have h6 := mul_le_mul_of_nonneg_left hN hq
    have e2 : sweepsErr κ ρ (k + 1) = (ρ + κ) / (1 - κ) * sweepsErr κ ρ k + κ / (1 - κ) := by
      simp only [sweepsErr, Finset.sum_range_succ', pow_zero, pow_succ, ← Finset.sum_mul]
      ring
    rw [e2, pow_succ]
    linarith

/-- The quadrature of the step update. -/
theorem quadrature_err {lam ui c s q : ℂ} {tEnd : ℝ} {n : ℕ} {w : Fin M → ℝ} {U : Fin M → ℂ} (hc : R.LamDt lam tEnd n c)
    (hs : R.NpCDot (fun i => (w i : ℂ)) U s) (hq : R.NpCMul c s q) (hk : 2 * R.u < 1) (hM : ((2 * M : ℕ) : ℝ) * R.u < 1)
    {σ : ℝ} (hσ : 0 ≤ σ) :
    ‖R.cfl (ui + q) - (ui + lam * (tEnd / n : ℝ) * ∑ i, (w i : ℂ) * U i)‖ ≤
      sweepErr R.u σ M * (‖ui‖ + ‖lam * (tEnd / n : ℝ)‖ * (∑ i, |w i|) * ‖U‖) := by
  have h1 := lamDt_err hc hk
  have hμ := mulErr_nonneg hk
  have hu := R.u_nonneg
  have hη := entryErr_nonneg (R := R) hk
  have hγ : 0 ≤ √2 * gamma R.u (2 * M) :=
    mul_nonneg (Real.sqrt_nonneg _) (div_nonneg (mul_nonneg (Nat.cast_nonneg _) R.u_nonneg) (by linarith))
  obtain ⟨-, g2, g3⟩ := sweepErr_ge (R := R) (σ := σ) hk hM hσ
  set z := lam * (tEnd / n : ℝ) with hz
  clear_value z
  set Y := ∑ i, (w i : ℂ) * U i with hY
  set W := (∑ i, |w i|) * ‖U‖ with hW
  have hW0 : 0 ≤ W := mul_nonneg (Finset.sum_nonneg fun _ _ => abs_nonneg _) (norm_nonneg _)
  have hsum : ∑ i, ‖(w i : ℂ)‖ * ‖U i‖ ≤ W := by
    rw [hW, Finset.sum_mul]
    refine Finset.sum_le_sum fun i _ => ?_
    rw [Complex.norm_real, Real.norm_eq_abs]
    exact mul_le_mul_of_nonneg_left (norm_le_pi_norm U i) (abs_nonneg _)
  have hYW : ‖Y‖ ≤ W := (norm_sum_le _ _).trans (le_trans (Finset.sum_le_sum fun i _ => by rw [norm_mul]) hsum)
  have h2 : ‖s - Y‖ ≤ √2 * gamma R.u (2 * M) * W := by
    have := npCDot_err hs (by simpa using hM)
    rw [Fintype.card_fin] at this
    exact this.trans (mul_le_mul_of_nonneg_left hsum hγ)
  have h3 := npCMul_err hq hk
  rw [← norm_mul] at h3
  have h4 : ‖c * s - z * s‖ ≤ ((1 + mulErr R.u) * (1 + R.u) - 1) * ‖z * s‖ := by
    rw [← sub_mul, norm_mul, norm_mul, ← mul_assoc]
    exact mul_le_mul_of_nonneg_right h1 (norm_nonneg _)
  have h5 : ‖z * s - z * Y‖ ≤ √2 * gamma R.u (2 * M) * (‖z‖ * W) := by
    rw [← mul_sub, norm_mul]
    have := mul_le_mul_of_nonneg_left h2 (norm_nonneg z)
    linarith
  have hzY : ‖z * Y‖ ≤ ‖z‖ * W := by rw [norm_mul]; exact mul_le_mul_of_nonneg_left hYW (norm_nonneg _)
  have h6 := rel_trans (by nlinarith [mul_nonneg hμ hu]) h4 h5 hzY
  have h7 := rel_trans hμ h3 h6 hzY
  have hzW : 0 ≤ ‖z‖ * W := mul_nonneg (norm_nonneg _) hW0
  have h8 : ‖ui + q‖ ≤ ‖ui‖ + (1 + mulErr R.u) * (1 + ((1 + ((1 + mulErr R.u) * (1 + R.u) - 1)) * (1 + √2 * gamma R.u (2 * M)) - 1)) *
      (‖z‖ * W) := by
    calc ‖ui + q‖ = ‖ui + ((q - z * Y) + z * Y)‖ := by congr 1; ring
      _ ≤ ‖ui‖ + (‖q - z * Y‖ + ‖z * Y‖) := (norm_add_le _ _).trans (by gcongr; exact norm_add_le _ _)
      _ ≤ _ := by linarith
  have h9 := cfl_err (R := R) (ui + q)
  have h10 := mul_le_mul_of_nonneg_left h8 hu
  have h11 : ‖R.cfl (ui + q) - (ui + z * Y)‖ ≤ R.u * ‖ui‖ +
      ((1 + R.u) * ((1 + √2 * gamma R.u (2 * M)) * (1 + entryErr R.u)) - 1) * (‖z‖ * W) := by
    have e : (1 + entryErr R.u) = (1 + mulErr R.u) * ((1 + mulErr R.u) * (1 + R.u)) * (1 + R.u) := by unfold entryErr; ring
    have h12 : (1 + R.u) * ((1 + mulErr R.u) * ((1 + mulErr R.u) * (1 + R.u) * (1 + √2 * gamma R.u (2 * M)))) ≤
        (1 + R.u) * ((1 + √2 * gamma R.u (2 * M)) * (1 + entryErr R.u)) := by
      rw [e]
      have h13 : 0 ≤ (1 + R.u) * ((1 + mulErr R.u) * ((1 + mulErr R.u) * (1 + R.u) * (1 + √2 * gamma R.u (2 * M)))) := by positivity
      calc _ ≤ (1 + R.u) * ((1 + mulErr R.u) * ((1 + mulErr R.u) * (1 + R.u) * (1 + √2 * gamma R.u (2 * M)))) * (1 + R.u) :=
            le_mul_of_one_le_right h13 (by linarith)
        _ = _ := by ring
    have h14 := mul_le_mul_of_nonneg_right h12 hzW
    calc ‖R.cfl (ui + q) - (ui + z * Y)‖ = ‖(R.cfl (ui + q) - (ui + q)) + (q - z * Y)‖ := by congr 1; ring
      _ ≤ _ := norm_add_le _ _
      _ ≤ _ := by linarith
  have k1 := mul_le_mul_of_nonneg_right g2 (norm_nonneg ui)
  have k2 := mul_le_mul_of_nonneg_right g3 hzW
  have e3 : ‖z‖ * (∑ i, |w i|) * ‖U‖ = ‖z‖ * W := by rw [hW, mul_assoc]
  rw [e3]
  linarith

/-- Growth of errors over the steps. -/
theorem steps_growth {S u : ℂ} {v v0 w : ℂ} {s τ : ℝ} {i : ℕ} (hs : ‖S‖ = s) (hτ : 0 ≤ τ) (h : ‖u - S * v‖ ≤ τ * ‖v‖)
    (h1 : ‖v - w‖ ≤ ((s + τ) ^ i - s ^ i) * ‖v0‖) (h2 : ‖v‖ ≤ (s + τ) ^ i * ‖v0‖) :
    ‖u - S * w‖ ≤ ((s + τ) ^ (i + 1) - s ^ (i + 1)) * ‖v0‖ ∧ ‖u‖ ≤ (s + τ) ^ (i + 1) * ‖v0‖ := by
  have hs0 : 0 ≤ s := hs ▸ norm_nonneg S
  have h3 := mul_le_mul_of_nonneg_left h2 hτ
  have h4 := mul_le_mul_of_nonneg_left h1 hs0
  have h5 := mul_le_mul_of_nonneg_left h2 hs0
  constructor
  · calc ‖u - S * w‖ = ‖(u - S * v) + S * (v - w)‖ := by congr 1; ring
      _ ≤ ‖u - S * v‖ + s * ‖v - w‖ := by rw [← hs, ← norm_mul]; exact norm_add_le _ _
      _ ≤ _ := by rw [pow_succ, pow_succ]; linarith
  · calc ‖u‖ = ‖(u - S * v) + S * v‖ := by congr 1; ring
      _ ≤ ‖u - S * v‖ + s * ‖v‖ := by rw [← hs, ← norm_mul]; exact norm_add_le _ _
      _ ≤ _ := by rw [pow_succ]; linarith

end Rounding

end QMat
