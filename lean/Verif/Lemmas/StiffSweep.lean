import Verif.Props.SDCSweeps
import Mathlib.Analysis.Matrix.Normed

/-!
# Sweeps with a diagonal `QΔ` and large `z = λ Δt`
-/

namespace QMat

open Spec Matrix Filter Topology

attribute [local instance] Matrix.linftyOpNormedAddCommGroup Matrix.linftyOpNormedRing Matrix.linftyOpNormedSpace
  Matrix.linftyOpNormedAlgebra

variable {M : ℕ}

/-- `(QΔ - w)⁻¹ (QΔ - Q)` for `QΔ = diag(d)`, with zero rows where `d` is zero. -/
noncomputable def stiffSweep (d : Fin M → ℝ) (Q : Matrix (Fin M) (Fin M) ℝ) (w : ℂ) : Matrix (Fin M) (Fin M) ℂ :=
  Matrix.of fun i j => if d i = 0 then 0 else ((diagonal d i j - Q i j : ℝ) : ℂ) / (d i - w)

/-- The limit for `w = 0`. -/
noncomputable def stiffLimit (d : Fin M → ℝ) (Q : Matrix (Fin M) (Fin M) ℝ) : Matrix (Fin M) (Fin M) ℝ :=
  Matrix.of fun i j => if d i = 0 then 0 else (diagonal d i j - Q i j) / d i

theorem stiffSweep_zero (d : Fin M → ℝ) (Q : Matrix (Fin M) (Fin M) ℝ) :
    stiffSweep d Q 0 = cmat (stiffLimit d Q) := by
  ext i j
  simp only [stiffSweep, stiffLimit, cmat, of_apply, map_apply, sub_zero]
  split_ifs <;> simp

theorem sweepMatrix_diagonal {d : Fin M → ℝ} {Q : Matrix (Fin M) (Fin M) ℝ} (h0 : ∀ i, d i = 0 → ∀ j, Q i j = 0)
    {z : ℂ} (hz : z ≠ 0) (hd : ∀ i, (d i : ℂ) ≠ z⁻¹) :
    (1 - z • cmat (diagonal d)).det ≠ 0 ∧ sweepMatrix z Q (diagonal d) = stiffSweep d Q z⁻¹ := by
  have e : 1 - z • cmat (diagonal d) = diagonal fun i => 1 - z * (d i : ℂ) := by
    ext i j
    by_cases hij : i = j
    · subst hij; simp [cmat]
    · simp [cmat, hij]
  have hne : ∀ i, 1 - z * (d i : ℂ) ≠ 0 := fun i h => hd i (by
    rw [sub_eq_zero] at h
    field_simp
    rw [mul_comm]; exact h.symm)
  have hdet : (1 - z • cmat (diagonal d)).det ≠ 0 := by
    rw [e, det_diagonal]
    exact Finset.prod_ne_zero_iff.mpr fun i _ => hne i
  refine ⟨hdet, ?_⟩
  have h1 : (1 - z • cmat (diagonal d)) * stiffSweep d Q z⁻¹ = z • cmat (Q - diagonal d) := by
    rw [e]
    ext i j
    rw [diagonal_mul]
    simp only [stiffSweep, cmat, of_apply, map_apply, Matrix.smul_apply, smul_eq_mul, Matrix.sub_apply]
    split_ifs with h
    · have : diagonal d i j = 0 := by
        by_cases hij : i = j
        · subst hij; simpa using h
        · simp [hij]
      rw [h0 i h j, this]; simp
    · have h2 : (d i : ℂ) - z⁻¹ ≠ 0 := sub_ne_zero.mpr (hd i)
      rw [mul_div_assoc', div_eq_iff h2]
      push_cast
      field_simp
      ring
  rw [sweepMatrix, ← h1, ← Matrix.mul_assoc, nonsing_inv_mul _ (isUnit_iff_ne_zero.mpr hdet), Matrix.one_mul]

theorem eigen_norm_le {A : Matrix (Fin M) (Fin M) ℂ} {μ : ℂ} (hμ : μ ∈ spectrum ℂ A) (N : ℕ) :
    ‖μ‖ ^ N ≤ ‖A ^ N‖ := by
  obtain ⟨v, hv, h⟩ := eigen_of_mem hμ
  have h1 := linfty_opNorm_mulVec (A ^ N) v
  rw [pow_mulVec_eigen h N, norm_smul, norm_pow] at h1
  exact le_of_mul_le_mul_right h1 (norm_pos_iff.mpr hv)

theorem norm_cmat (A : Matrix (Fin M) (Fin M) ℝ) : ‖cmat A‖ = ‖A‖ := by
  simp only [linfty_opNorm_def, cmat, map_apply]
  congr 2
  ext i
  simp

theorem cmat_pow (A : Matrix (Fin M) (Fin M) ℝ) (N : ℕ) : cmat A ^ N = cmat (A ^ N) := by
  have : cmat (M := M) = fun A => (Complex.ofRealHom.mapMatrix A : Matrix (Fin M) (Fin M) ℂ) := rfl
  rw [this]
  exact (map_pow Complex.ofRealHom.mapMatrix A N).symm

theorem stiffSweep_continuousAt (d : Fin M → ℝ) (Q : Matrix (Fin M) (Fin M) ℝ) :
    ContinuousAt (stiffSweep d Q) 0 := by
  have : ∀ i j, ContinuousAt (fun w => stiffSweep d Q w i j) 0 := by
    intro i j
    simp only [stiffSweep, of_apply]
    split_ifs with h
    · exact continuousAt_const
    · refine continuousAt_const.div (continuousAt_const.sub continuousAt_id) ?_
      simpa using h
  exact continuousAt_pi.mpr fun i => continuousAt_pi.mpr fun j => this i j

/-- A bound of a power of the limit bounds the eigenvalues of all sweeps with large `z`. -/
theorem stiff_of_power {d : Fin M → ℝ} {Q : Matrix (Fin M) (Fin M) ℝ} (h0 : ∀ i, d i = 0 → ∀ j, Q i j = 0)
    {ρ r : ℝ} (hρ : 0 ≤ ρ) (hr : ρ < r) {N : ℕ} (hN : N ≠ 0) (h : ‖stiffLimit d Q ^ N‖ ≤ ρ ^ N) :
    ∃ R, ∀ z : ℂ, R < ‖z‖ → (1 - z • cmat (diagonal d)).det ≠ 0 ∧
      ∀ μ ∈ spectrum ℂ (sweepMatrix z Q (diagonal d)), ‖μ‖ < r := by
  have hlim : Tendsto (fun w => ‖stiffSweep d Q w ^ N‖) (𝓝 0) (𝓝 ‖stiffSweep d Q 0 ^ N‖) :=
    ((stiffSweep_continuousAt d Q).pow N).norm
  have hlt : ‖stiffSweep d Q 0 ^ N‖ < r ^ N := by
    rw [stiffSweep_zero, cmat_pow, norm_cmat]
    exact h.trans_lt (pow_lt_pow_left₀ hr hρ hN)
  have hev1 := hlim.eventually_lt_const hlt
  have hev2 : ∀ᶠ w : ℂ in 𝓝 0, ∀ i, d i ≠ 0 → (d i : ℂ) ≠ w := by
    rw [eventually_all]
    intro i
    by_cases hi : d i = 0
    · simp [hi]
    · have : ∀ᶠ w : ℂ in 𝓝 0, w ≠ (d i : ℂ) := eventually_ne_nhds fun h => hi (by exact_mod_cast h.symm)
      filter_upwards [this] with w hw _ using hw.symm
  obtain ⟨ε, hε, hb⟩ := Metric.eventually_nhds_iff.mp (hev1.and hev2)
  refine ⟨ε⁻¹, fun z hz => ?_⟩
  have hz0 : z ≠ 0 := by
    rintro rfl
    rw [norm_zero] at hz
    exact absurd hz (not_lt.mpr (inv_nonneg.mpr hε.le))
  have hd : dist z⁻¹ 0 < ε := by
    rw [dist_zero_right, norm_inv]
    exact inv_lt_of_inv_lt₀ hε hz
  obtain ⟨h1, h2⟩ := hb hd
  obtain ⟨hdet, hS⟩ := sweepMatrix_diagonal h0 hz0 fun i => by
    by_cases hi : d i = 0
    · rw [hi, Complex.ofReal_zero]
      exact (inv_ne_zero hz0).symm
    · exact h2 i hi
  refine ⟨hdet, fun μ hμ => ?_⟩
  rw [hS] at hμ
  exact lt_of_pow_lt_pow_left₀ N (hρ.trans hr.le) ((eigen_norm_le hμ N).trans_lt h1)

end QMat
