import Mathlib.Analysis.Matrix.Normed
import Mathlib.Analysis.Normed.Algebra.GelfandFormula
import Mathlib.LinearAlgebra.Matrix.Charpoly.Eigs

/-!
# Powers of a matrix with eigenvalues of modulus less than one
-/

namespace QMat

open Matrix Filter Topology

variable {M : ℕ}

attribute [local instance] Matrix.linftyOpNormedAddCommGroup Matrix.linftyOpNormedRing Matrix.linftyOpNormedAlgebra

theorem pow_norm_tendsto {A : Matrix (Fin M) (Fin M) ℂ} (h : ∀ μ ∈ spectrum ℂ A, ‖μ‖ < 1) :
    Tendsto (fun n => ‖A ^ n‖) atTop (𝓝 0) := by
  rcases Nat.eq_zero_or_pos M with rfl | hM
  · have : ∀ n, A ^ n = 0 := fun n => Subsingleton.elim _ _
    simp [this]
  haveI : NeZero M := ⟨hM.ne'⟩
  have hs : spectralRadius ℂ A < 1 := by
    have := spectrum.spectralRadius_lt_of_forall_lt A (r := 1) fun k hk => by
      exact_mod_cast h k hk
    exact_mod_cast this
  obtain ⟨r, hr1, hr2⟩ := exists_between hs
  have hev := (spectrum.pow_nnnorm_pow_one_div_tendsto_nhds_spectralRadius A).eventually (gt_mem_nhds hr1)
  have hr0 : r ≠ ⊤ := (hr2.trans ENNReal.one_lt_top).ne
  lift r to NNReal using hr0
  have hr2' : r < 1 := by exact_mod_cast hr2
  have hb : ∀ᶠ n : ℕ in atTop, ‖A ^ n‖ ≤ (r : ℝ) ^ n := by
    filter_upwards [hev, eventually_gt_atTop 0] with n hn hn0
    have h1 : ((‖A ^ n‖₊ : ENNReal) ^ (1 / n : ℝ)) ^ (n : ℝ) ≤ (r : ENNReal) ^ (n : ℝ) :=
      ENNReal.rpow_le_rpow hn.le (by positivity)
    rw [← ENNReal.rpow_mul, one_div, inv_mul_cancel₀ (by positivity), ENNReal.rpow_one, ENNReal.rpow_natCast] at h1
    have h2 : ‖A ^ n‖₊ ≤ r ^ n := by exact_mod_cast h1
    exact_mod_cast h2
  exact squeeze_zero' (Eventually.of_forall fun _ => norm_nonneg _) hb
    (tendsto_pow_atTop_nhds_zero_of_lt_one r.2 (by exact_mod_cast hr2'))

/-- The powers applied to a vector. -/
theorem pow_mulVec_tendsto {A : Matrix (Fin M) (Fin M) ℂ} (h : ∀ μ ∈ spectrum ℂ A, ‖μ‖ < 1) (v : Fin M → ℂ) :
    Tendsto (fun n => A ^ n *ᵥ v) atTop (𝓝 0) := by
  rw [tendsto_zero_iff_norm_tendsto_zero]
  refine squeeze_zero (fun _ => norm_nonneg _) (fun n => Matrix.linfty_opNorm_mulVec (A ^ n) v) ?_
  simpa using (pow_norm_tendsto h).mul_const ‖v‖

/-- A small power bounds the eigenvalues. -/
theorem spectrum_of_pow {A : Matrix (Fin M) (Fin M) ℂ} {m : ℕ} (h : ‖A ^ m‖ < 1) (μ : ℂ)
    (hμ : μ ∈ spectrum ℂ A) : ‖μ‖ < 1 := by
  by_contra hge
  push Not at hge
  have hM : 0 < M := by
    rcases Nat.eq_zero_or_pos M with rfl | hM
    · exact absurd hμ (by simp [spectrum.of_subsingleton])
    · exact hM
  haveI : NeZero M := ⟨hM.ne'⟩
  have h1 : μ ^ m ∈ spectrum ℂ (A ^ m) := spectrum.pow_mem_pow A m hμ
  have h2 := spectrum.norm_le_norm_of_mem h1
  rw [norm_pow] at h2
  linarith [one_le_pow₀ hge (n := m)]

/-- Matrices near one with eigenvalues of modulus less than one. -/
theorem spectrum_eventually {ι : Type*} {l : Filter ι} {F : ι → Matrix (Fin M) (Fin M) ℂ}
    {A : Matrix (Fin M) (Fin M) ℂ} (hF : Tendsto F l (𝓝 A)) (h : ∀ μ ∈ spectrum ℂ A, ‖μ‖ < 1) :
    ∀ᶠ x in l, ∀ μ ∈ spectrum ℂ (F x), ‖μ‖ < 1 := by
  obtain ⟨m, hm⟩ := ((pow_norm_tendsto h).eventually (gt_mem_nhds one_pos)).exists
  have hc : Tendsto (fun x => ‖F x ^ m‖) l (𝓝 ‖A ^ m‖) := ((hF.pow m).norm)
  filter_upwards [hc.eventually (gt_mem_nhds hm)] with x hx
  exact spectrum_of_pow hx

/-- Vectors on which the powers tend to zero, for an eigenvalue with an eigenvector among the combinations. -/
theorem eigen_of_mem {A : Matrix (Fin M) (Fin M) ℂ} {μ : ℂ} (hμ : μ ∈ spectrum ℂ A) :
    ∃ v : Fin M → ℂ, v ≠ 0 ∧ A *ᵥ v = μ • v := by
  rw [spectrum.mem_iff, Matrix.isUnit_iff_isUnit_det, isUnit_iff_ne_zero, not_not] at hμ
  obtain ⟨v, hv, h⟩ := Matrix.exists_mulVec_eq_zero_iff.mpr hμ
  refine ⟨v, hv, ?_⟩
  rw [Matrix.sub_mulVec, Matrix.algebraMap_eq_diagonal, sub_eq_zero] at h
  rw [← h]
  funext i
  simp [Matrix.mulVec_diagonal]

end QMat
