import Verif.Props.SDCSweeps

/-!
# Sweeps in the left half-plane through the matrices `QΔ + ν (Q - QΔ)`, `|ν| ≤ 1`
-/

namespace QMat

open Spec Matrix

variable {M : ℕ}

/-- If no `QΔ + ν (Q - QΔ)` with `|ν| ≤ 1` has a non-zero eigenvalue with non-positive real part, the sweeps contract for every `z` with
non-positive real part. -/
theorem contract_of_pencil {Q A : Matrix (Fin M) (Fin M) ℝ}
    (h : ∀ ν : ℂ, ‖ν‖ ≤ 1 → ∀ l : ℂ, l.re ≤ 0 → l ≠ 0 → (l • (1 : Matrix (Fin M) (Fin M) ℂ) - (cmat A + ν • cmat (Q - A))).det ≠ 0)
    {z : ℂ} (hz : z.re ≤ 0) : SweepsContract z Q A := by
  by_cases hz0 : z = 0
  · subst hz0
    refine ⟨by simp, fun μ hμ => ?_⟩
    obtain ⟨v, hv, e⟩ := eigen_of_mem hμ
    rw [sweepMatrix, zero_smul, zero_smul, mul_zero, zero_mulVec] at e
    obtain ⟨i, hi⟩ := Function.ne_iff.1 hv
    have : μ * v i = 0 := (congrFun e i).symm
    rcases mul_eq_zero.1 this with h | h
    · rw [h, norm_zero]; exact one_pos
    · exact absurd h hi
  have hl : (z⁻¹).re ≤ 0 := by
    rw [Complex.inv_re]
    exact div_nonpos_of_nonpos_of_nonneg hz (Complex.normSq_nonneg z)
  have hd : (1 - z • cmat A).det ≠ 0 := by
    have := h 0 (by simp) z⁻¹ hl (inv_ne_zero hz0)
    rw [zero_smul, add_zero] at this
    have e : 1 - z • cmat A = z • (z⁻¹ • (1 : Matrix (Fin M) (Fin M) ℂ) - cmat A) := by
      rw [smul_sub, smul_smul, mul_inv_cancel₀ hz0, one_smul]
    rw [e, det_smul]
    exact mul_ne_zero (pow_ne_zero _ hz0) this
  refine ⟨hd, fun μ hμ => ?_⟩
  by_contra hge
  rw [not_lt] at hge
  have hμ0 : μ ≠ 0 := by rintro rfl; rw [norm_zero] at hge; linarith
  obtain ⟨v, hv, e⟩ := eigen_of_mem hμ
  have e1 : (z • cmat (Q - A)) *ᵥ v = μ • ((1 - z • cmat A) *ᵥ v) := by
    have := congrArg (fun x => (1 - z • cmat A) *ᵥ x) e
    simp only [sweepMatrix, mulVec_mulVec] at this
    rw [← mul_assoc, mul_nonsing_inv _ (isUnit_iff_ne_zero.mpr hd), one_mul, mulVec_smul] at this
    exact this
  refine h μ⁻¹ (by rw [norm_inv]; exact inv_le_one_of_one_le₀ hge) z⁻¹ hl (inv_ne_zero hz0) (exists_mulVec_eq_zero_iff.1 ⟨v, hv, ?_⟩)
  rw [sub_mulVec, one_mulVec, smul_mulVec] at e1
  rw [sub_mulVec, add_mulVec, smul_mulVec, smul_mulVec, one_mulVec]
  rw [smul_mulVec] at e1
  funext i
  have e2 := congrFun e1 i
  simp only [Pi.smul_apply, Pi.sub_apply, Pi.add_apply, Pi.zero_apply, smul_eq_mul] at e2 ⊢
  generalize (cmat (Q - A) *ᵥ v) i = a at e2 ⊢
  generalize (cmat A *ᵥ v) i = b at e2 ⊢
  field_simp
  linear_combination -e2

/-- Products of two factors in the left half-plane. -/
theorem two_factors {p q α β : ℝ} (hp : 0 ≤ p) (hq : 0 ≤ q) (hα : |α| ≤ p * q) (hβ : β ^ 2 ≤ p ^ 2 + q ^ 2) {l : ℂ} (hl : l.re ≤ 0) (hl0 : l ≠ 0) :
    ‖(α - β * l : ℂ)‖ < ‖(l - p) * (l - q)‖ := by
  obtain ⟨a, b⟩ := l
  simp only at hl
  have hβ' : |β| ≤ p + q := by
    refine abs_le_of_sq_le_sq ?_ (by linarith)
    nlinarith [mul_nonneg hp hq]
  have e1 : ‖((α:ℂ) - β * ⟨a, b⟩)‖ ^ 2 = (α - β * a) ^ 2 + (β * b) ^ 2 := by
    rw [Complex.sq_norm, Complex.normSq_apply]
    simp
    ring
  have e2 : ‖((⟨a, b⟩ : ℂ) - p) * ((⟨a, b⟩ : ℂ) - q)‖ ^ 2 = ((a - p) * (a - q)) ^ 2 + b ^ 2 * ((a - p) ^ 2 + (a - q) ^ 2) + b ^ 4 := by
    rw [norm_mul, mul_pow, Complex.sq_norm, Complex.normSq_apply, Complex.sq_norm, Complex.normSq_apply]
    simp
    ring
  refine lt_of_pow_lt_pow_left₀ 2 (norm_nonneg _) ?_
  rw [e1, e2]
  have h1 : |α - β * a| ≤ p * q + (p + q) * (-a) := by
    refine (abs_sub _ _).trans (add_le_add hα ?_)
    rw [abs_mul, abs_of_nonpos hl]
    exact mul_le_mul_of_nonneg_right hβ' (by linarith)
  have h2 : (a - p) * (a - q) = a ^ 2 + (p * q + (p + q) * (-a)) := by ring
  have h3 : (α - β * a) ^ 2 ≤ ((a - p) * (a - q)) ^ 2 := by
    rw [← sq_abs]
    exact pow_le_pow_left₀ (abs_nonneg _) (by nlinarith [sq_nonneg a]) 2
  have h4 : (β * b) ^ 2 ≤ b ^ 2 * ((a - p) ^ 2 + (a - q) ^ 2) := by
    have := mul_le_mul_of_nonneg_left hβ (sq_nonneg b)
    have h5 : b ^ 2 * (p ^ 2 + q ^ 2) ≤ b ^ 2 * ((a - p) ^ 2 + (a - q) ^ 2) := by
      refine mul_le_mul_of_nonneg_left ?_ (sq_nonneg b)
      nlinarith [mul_nonneg hp (neg_nonneg.2 hl), mul_nonneg hq (neg_nonneg.2 hl), sq_nonneg a]
    nlinarith
  by_cases hb : b = 0
  · have ha : a ≠ 0 := by
      rintro rfl
      exact hl0 (by rw [hb]; rfl)
    have h6 : (α - β * a) ^ 2 < ((a - p) * (a - q)) ^ 2 := by
      rw [← sq_abs]
      have : 0 < a ^ 2 := by positivity
      exact pow_lt_pow_left₀ (by linarith) (abs_nonneg _) (by norm_num)
    have : 0 ≤ b ^ 4 := by positivity
    linarith
  · have : 0 < b ^ 4 := by positivity
    linarith

theorem ne_of_factor {X Y ν : ℂ} (hν : ‖ν‖ ≤ 1) (h : ‖Y‖ < ‖X‖) : X - ν * Y ≠ 0 := by
  intro h0
  have h1 : ‖X‖ = ‖ν‖ * ‖Y‖ := by rw [sub_eq_zero.1 h0, norm_mul]
  have := mul_le_of_le_one_left (norm_nonneg Y) hν
  linarith

/-- A sweep at a real `z = -s` with an eigenvalue below `-1`. -/
theorem grows_of_det {Q A : Matrix (Fin 2) (Fin 2) ℝ} {s : ℝ} (h1 : 0 < (1 + s • A).det) (h2 : (1 - s • (Q - (2:ℝ) • A)).det < 0) :
    (1 - (-(s:ℂ)) • cmat A).det ≠ 0 ∧ ∃ μ ∈ spectrum ℂ (sweepMatrix (-(s:ℂ)) Q A), 1 < ‖μ‖ := by
  have hd : (1 - (-(s:ℂ)) • cmat A).det ≠ 0 := by
    have e : 1 - (-(s:ℂ)) • cmat A = cmat (1 + s • A) := by
      ext i j
      fin_cases i <;> fin_cases j <;> simp
    rw [e, show (cmat (1 + s • A)).det = ((1 + s • A).det : ℂ) from (RingHom.map_det Complex.ofRealHom _).symm]
    exact_mod_cast h1.ne'
  refine ⟨hd, ?_⟩
  set F : ℝ → ℝ := fun t => (t • (1 + s • A) + s • (Q - A)).det with hF
  have hm1 : F (-1) < 0 := by
    have e : (-1:ℝ) • (1 + s • A) + s • (Q - A) = -(1 - s • (Q - (2:ℝ) • A)) := by
      ext i j
      fin_cases i <;> fin_cases j <;> simp <;> ring
    rw [hF]
    simp only [e]
    rw [det_neg]
    simpa using h2
  obtain ⟨b, c, hbc⟩ : ∃ b c, ∀ t, F t = (1 + s • A).det * t ^ 2 + b * t + c := by
    set B := 1 + s • A
    set C := s • (Q - A)
    refine ⟨B 0 0 * C 1 1 + C 0 0 * B 1 1 - B 0 1 * C 1 0 - C 0 1 * B 1 0, C.det, fun t => ?_⟩
    simp only [hF, det_fin_two, Matrix.add_apply, Matrix.smul_apply, smul_eq_mul]
    ring
  set a := (1 + s • A).det with ha
  have hcont : Continuous F := by
    rw [show F = fun t => a * t ^ 2 + b * t + c from funext hbc]
    fun_prop
  set T := 1 + (|b| + |c|) / a with hT
  have hT1 : 1 ≤ T := by
    have : 0 ≤ (|b| + |c|) / a := by positivity
    linarith
  have hFT : 0 ≤ F (-T) := by
    rw [hbc]
    have h3 : a * T = a + |b| + |c| := by rw [hT]; field_simp; ring
    have h4 : b * T ≤ |b| * T := mul_le_mul_of_nonneg_right (le_abs_self b) (by linarith)
    have h5 : -|c| * T ≤ c := by
      have := neg_abs_le c
      nlinarith [abs_nonneg c]
    have h6 : a * T ^ 2 = (a + |b| + |c|) * T := by rw [← h3]; ring
    have h7 : 0 ≤ a * T := by positivity
    calc (0:ℝ) ≤ a * T := h7
      _ ≤ a * (-T) ^ 2 + b * (-T) + c := by rw [neg_sq, h6]; linarith
  obtain ⟨t, ht, hFt⟩ := intermediate_value_Icc' (show -T ≤ -1 by linarith) hcont.continuousOn ⟨hm1.le, hFT⟩
  have ht1 : t < -1 := lt_of_le_of_ne ht.2 fun h => by rw [h] at hFt; linarith
  refine ⟨t, ?_, by rw [Complex.norm_real, Real.norm_eq_abs, abs_of_neg (by linarith)]; linarith⟩
  have hdet : (cmat (t • (1 + s • A) + s • (Q - A))).det = 0 := by
    rw [show (cmat (t • (1 + s • A) + s • (Q - A))).det = ((t • (1 + s • A) + s • (Q - A)).det : ℂ) from (RingHom.map_det Complex.ofRealHom _).symm]
    exact_mod_cast hFt
  obtain ⟨v, hv, e⟩ := exists_mulVec_eq_zero_iff.2 hdet
  refine mem_spectrum_of_eigen hv ?_
  have e1 : cmat (t • (1 + s • A) + s • (Q - A)) = (t:ℂ) • (1 - (-(s:ℂ)) • cmat A) - (-(s:ℂ)) • cmat (Q - A) := by
    ext i j
    fin_cases i <;> fin_cases j <;> simp
  rw [e1, sub_mulVec, sub_eq_zero, smul_mulVec] at e
  rw [sweepMatrix, ← mulVec_mulVec, ← e, mulVec_smul, mulVec_mulVec, nonsing_inv_mul _ (isUnit_iff_ne_zero.mpr hd), one_mulVec]

end QMat
