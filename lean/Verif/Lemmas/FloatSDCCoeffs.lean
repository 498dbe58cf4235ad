import Verif.Spec.FloatSDCCoeffs
import Verif.Props.FloatSDC

/-!
# Sweeps with computed coefficients in rounded arithmetic
-/

namespace QMat

open Finset Spec Matrix

variable {R : Rounding} {S : SolveOps} {M : ℕ}

namespace Rounding

theorem sweeps_bound_coeffs (hM0 : 0 < M) {lam ui : ℂ} {tEnd : ℝ} {n : ℕ} {Q Q' : Matrix (Fin M) (Fin M) ℝ}
    {f f' : ℕ → Matrix (Fin M) (Fin M) ℝ} {P : ℕ → Matrix (Fin M) (Fin M) ℂ} {K : ℕ} {N : Seminorm ℂ (Fin M → ℂ)} {C V p β ρ δ : ℝ}
    (hB : SweepBounds (lam * (tEnd / n : ℝ)) Q f K N C V p β ρ) (hQ' : ∀ i, ∑ j, |Q' i j - Q i j| ≤ δ)
    (hf' : ∀ k < K, ∀ i, ∑ j, |f' k i j - f k i j| ≤ δ)
    (hP : ∀ k < K, R.SDCMatrix lam tEnd n (f' k) (P k)) (hk : 2 * R.u < 1) (hM : ((2 * M : ℕ) : ℝ) * R.u < 1) {κ : ℝ}
    (hκd : κ = coeffSweepErr (sweepErr R.u S.σ M) C V p β ‖lam * (tEnd / n : ℝ)‖ δ) (hκ : κ < 1)
    {X : ℕ → Fin M → ℂ} (hX : ∀ k < K, (1 - (lam * (tEnd / n : ℝ)) • cmat (f k)) *ᵥ X (k + 1) =
      (fun _ => ui) + ((lam * (tEnd / n : ℝ)) • cmat (Q - f k)) *ᵥ X k) {m m' : ℝ} (hm : ∀ k ≤ K, ‖X k‖ ≤ m) (hm0 : 0 ≤ m')
    (hm' : 0 < K → ‖ui‖ ≤ (p + β) * m')
    {k : ℕ} {r : PyResult (Fin M → ℂ)} (hkK : k ≤ K) (h : R.SDCSweeps S lam tEnd n Q' f' P ui k r) :
    ∃ U, r = .ok U ∧ N (U - X k) ≤
      ((ρ + κ) / (1 - κ)) ^ k * N ((fun _ => ui) - X 0) + sweepsErr κ ρ k * (m + m') := by
  have : Nonempty (Fin M) := ⟨⟨0, hM0⟩⟩
  set e := sweepErr R.u S.σ M with he
  set z := lam * (tEnd / n : ℝ) with hz
  obtain ⟨g1, g2, -⟩ := sweepErr_ge (R := R) hk hM S.σ_nonneg
  have he0 : 0 ≤ e := R.u_nonneg.trans g2
  have hC : 1 ≤ C := SweepBounds.C_ge hM0 hB
  have hδ0 : 0 ≤ δ := (Finset.sum_nonneg fun _ _ => abs_nonneg _).trans (hQ' ⟨0, hM0⟩)
  set d := ‖z‖ * δ with hd
  have hd0 : 0 ≤ d := mul_nonneg (norm_nonneg _) hδ0
  induction h with
  | start => exact ⟨_, rfl, by simp [sweepsErr]⟩
  | raised h ih =>
    obtain ⟨U, hU, -⟩ := ih (by omega)
    cases hU
  | @sweep k U b h hb ih =>
    obtain ⟨U', hU', hN⟩ := ih (by omega)
    cases hU'
    have hk1 : k < K := by omega
    have hp0 : 1 ≤ p := by
      have := hB.diag k hk1 ⟨0, hM0⟩
      have : 0 ≤ ‖z‖ * ∑ j, |f k ⟨0, hM0⟩ j| := mul_nonneg (norm_nonneg _) (Finset.sum_nonneg fun _ _ => abs_nonneg _)
      linarith
    have hβ0 : 0 ≤ β := le_trans (mul_nonneg (norm_nonneg _) (Finset.sum_nonneg fun _ _ => abs_nonneg _)) (hB.rest k hk1 ⟨0, hM0⟩)
    have hV0 := hB.V_nonneg
    have hκ' : V * (e * (p + β + 3 * d) + 3 * d) ≤ κ := by
      rw [hκd, coeffSweepErr, mul_assoc]
      exact le_mul_of_one_le_left (by positivity) hC
    have hVd : 0 ≤ V * d := mul_nonneg hV0 hd0
    have hVe : 0 ≤ V * (e * (p + β + 3 * d)) := by positivity
    have hVd1 : V * d < 1 := by linarith
    -- the computed matrices
    have hrow : ∀ i, ‖z‖ * ∑ j, |(f' k - f k) i j| ≤ d := fun i => mul_le_mul_of_nonneg_left (hf' k hk1 i) (norm_nonneg _)
    have hrowQ : ∀ i, ‖z‖ * ∑ j, |((Q' - f' k) - (Q - f k)) i j| ≤ 2 * d := fun i => by
      have h1 : ∑ j, |((Q' - f' k) - (Q - f k)) i j| ≤ ∑ j, (|Q' i j - Q i j| + |f' k i j - f k i j|) := by
        refine Finset.sum_le_sum fun j _ => ?_
        have := abs_sub (Q' i j - Q i j) (f' k i j - f k i j)
        simp only [Matrix.sub_apply]
        rwa [sub_sub_sub_comm]
      rw [Finset.sum_add_distrib] at h1
      have h2 := mul_le_mul_of_nonneg_left (h1.trans (add_le_add (hQ' i) (hf' k hk1 i))) (norm_nonneg z)
      linarith
    have hdiff : ∀ x, (1 - z • cmat (f k)) *ᵥ x = (1 - z • cmat (f' k)) *ᵥ x + (z • cmat (f' k - f k)) *ᵥ x := fun x => by
      rw [← Matrix.add_mulVec]
      congr 1
      have : cmat (f' k - f k) = cmat (f' k) - cmat (f k) := by ext i j; simp [cmat]
      rw [this, smul_sub]
      abel
    have hdiffQ : ∀ x, (z • cmat (Q - f k)) *ᵥ x = (z • cmat (Q' - f' k)) *ᵥ x - (z • cmat ((Q' - f' k) - (Q - f k))) *ᵥ x := fun x => by
      rw [← Matrix.sub_mulVec]
      congr 1
      have : cmat ((Q' - f' k) - (Q - f k)) = cmat (Q' - f' k) - cmat (Q - f k) := by ext i j; simp [cmat]
      rw [this, smul_sub]
      abel
    have hp' : ∀ i, 1 + ‖z‖ * ∑ j, |f' k i j| ≤ p + d := fun i => by
      have h1 : ∑ j, |f' k i j| ≤ ∑ j, (|f k i j| + |f' k i j - f k i j|) := Finset.sum_le_sum fun j _ => by
        have := abs_add_le (f k i j) (f' k i j - f k i j)
        rwa [add_sub_cancel] at this
      rw [Finset.sum_add_distrib] at h1
      have h2 := mul_le_mul_of_nonneg_left (h1.trans (add_le_add le_rfl (hf' k hk1 i))) (norm_nonneg z)
      have h3 := hB.diag k hk1 i
      linarith
    have hβ' : ∀ i, ‖z‖ * ∑ j, |Q' i j - f' k i j| ≤ β + 2 * d := fun i => by
      have h1 : ∑ j, |Q' i j - f' k i j| ≤ ∑ j, (|Q i j - f k i j| + |((Q' - f' k) - (Q - f k)) i j|) := Finset.sum_le_sum fun j _ => by
        have := abs_add_le (Q i j - f k i j) (((Q' - f' k) - (Q - f k)) i j)
        rw [Matrix.sub_apply, Matrix.sub_apply, Matrix.sub_apply, add_sub_cancel] at this
        simpa only [Matrix.sub_apply] using this
      rw [Finset.sum_add_distrib] at h1
      have h2 := mul_le_mul_of_nonneg_left h1 (norm_nonneg z)
      have h3 := hB.rest k hk1 i
      have h4 := hrowQ i
      linarith
    have hV' : ∀ x, ‖x‖ ≤ V / (1 - V * d) * ‖(1 - z • cmat (f' k)) *ᵥ x‖ := fun x => by
      rw [div_mul_eq_mul_div, le_div_iff₀ (by linarith)]
      have h1 := hB.inv k hk1 x
      rw [hdiff] at h1
      have h2 := norm_add_le ((1 - z • cmat (f' k)) *ᵥ x) ((z • cmat (f' k - f k)) *ᵥ x)
      have h3 := mulVec_norm_le hrow hd0 x
      have h4 := mul_le_mul_of_nonneg_left (h2.trans (add_le_add le_rfl h3)) hV0
      linarith
    have hsmall : V / (1 - V * d) * (p + d) * (entryErr R.u + S.σ * (1 + entryErr R.u)) < 1 := by
      rw [div_mul_eq_mul_div, div_mul_eq_mul_div, div_lt_one (by linarith)]
      have h1 : V * (p + d) * (entryErr R.u + S.σ * (1 + entryErr R.u)) ≤ V * (p + d) * e :=
        mul_le_mul_of_nonneg_left g1 (mul_nonneg hV0 (by linarith))
      have h2 : V * e * (p + d) ≤ V * e * (p + β + 3 * d) := mul_le_mul_of_nonneg_left (by linarith) (mul_nonneg hV0 he0)
      linarith
    obtain ⟨U', hs, hres⟩ := sweep_residual hM0 (hP k hk1) hb hk hM (div_nonneg hV0 (by linarith)) hp' hβ' hV' hsmall
    refine ⟨U', hs, ?_⟩
    set A := 1 - z • cmat (f k) with hA
    set B := z • cmat (Q - f k) with hBd
    have hdet := det_ne_zero_of_bounded (hB.inv k hk1)
    set r := A *ᵥ U' - ((fun _ => ui) + B *ᵥ U) with hr
    set y := A⁻¹ *ᵥ (B *ᵥ (U - X k)) with hy
    have hAy : A *ᵥ y = B *ᵥ (U - X k) := by
      rw [hy, Matrix.mulVec_mulVec, Matrix.mul_nonsing_inv _ (isUnit_iff_ne_zero.2 hdet), Matrix.one_mulVec]
    have hAr : A *ᵥ (U' - X (k + 1) - y) = r := by
      rw [Matrix.mulVec_sub, Matrix.mulVec_sub, hAy, hX k hk1, Matrix.mulVec_sub, hr]
      abel
    have h1 := hB.contract k hk1 _ _ hAy
    have h2 : N (U' - X (k + 1) - y) ≤ C * (V * ‖r‖) := by
      refine (hB.upper _).trans (mul_le_mul_of_nonneg_left ?_ (by linarith))
      have := hB.inv k hk1 (U' - X (k + 1) - y)
      rwa [hAr] at this
    have h3 : N (U' - X (k + 1)) ≤ ρ * N (U - X k) + C * (V * ‖r‖) := by
      have := map_add_le_add N y (U' - X (k + 1) - y)
      rw [add_sub_cancel] at this
      linarith
    have n1 : ‖U'‖ ≤ m + N (U' - X (k + 1)) := by
      have := norm_add_le (X (k + 1)) (U' - X (k + 1))
      rw [add_sub_cancel] at this
      linarith [hB.lower (U' - X (k + 1)), hm (k + 1) hkK]
    have n2 : ‖U‖ ≤ m + N (U - X k) := by
      have := norm_add_le (X k) (U - X k)
      rw [add_sub_cancel] at this
      linarith [hB.lower (U - X k), hm k hk1.le]
    have n3 := hm' (by omega)
    have a0 : 0 ≤ N (U' - X (k + 1)) := apply_nonneg N _
    have b0 : 0 ≤ N (U - X k) := apply_nonneg N _
    set a := N (U - X k) with had
    set b' := N (U' - X (k + 1)) with hbd
    have hr1 : ‖r‖ ≤ e * ((p + d) * ‖U'‖ + (β + 2 * d) * ‖U‖ + ‖ui‖) + (d * ‖U'‖ + 2 * d * ‖U‖) := by
      have e1 : r = ((1 - z • cmat (f' k)) *ᵥ U' - ((fun _ => ui) + (z • cmat (Q' - f' k)) *ᵥ U)) +
          ((z • cmat (f' k - f k)) *ᵥ U' + (z • cmat ((Q' - f' k) - (Q - f k))) *ᵥ U) := by
        rw [hr, hA, hBd, hdiff, hdiffQ]
        abel
      rw [e1]
      refine (norm_add_le _ _).trans (add_le_add hres ((norm_add_le _ _).trans (add_le_add ?_ ?_)))
      · exact mulVec_norm_le hrow hd0 U'
      · exact mulVec_norm_le hrowQ (by linarith) U
    have hr2 : ‖r‖ ≤ (e * (p + β + 3 * d) + 3 * d) * (m + m' + a + b') := by
      refine hr1.trans ?_
      have s0 : 0 ≤ m + a := (norm_nonneg U).trans n2
      have t1 : (p + d) * ‖U'‖ + (β + 2 * d) * ‖U‖ + ‖ui‖ ≤ (p + β + 3 * d) * (m + m' + a + b') := by
        have k1 := mul_le_mul_of_nonneg_left n1 (by linarith : (0:ℝ) ≤ p + d)
        have k2 := mul_le_mul_of_nonneg_left n2 (by linarith : (0:ℝ) ≤ β + 2 * d)
        have k3 := mul_nonneg (by linarith : (0:ℝ) ≤ p + d) b0
        have k3' := mul_nonneg (by linarith : (0:ℝ) ≤ p + d) a0
        have k4 := mul_nonneg (by linarith : (0:ℝ) ≤ β + 2 * d) a0
        have k5 := mul_nonneg (mul_nonneg (by norm_num : (0:ℝ) ≤ 3) hd0) hm0
        linarith
      have t2 : d * ‖U'‖ + 2 * d * ‖U‖ ≤ 3 * d * (m + m' + a + b') := by
        have k1 := mul_le_mul_of_nonneg_left n1 hd0
        have k2 := mul_le_mul_of_nonneg_left n2 hd0
        have k3 := mul_nonneg hd0 a0
        have k4 := mul_nonneg hd0 b0
        have k5 := mul_nonneg hd0 hm0
        linarith
      have t3 := mul_le_mul_of_nonneg_left t1 he0
      linarith
    have h4 : b' ≤ ρ * a + κ * (m + m' + a + b') := by
      have := mul_le_mul_of_nonneg_left (mul_le_mul_of_nonneg_left hr2 hV0) (by linarith : (0:ℝ) ≤ C)
      have e1 : C * (V * ((e * (p + β + 3 * d) + 3 * d) * (m + m' + a + b'))) = κ * (m + m' + a + b') := by
        rw [hκd, coeffSweepErr, hd]; ring
      linarith
    have h5 := recursion_step hκ h4
    have hκ0 : 0 ≤ κ := le_trans (by positivity) hκ'
    have hq : 0 ≤ (ρ + κ) / (1 - κ) := div_nonneg (add_nonneg hB.ρ_nonneg hκ0) (by linarith)
    have h6 := mul_le_mul_of_nonneg_left hN hq
    have e2 : sweepsErr κ ρ (k + 1) = (ρ + κ) / (1 - κ) * sweepsErr κ ρ k + κ / (1 - κ) := by
      simp only [sweepsErr, Finset.sum_range_succ', pow_zero, pow_succ, ← Finset.sum_mul]
      ring
    rw [e2, pow_succ]
    linarith

/-- The step update with computed weights. -/
theorem update_err_coeffs (hM0 : 0 < M) {lam ui s : ℂ} {tEnd : ℝ} {n : ℕ} {w w' : Option (Σ k, Fin k → ℝ)} {U X : Fin M → ℂ} {r : PyResult ℂ}
    (hk : 2 * R.u < 1) (hM : ((2 * M : ℕ) : ℝ) * R.u < 1) (hs : StepUpdate (lam * (tEnd / n : ℝ)) 1 X w s) {T g δ : ℝ} (hT0 : 0 ≤ T)
    (hw : WeightsNear δ w w') (hT : ‖U - ui • X‖ ≤ T * ‖ui‖) (hg : ‖X‖ ≤ g) (h : R.SDCUpdate lam tEnd n ui U w' r) :
    ∃ u, r = .ok u ∧ ‖u - s * ui‖ ≤ coeffStepErr T (sweepErr R.u S.σ M) g (‖lam * (tEnd / n : ℝ)‖ * δ)
      (weightsSize (lam * (tEnd / n : ℝ)) w) * ‖ui‖ := by
  cases hw with
  | lastNode =>
    obtain ⟨u, hu, h1⟩ := update_err (S := S) hM0 hk hM hs hT hg h
    exact ⟨u, hu, h1⟩
  | @quadrature k w w' hw =>
    cases hs with
    | quadrature w =>
      obtain ⟨u, hu, h1⟩ := update_err (S := S) hM0 hk hM (.quadrature w') hT hg h
      refine ⟨u, hu, ?_⟩
      obtain ⟨-, g2, -⟩ := sweepErr_ge (R := R) hk hM S.σ_nonneg
      have he0 := R.u_nonneg.trans g2
      have hg0 : 0 ≤ g := (norm_nonneg _).trans hg
      simp only [stepErr, coeffStepErr, weightsSize, Option.map_some] at h1 ⊢
      set e := sweepErr R.u S.σ M with he
      set z := lam * (tEnd / n : ℝ) with hz
      clear_value z
      have hω : ‖z‖ * ∑ i, |w' i| ≤ ‖z‖ * ∑ i, |w i| + ‖z‖ * δ := by
        rw [← mul_add]
        refine mul_le_mul_of_nonneg_left ?_ (norm_nonneg _)
        have h1 : ∑ j, |w' j| ≤ ∑ j, (|w j| + |w' j - w j|) := Finset.sum_le_sum fun j _ => by
          have := abs_add_le (w j) (w' j - w j)
          rwa [add_sub_cancel] at this
        rw [Finset.sum_add_distrib] at h1
        linarith
      have h2 : ‖(1 + z * ∑ i, (w' i : ℂ) * X i) - (1 + z * ∑ i, (w i : ℂ) * X i)‖ ≤ ‖z‖ * δ * g := by
        rw [add_sub_add_left_eq_sub, ← mul_sub, ← Finset.sum_sub_distrib, norm_mul, mul_assoc]
        refine mul_le_mul_of_nonneg_left ?_ (norm_nonneg _)
        refine le_trans ?_ (mul_le_mul_of_nonneg_right hw hg0)
        rw [Finset.sum_mul]
        refine (norm_sum_le _ _).trans (Finset.sum_le_sum fun i _ => ?_)
        rw [← sub_mul, norm_mul, ← Complex.ofReal_sub, Complex.norm_real, Real.norm_eq_abs]
        exact mul_le_mul_of_nonneg_left ((norm_le_pi_norm X i).trans hg) (abs_nonneg _)
      have h3 := mul_le_mul_of_nonneg_right h2 (norm_nonneg ui)
      rw [← norm_mul] at h3
      have h4 : (‖z‖ * ∑ i, |w' i|) * T + e * (1 + (‖z‖ * ∑ i, |w' i|) * (g + T)) ≤
          (‖z‖ * ∑ i, |w i| + ‖z‖ * δ) * T + e * (1 + (‖z‖ * ∑ i, |w i| + ‖z‖ * δ) * (g + T)) := by gcongr
      have h5 := mul_le_mul_of_nonneg_right h4 (norm_nonneg ui)
      calc ‖u - (1 + z * ∑ i, (w i : ℂ) * X i) * ui‖
          = ‖(u - (1 + z * ∑ i, (w' i : ℂ) * X i) * ui) +
              ((1 + z * ∑ i, (w' i : ℂ) * X i) - (1 + z * ∑ i, (w i : ℂ) * X i)) * ui‖ := by congr 1; ring
        _ ≤ _ := norm_add_le _ _
        _ ≤ _ := by linarith

end Rounding

open Rounding

theorem coeffStepErr_nonneg {T e g d : ℝ} (hT : 0 ≤ T) (he : 0 ≤ e) (hg : 0 ≤ g) (hd : 0 ≤ d) (z : ℂ) (w : Option (Σ k, Fin k → ℝ)) :
    0 ≤ coeffStepErr T e g d (weightsSize z w) := by
  cases w with
  | none => exact hT
  | some w =>
    have : 0 ≤ ‖z‖ * ∑ i, |w.2 i| := mul_nonneg (norm_nonneg _) (Finset.sum_nonneg fun _ _ => abs_nonneg _)
    simp only [coeffStepErr, stepErr, weightsSize, Option.map_some]
    positivity

theorem coeffSweepErr_nonneg {e C V p β y δ : ℝ} (he : 0 ≤ e) (hC : 0 ≤ C) (hV : 0 ≤ V) (hp : 0 ≤ p) (hβ : 0 ≤ β) (hy : 0 ≤ y) (hδ : 0 ≤ δ) :
    0 ≤ coeffSweepErr e C V p β y δ := by
  unfold coeffSweepErr
  positivity

/-- Runs with computed coefficients near a reference, as `run_bound`. -/
theorem run_bound_coeffs (hM0 : 0 < M) {lam u0 s : ℂ} {tEnd : ℝ} {n K : ℕ} {Q Q' : Matrix (Fin M) (Fin M) ℝ} {QD' : SDCQDelta}
    {w w' : Option (Σ k, Fin k → ℝ)} {f f' : ℕ → Matrix (Fin M) (Fin M) ℝ} (hQD : SweepMatrices M K QD' f') {N : Seminorm ℂ (Fin M → ℂ)}
    {C V p β ρ δ : ℝ} (hp : 1 ≤ p) (hβ : 0 ≤ β) (hB : SweepBounds (lam * (tEnd / n : ℝ)) Q f K N C V p β ρ)
    (hQ' : ∀ i, ∑ j, |Q' i j - Q i j| ≤ δ) (hf' : ∀ k < K, ∀ i, ∑ j, |f' k i j - f k i j| ≤ δ) (hw : WeightsNear δ w w')
    (hk : 2 * R.u < 1) (hM : ((2 * M : ℕ) : ℝ) * R.u < 1) {κ : ℝ}
    (hκd : κ = coeffSweepErr (sweepErr R.u S.σ M) C V p β ‖lam * (tEnd / n : ℝ)‖ δ) (hκ : κ < 1)
    {X : ℕ → Fin M → ℂ} (hX : ∀ k < K, (1 - (lam * (tEnd / n : ℝ)) • cmat (f k)) *ᵥ X (k + 1) =
      (fun _ => 1) + ((lam * (tEnd / n : ℝ)) • cmat (Q - f k)) *ᵥ X k) {g g' : ℝ} (hg : ∀ k ≤ K, ‖X k‖ ≤ g)
    (hg' : 1 ≤ (p + β) * g') (hs : StepUpdate (lam * (tEnd / n : ℝ)) 1 (X K) w s) {r : PyResult (List ℂ)}
    (h : R.SolveSDC S lam u0 tEnd n K Q' QD' w' r) {T τ : ℝ}
    (hT : T = ((ρ + κ) / (1 - κ)) ^ K * N ((fun _ => 1) - X 0) + sweepsErr κ ρ K * (g + g'))
    (hτ : τ = coeffStepErr T (sweepErr R.u S.σ M) g (‖lam * (tEnd / n : ℝ)‖ * δ) (weightsSize (lam * (tEnd / n : ℝ)) w)) :
    0 ≤ τ ∧ ∃ l, r = .ok l ∧ l.length = n + 1 ∧ l[0]? = some u0 ∧ ∀ j (hj : j < l.length),
      ‖l[j] - s ^ j * u0‖ ≤ ((‖s‖ + τ) ^ j - ‖s‖ ^ j) * ‖u0‖ ∧ ‖l[j]‖ ≤ (‖s‖ + τ) ^ j * ‖u0‖ := by
  obtain ⟨-, g2, -⟩ := sweepErr_ge (R := R) hk hM S.σ_nonneg
  have he0 := R.u_nonneg.trans g2
  have hC := SweepBounds.C_ge hM0 hB
  have hδ0 : 0 ≤ δ := (Finset.sum_nonneg fun _ _ => abs_nonneg _).trans (hQ' ⟨0, hM0⟩)
  have hκ0 : 0 ≤ κ := by
    rw [hκd]
    exact coeffSweepErr_nonneg he0 (by linarith) hB.V_nonneg (by linarith) hβ (norm_nonneg _) hδ0
  have hg0 : 0 ≤ g := (norm_nonneg _).trans (hg K le_rfl)
  have hg'0 : 0 ≤ g' := by
    by_contra hneg
    have := mul_nonpos_of_nonneg_of_nonpos (by linarith : (0:ℝ) ≤ p + β) (not_le.1 hneg).le
    linarith
  have hρ := hB.ρ_nonneg
  have h1κ : 0 < 1 - κ := by linarith
  have hT0 : 0 ≤ T := by
    rw [hT]
    have := sweepsErr_nonneg (by linarith) hκ0 hρ K
    have h2 := apply_nonneg N ((fun _ => 1) - X 0)
    positivity
  have hτ0 : 0 ≤ τ := hτ ▸ coeffStepErr_nonneg hT0 he0 hg0 (mul_nonneg (norm_nonneg _) hδ0) _ _
  refine ⟨hτ0, ?_⟩
  cases h with
  | badQDelta hf =>
    rw [(sweepMatrices_iff _ _ _).mpr hQD] at hf
    cases hf
  | @run f'' P r hf hP h =>
    rw [(sweepMatrices_iff _ _ _).mpr hQD] at hf
    cases hf
    simp only [Int.toNat_natCast] at hP h
    refine steps_bound hτ0 (fun ui r hr => ?_) h
    obtain ⟨U, hU, hN⟩ := sweeps_bound_coeffs hM0 hB hQ' hf' hP hk hM hκd hκ (X := fun k => ui • X k) (m := g * ‖ui‖) (m' := g' * ‖ui‖) (by
        intro k hk
        rw [Matrix.mulVec_smul, hX k hk, Matrix.mulVec_smul, smul_add]
        congr 1
        funext i
        simp) (by
        intro k hk
        rw [norm_smul, mul_comm]
        exact mul_le_mul_of_nonneg_right (hg k hk) (norm_nonneg _)) (mul_nonneg hg'0 (norm_nonneg _)) (by
        intro _
        rw [← mul_assoc]
        exact le_mul_of_one_le_left (norm_nonneg _) hg') le_rfl hr
    refine ⟨U, hU, fun r' hr' => ?_⟩
    rw [hτ]
    refine update_err_coeffs hM0 hk hM hs hT0 hw ?_ (hg K le_rfl) hr'
    refine (hB.lower _).trans (hN.trans (le_of_eq ?_))
    have e : ((fun _ => ui) - ui • X 0 : Fin M → ℂ) = ui • ((fun _ => 1) - X 0) := by
      funext i
      simp [mul_sub]
    rw [e, map_smul_eq_mul, hT]
    ring

end QMat
