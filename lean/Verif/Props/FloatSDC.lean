import Verif.Lemmas.FloatSDC
import Verif.Props.SDC
import Verif.Lemmas.RoundingBinary

/-!
# Sweeps and steps of `solveDahlquistSDC` in rounded arithmetic
-/

namespace QMat

open Finset Spec Matrix

variable {R : Rounding} {S : SolveOps} {M : ℕ}

namespace Rounding

/-- The step update of node values near `ui X`. -/
theorem update_err (hM0 : 0 < M) {lam ui s : ℂ} {tEnd : ℝ} {n : ℕ} {w : Option (Σ k, Fin k → ℝ)} {U X : Fin M → ℂ} {r : PyResult ℂ}
    (hk : 2 * R.u < 1) (hM : ((2 * M : ℕ) : ℝ) * R.u < 1) (hs : StepUpdate (lam * (tEnd / n : ℝ)) 1 X w s) {T g : ℝ}
    (hT : ‖U - ui • X‖ ≤ T * ‖ui‖) (hg : ‖X‖ ≤ g) (h : R.SDCUpdate lam tEnd n ui U w r) :
    ∃ u, r = .ok u ∧ ‖u - s * ui‖ ≤ stepErr T (sweepErr R.u S.σ M) g (weightsSize (lam * (tEnd / n : ℝ)) w) * ‖ui‖ := by
  cases h with
  | lastNode h =>
    cases hs with
    | lastNode h' =>
      refine ⟨_, rfl, ?_⟩
      simp only [stepErr, weightsSize, Option.map_none]
      refine le_trans ?_ hT
      have := norm_le_pi_norm (U - ui • X) ⟨M - 1, by omega⟩
      simpa [mul_comm] using this
  | noNode h => omega
  | badSize h =>
    cases hs with
    | quadrature w => exact absurd rfl h
  | @quadrature w c s' q hc hs' hq =>
    cases hs with
    | quadrature =>
      refine ⟨_, rfl, ?_⟩
      have h1 := quadrature_err (ui := ui) hc hs' hq hk hM S.σ_nonneg
      obtain ⟨-, g2, -⟩ := sweepErr_ge (R := R) hk hM S.σ_nonneg
      have he0 := R.u_nonneg.trans g2
      simp only [stepErr, weightsSize, Option.map_some]
      set z := lam * (tEnd / n : ℝ) with hz
      clear_value z
      set ω := ‖z‖ * ∑ i, |w i| with hω
      have hω0 : 0 ≤ ω := mul_nonneg (norm_nonneg _) (Finset.sum_nonneg fun _ _ => abs_nonneg _)
      have hU : ‖U‖ ≤ (g + T) * ‖ui‖ := by
        have h2 := norm_add_le (U - ui • X) (ui • X)
        rw [sub_add_cancel, norm_smul] at h2
        have h3 := mul_le_mul_of_nonneg_left hg (norm_nonneg ui)
        linarith
      have h2 : ‖(ui + z * ∑ i, (w i : ℂ) * U i) - (1 + z * ∑ i, (w i : ℂ) * X i) * ui‖ ≤ ω * (T * ‖ui‖) := by
        have e : (ui + z * ∑ i, (w i : ℂ) * U i) - (1 + z * ∑ i, (w i : ℂ) * X i) * ui = z * ∑ i, (w i : ℂ) * (U - ui • X) i := by
          have e1 : ∑ i, (w i : ℂ) * (U - ui • X) i = (∑ i, (w i : ℂ) * U i) - ui * ∑ i, (w i : ℂ) * X i := by
            rw [Finset.mul_sum, ← Finset.sum_sub_distrib]
            refine Finset.sum_congr rfl fun i _ => ?_
            simp only [Pi.sub_apply, Pi.smul_apply, smul_eq_mul]
            ring
          rw [e1]; ring
        rw [e, norm_mul, hω, mul_assoc]
        refine mul_le_mul_of_nonneg_left ?_ (norm_nonneg _)
        rw [Finset.sum_mul]
        refine (norm_sum_le _ _).trans (Finset.sum_le_sum fun i _ => ?_)
        rw [norm_mul, Complex.norm_real, Real.norm_eq_abs]
        exact mul_le_mul_of_nonneg_left ((norm_le_pi_norm _ i).trans hT) (abs_nonneg _)
      have h3 := mul_le_mul_of_nonneg_left (mul_le_mul_of_nonneg_left hU hω0) he0
      calc ‖R.cfl (ui + q) - (1 + z * ∑ i, (w i : ℂ) * X i) * ui‖
          = ‖(R.cfl (ui + q) - (ui + z * ∑ i, (w i : ℂ) * U i)) +
              ((ui + z * ∑ i, (w i : ℂ) * U i) - (1 + z * ∑ i, (w i : ℂ) * X i) * ui)‖ := by congr 1; ring
        _ ≤ _ := norm_add_le _ _
        _ ≤ _ := by linarith

/-- All steps. -/
theorem steps_bound {lam u0 s : ℂ} {tEnd : ℝ} {n K : ℕ} {Q : Matrix (Fin M) (Fin M) ℝ} {f : ℕ → Matrix (Fin M) (Fin M) ℝ}
    {P : ℕ → Matrix (Fin M) (Fin M) ℂ} {w : Option (Σ k, Fin k → ℝ)} {τ : ℝ} (hτ : 0 ≤ τ)
    (H : ∀ ui r, R.SDCSweeps S lam tEnd n Q f P ui K r → ∃ U, r = .ok U ∧ ∀ r', R.SDCUpdate lam tEnd n ui U w r' →
      ∃ u, r' = .ok u ∧ ‖u - s * ui‖ ≤ τ * ‖ui‖) {i : ℕ} {r : PyResult (List ℂ)}
    (h : R.SDCSteps S lam u0 tEnd n K Q f P w i r) :
    ∃ l, r = .ok l ∧ l.length = i + 1 ∧ l[0]? = some u0 ∧ ∀ j (hj : j < l.length),
      ‖l[j] - s ^ j * u0‖ ≤ ((‖s‖ + τ) ^ j - ‖s‖ ^ j) * ‖u0‖ ∧ ‖l[j]‖ ≤ (‖s‖ + τ) ^ j * ‖u0‖ := by
  induction h with
  | start =>
    refine ⟨_, rfl, rfl, rfl, fun j hj => ?_⟩
    have : j = 0 := by simpa using hj
    subst this
    simp
  | raised h ih =>
    obtain ⟨l, hl, -⟩ := ih
    cases hl
  | raisedSweep h hs ih =>
    obtain ⟨U, hU, -⟩ := H _ _ hs
    cases hU
  | @step i l ui U r h hs hu ih =>
    obtain ⟨l', hl', hlen, h0, hb⟩ := ih
    cases hl'
    obtain ⟨U', hU', H'⟩ := H _ _ hs
    cases hU'
    obtain ⟨u, rfl, he⟩ := H' _ hu
    have hll : l.length = i := by simpa using hlen
    have e : l ++ [ui, u] = (l ++ [ui]) ++ [u] := by simp
    refine ⟨l ++ [ui, u], rfl, by simp [hll], ?_, fun j hj => ?_⟩
    · rw [e, List.getElem?_append_left (by simp)]
      exact h0
    · by_cases hj' : j < i + 1
      · have hj2 : j < (l ++ [ui]).length := by simp [hll, hj']
        have := hb j hj2
        simp only [e]
        rwa [List.getElem_append_left hj2]
      · have hji : j = i + 1 := by simp [hll] at hj; omega
        subst hji
        have h1 := hb i (by simp [hll])
        have e1 : (l ++ [ui])[i]'(by simp [hll]) = ui := by simp [← hll]
        rw [e1] at h1
        have e2 : (l ++ [ui, u])[i + 1]'hj = u := by simp [← hll]
        rw [e2, pow_succ', mul_assoc]
        exact steps_growth rfl hτ he h1.1 h1.2

end Rounding

open Rounding

theorem stepErr_nonneg {T e g : ℝ} (hT : 0 ≤ T) (he : 0 ≤ e) (hg : 0 ≤ g) (z : ℂ) (w : Option (Σ k, Fin k → ℝ)) :
    0 ≤ stepErr T e g (weightsSize z w) := by
  cases w with
  | none => exact hT
  | some w =>
    have : 0 ≤ ‖z‖ * ∑ i, |w.2 i| := mul_nonneg (norm_nonneg _) (Finset.sum_nonneg fun _ _ => abs_nonneg _)
    simp only [stepErr, weightsSize, Option.map_some]
    positivity

theorem sweepsErr_nonneg {κ ρ : ℝ} (hκ : κ < 1) (hκ0 : 0 ≤ κ) (hρ : 0 ≤ ρ) (K : ℕ) : 0 ≤ sweepsErr κ ρ K := by
  have : 0 < 1 - κ := by linarith
  unfold sweepsErr
  positivity

theorem SweepBounds.C_ge {z : ℂ} {Q : Matrix (Fin M) (Fin M) ℝ} {f : ℕ → Matrix (Fin M) (Fin M) ℝ} {K : ℕ} {N : Seminorm ℂ (Fin M → ℂ)}
    {C V p β ρ : ℝ} (hM0 : 0 < M) (hB : SweepBounds z Q f K N C V p β ρ) : 1 ≤ C := by
  haveI : Nonempty (Fin M) := ⟨⟨0, hM0⟩⟩
  have h1 := (hB.lower (fun _ => 1)).trans (hB.upper fun _ => 1)
  rw [pi_norm_const, norm_one, mul_one] at h1
  exact h1

/-- Runs near a reference: `X` solves the equations of the sweeps from one, and is near one at the start. -/
theorem run_bound (hM0 : 0 < M) {lam u0 s : ℂ} {tEnd : ℝ} {n K : ℕ} {Q : Matrix (Fin M) (Fin M) ℝ} {QD : SDCQDelta}
    {w : Option (Σ k, Fin k → ℝ)} {f : ℕ → Matrix (Fin M) (Fin M) ℝ} (hQD : SweepMatrices M K QD f) {N : Seminorm ℂ (Fin M → ℂ)}
    {C V p β ρ : ℝ} (hp : 1 ≤ p) (hβ : 0 ≤ β) (hB : SweepBounds (lam * (tEnd / n : ℝ)) Q f K N C V p β ρ)
    (hk : 2 * R.u < 1) (hM : ((2 * M : ℕ) : ℝ) * R.u < 1) (hκ : C * V * sweepErr R.u S.σ M * (p + β) < 1)
    {X : ℕ → Fin M → ℂ} (hX : ∀ k < K, (1 - (lam * (tEnd / n : ℝ)) • cmat (f k)) *ᵥ X (k + 1) =
      (fun _ => 1) + ((lam * (tEnd / n : ℝ)) • cmat (Q - f k)) *ᵥ X k) {g g' : ℝ} (hg : ∀ k ≤ K, ‖X k‖ ≤ g)
    (hg' : 1 ≤ (p + β) * g') (hs : StepUpdate (lam * (tEnd / n : ℝ)) 1 (X K) w s) {r : PyResult (List ℂ)}
    (h : R.SolveSDC S lam u0 tEnd n K Q QD w r) {κ T τ : ℝ} (hκd : κ = C * V * sweepErr R.u S.σ M * (p + β))
    (hT : T = ((ρ + κ) / (1 - κ)) ^ K * N ((fun _ => 1) - X 0) + sweepsErr κ ρ K * (g + g'))
    (hτ : τ = stepErr T (sweepErr R.u S.σ M) g (weightsSize (lam * (tEnd / n : ℝ)) w)) :
    ∃ l, r = .ok l ∧ l.length = n + 1 ∧ l[0]? = some u0 ∧ ∀ j (hj : j < l.length),
      ‖l[j] - s ^ j * u0‖ ≤ ((‖s‖ + τ) ^ j - ‖s‖ ^ j) * ‖u0‖ ∧ ‖l[j]‖ ≤ (‖s‖ + τ) ^ j * ‖u0‖ := by
  obtain ⟨-, g2, -⟩ := sweepErr_ge (R := R) hk hM S.σ_nonneg
  have he0 := R.u_nonneg.trans g2
  have hC := SweepBounds.C_ge hM0 hB
  have hκ0 : 0 ≤ κ := by
    rw [hκd]
    exact mul_nonneg (mul_nonneg (mul_nonneg (by linarith) hB.V_nonneg) he0) (by linarith)
  have hg0 : 0 ≤ g := (norm_nonneg _).trans (hg K le_rfl)
  have hg'0 : 0 ≤ g' := by
    by_contra hneg
    have := mul_nonpos_of_nonneg_of_nonpos (by linarith : (0:ℝ) ≤ p + β) (not_le.1 hneg).le
    linarith
  have hρ := hB.ρ_nonneg
  have h1κ : 0 < 1 - κ := by rw [hκd]; linarith
  have hT0 : 0 ≤ T := by
    rw [hT]
    have := sweepsErr_nonneg (by linarith) hκ0 hρ K
    have h2 := apply_nonneg N ((fun _ => 1) - X 0)
    positivity
  have hτ0 : 0 ≤ τ := hτ ▸ stepErr_nonneg hT0 he0 hg0 _ _
  cases h with
  | badQDelta hf =>
    rw [(sweepMatrices_iff _ _ _).mpr hQD] at hf
    cases hf
  | @run f' P r hf hP h =>
    rw [(sweepMatrices_iff _ _ _).mpr hQD] at hf
    cases hf
    simp only [Int.toNat_natCast] at hP h
    refine steps_bound hτ0 (fun ui r hr => ?_) h
    obtain ⟨U, hU, hN⟩ := sweeps_bound hM0 hB hP hk hM hκ (X := fun k => ui • X k) (m := g * ‖ui‖) (m' := g' * ‖ui‖) (by
        intro k hk
        rw [Matrix.mulVec_smul, hX k hk, Matrix.mulVec_smul, smul_add]
        congr 1
        funext i
        simp) (by
        intro k hk
        rw [norm_smul, mul_comm]
        exact mul_le_mul_of_nonneg_right (hg k hk) (norm_nonneg _)) (by
        intro _
        rw [← mul_assoc]
        exact le_mul_of_one_le_left (norm_nonneg _) hg') le_rfl hr
    refine ⟨U, hU, fun r' hr' => ?_⟩
    rw [hτ]
    refine update_err hM0 hk hM hs ?_ (hg K le_rfl) hr'
    refine (hB.lower _).trans (hN.trans (le_of_eq ?_))
    have e : ((fun _ => ui) - ui • X 0 : Fin M → ℂ) = ui • ((fun _ => 1) - X 0) := by
      funext i
      simp [mul_sub]
    rw [e, map_smul_eq_mul, hT, ← hκd]
    ring

/-- C96: `solveDahlquistSDC` in rounded arithmetic, whatever the order of the sums in the products, and the result of the exact computation:
the call does not raise, and the errors grow over the steps like `(|s| + τ)^i - |s|^i`, where `s` is the factor of one exact step. -/
theorem C96_solve (hM0 : 0 < M) (lam u0 : ℂ) (tEnd : ℝ) (n K : ℕ) (hn : 0 < n) (Q : Matrix (Fin M) (Fin M) ℝ) (QD : SDCQDelta)
    (w : Option (Σ k, Fin k → ℝ)) (f : ℕ → Matrix (Fin M) (Fin M) ℝ) (hQD : SweepMatrices M K QD f) (N : Seminorm ℂ (Fin M → ℂ))
    (C V p β ρ : ℝ) (hp : 1 ≤ p) (hβ : 0 ≤ β) (hB : SweepBounds (lam * (tEnd / n : ℝ)) Q f K N C V p β ρ)
    (hk : 2 * R.u < 1) (hM : ((2 * M : ℕ) : ℝ) * R.u < 1) (κ : ℝ) (hκd : κ = C * V * sweepErr R.u S.σ M * (p + β)) (hκ : κ < 1)
    (X : ℕ → Fin M → ℂ) (hX : SDCIterates (lam * (tEnd / n : ℝ)) Q f K 1 X) (g : ℝ) (hg : ∀ k ≤ K, ‖X k‖ ≤ g)
    (s : ℂ) (hs : StepUpdate (lam * (tEnd / n : ℝ)) 1 (X K) w s) (τ : ℝ)
    (hτ : τ = stepErr (sweepsErr κ ρ K * (g + 1)) (sweepErr R.u S.σ M) g (weightsSize (lam * (tEnd / n : ℝ)) w))
    (r : PyResult (List ℂ)) (h : R.SolveSDC S lam u0 tEnd n K Q QD w r) :
    ∃ l out, r = .ok l ∧ solveDahlquistSDC lam u0 tEnd n K Q QD w [] = .ok out ∧ l.length = n + 1 ∧ out.uNum.length = n + 1 ∧
      l[0]? = some u0 ∧ ∀ i (hi : i < l.length) (hi' : i < out.uNum.length),
        out.uNum[i] = s ^ i * u0 ∧ ‖l[i] - out.uNum[i]‖ ≤ ((‖s‖ + τ) ^ i - ‖s‖ ^ i) * ‖u0‖ := by
  have hdet : ∀ k < K, (1 - (lam * (tEnd / n : ℝ)) • cmat (f k)).det ≠ 0 := fun k hk => det_ne_zero_of_bounded (hB.inv k hk)
  obtain ⟨hw, hs'⟩ := stepUpdate_iff.1 hs
  have hs2 : s = sdcFactor (lam * (tEnd / n : ℝ)) Q f K w := by
    rw [hs', sdcFactor, SDCIterates.eq hdet hX K le_rfl]
  obtain ⟨l, hl, hlen, h0, hb⟩ := run_bound hM0 hQD hp hβ hB hk hM (hκd ▸ hκ) hX.sweep hg (g' := 1) (by linarith) hs h hκd rfl
    (τ := τ) (by
      rw [hτ, hX.copy, sub_self, map_zero, mul_zero, zero_add])
  have hout := solveSDC_eq lam u0 tEnd n K hn Q QD f hQD w hw [] (by intro k hk; cases hk) hdet
  refine ⟨l, _, hl, hout, hlen, by simp [sdcResult], h0, fun i hi hi' => ?_⟩
  have e : (sdcResult (sdcData lam u0 tEnd n Q f w) n K []).uNum[i] = s ^ i * u0 := by
    simp only [sdcResult, List.getElem_map, List.getElem_range, SDCData.vals, sdcData, hs2, Int.cast_natCast]
  exact ⟨e, e ▸ (hb i hi).1⟩

/-- C96: the same call and the collocation method: if the sweeps contract, then `K` sweeps reach the collocation solution up to
`((ρ + κ) / (1 - κ))^K` times the initial error and the accumulated rounding errors (bounded in `C96_limit`, whatever the number of sweeps). -/
theorem C96_collocation (hM0 : 0 < M) (lam u0 : ℂ) (tEnd : ℝ) (n K : ℕ) (Q : Matrix (Fin M) (Fin M) ℝ) (QD : SDCQDelta)
    (w : Option (Σ k, Fin k → ℝ)) (f : ℕ → Matrix (Fin M) (Fin M) ℝ) (hQD : SweepMatrices M K QD f) (N : Seminorm ℂ (Fin M → ℂ))
    (C V p β ρ : ℝ) (hp : 1 ≤ p) (hβ : 0 ≤ β) (hQ : ∀ i, 1 + ‖lam * (tEnd / n : ℝ)‖ * ∑ j, |Q i j| ≤ p + β)
    (hB : SweepBounds (lam * (tEnd / n : ℝ)) Q f K N C V p β ρ)
    (hk : 2 * R.u < 1) (hM : ((2 * M : ℕ) : ℝ) * R.u < 1) (κ : ℝ) (hκd : κ = C * V * sweepErr R.u S.σ M * (p + β)) (hκ : κ < 1)
    (v : Fin M → ℂ) (hv : IsCollocationSolution (lam * (tEnd / n : ℝ)) Q 1 v)
    (s : ℂ) (hs : StepUpdate (lam * (tEnd / n : ℝ)) 1 v w s) (τ : ℝ)
    (hτ : τ = stepErr (((ρ + κ) / (1 - κ)) ^ K * N ((fun _ => 1) - v) + sweepsErr κ ρ K * (2 * ‖v‖)) (sweepErr R.u S.σ M) ‖v‖
      (weightsSize (lam * (tEnd / n : ℝ)) w))
    (r : PyResult (List ℂ)) (h : R.SolveSDC S lam u0 tEnd n K Q QD w r) :
    ∃ l, r = .ok l ∧ l.length = n + 1 ∧ l[0]? = some u0 ∧ ∀ i (hi : i < l.length),
      ‖l[i] - s ^ i * u0‖ ≤ ((‖s‖ + τ) ^ i - ‖s‖ ^ i) * ‖u0‖ := by
  obtain ⟨l, hl, hlen, h0, hb⟩ := run_bound hM0 hQD hp hβ hB hk hM (hκd ▸ hκ) (X := fun _ => v) (g := ‖v‖) (g' := ‖v‖) (by
      intro k _
      have e : (lam * (tEnd / n : ℝ)) • cmat (Q - f k) = (lam * (tEnd / n : ℝ)) • cmat Q - (lam * (tEnd / n : ℝ)) • cmat (f k) := by
        rw [← smul_sub]
        congr 1
        ext i j
        simp [cmat]
      have h2 : v - ((lam * (tEnd / n : ℝ)) • cmat Q) *ᵥ v = fun _ => 1 := sub_eq_iff_eq_add.2 hv
      rw [e, Matrix.sub_mulVec, Matrix.sub_mulVec, Matrix.one_mulVec, ← h2]
      abel) (fun _ _ => le_rfl) (by
      have h1 := hQ ⟨0, hM0⟩
      have h2 : (1 : ℂ) = v ⟨0, hM0⟩ - lam * (tEnd / n : ℝ) * ∑ j, (Q ⟨0, hM0⟩ j : ℂ) * v j := by
        have := congrFun hv ⟨0, hM0⟩
        simp only [Pi.add_apply, Matrix.smul_mulVec, Pi.smul_apply, smul_eq_mul] at this
        rw [this]
        simp [Matrix.mulVec, dotProduct, cmat]
      have h3 : (1 : ℝ) ≤ ‖v‖ + ‖lam * (tEnd / n : ℝ)‖ * ((∑ j, |Q ⟨0, hM0⟩ j|) * ‖v‖) := by
        calc (1 : ℝ) = ‖(1 : ℂ)‖ := norm_one.symm
          _ = _ := congrArg norm h2
          _ ≤ _ := norm_sub_le _ _
          _ ≤ _ := by
            refine add_le_add (norm_le_pi_norm v _) ?_
            rw [norm_mul]
            refine mul_le_mul_of_nonneg_left ?_ (norm_nonneg _)
            rw [Finset.sum_mul]
            refine (norm_sum_le _ _).trans (Finset.sum_le_sum fun j _ => ?_)
            rw [norm_mul, Complex.norm_real, Real.norm_eq_abs]
            exact mul_le_mul_of_nonneg_left (norm_le_pi_norm v j) (abs_nonneg _)
      have h4 := mul_le_mul_of_nonneg_right h1 (norm_nonneg v)
      linarith) hs h hκd rfl (τ := τ) (by rw [hτ, two_mul])
  exact ⟨l, hl, hlen, h0, fun i hi => (hb i hi).1⟩

/-- C96: the accumulated rounding errors of contracting sweeps stay bounded, whatever the number of sweeps. -/
theorem C96_limit {κ ρ : ℝ} (hκ : 0 ≤ κ) (hρ : 0 ≤ ρ) (h : ρ + 2 * κ < 1) (K : ℕ) :
    (ρ + κ) / (1 - κ) < 1 ∧ sweepsErr κ ρ K ≤ κ / (1 - ρ - 2 * κ) := by
  have h1 : 0 < 1 - κ := by linarith
  have h2 : (ρ + κ) / (1 - κ) < 1 := by rw [div_lt_one h1]; linarith
  have h0 : 0 ≤ (ρ + κ) / (1 - κ) := div_nonneg (by linarith) h1.le
  refine ⟨h2, ?_⟩
  have h3 : ∑ j ∈ range K, ((ρ + κ) / (1 - κ)) ^ j ≤ (1 - (ρ + κ) / (1 - κ))⁻¹ := by
    rw [← tsum_geometric_of_lt_one h0 h2]
    exact (summable_geometric_of_lt_one h0 h2).sum_le_tsum _ fun _ _ => pow_nonneg h0 _
  have h4 : (1 - (ρ + κ) / (1 - κ))⁻¹ = (1 - κ) / (1 - ρ - 2 * κ) := by
    have h5 : (1:ℝ) - ρ - 2 * κ ≠ 0 := by linarith
    rw [one_sub_div h1.ne', inv_div]
    congr 1
    ring
  calc sweepsErr κ ρ K ≤ κ / (1 - κ) * ((1 - κ) / (1 - ρ - 2 * κ)) := by
        rw [← h4]
        exact mul_le_mul_of_nonneg_left h3 (div_nonneg hκ h1.le)
    _ = κ / (1 - ρ - 2 * κ) := by
        rw [div_mul_div_comm, mul_comm κ, mul_div_mul_left _ _ h1.ne']

/-- C96: a possible run exists for all arguments that pass the checks. -/
theorem C96_exists (lam u0 : ℂ) (tEnd : ℝ) (n K : ℕ) (Q : Matrix (Fin M) (Fin M) ℝ) (QD : SDCQDelta)
    (w : Option (Σ k, Fin k → ℝ)) : ∃ r, R.SolveSDC S lam u0 tEnd n K Q QD w r := by
  have hdot : ∀ {ι : Type} [Fintype ι] [DecidableEq ι] (x y : ι → ℂ), ∃ a, R.NpCDot x y a := by
    intro ι _ _ x y
    obtain ⟨a, ha⟩ := NpDot.exists (R := R) (Sum.elim (fun i => (x i).re) fun i => (x i).im) (Sum.elim (fun i => (y i).re) fun i => -(y i).im)
    obtain ⟨b, hb⟩ := NpDot.exists (R := R) (Sum.elim (fun i => (x i).re) fun i => (x i).im) (Sum.elim (fun i => (y i).im) fun i => (y i).re)
    exact ⟨⟨a, b⟩, ha, hb⟩
  have hmul : ∀ x y, ∃ a, R.NpCMul x y a := fun x y => hdot _ _
  obtain ⟨c, hc⟩ : ∃ c, R.LamDt lam tEnd n c := hmul _ _
  cases hf : sdcQDelta M K QD with
  | error e => exact ⟨_, .badQDelta hf⟩
  | ok f =>
    choose q hq using fun k i j => hmul c (f k i j : ℝ)
    set P : ℕ → Matrix (Fin M) (Fin M) ℂ := fun k i j => R.cfl ((if i = j then 1 else 0) - q k i j) with hPd
    have hP : ∀ k, R.SDCMatrix lam tEnd n (f k) (P k) := fun k => ⟨c, hc, fun i j => ⟨_, hq k i j, rfl⟩⟩
    have hsw : ∀ ui k, ∃ r, R.SDCSweeps S lam tEnd n Q f P ui k r := by
      intro ui k
      induction k with
      | zero => exact ⟨_, .start⟩
      | succ k ih =>
        obtain ⟨r, hr⟩ := ih
        cases r with
        | error e => exact ⟨_, .raised hr⟩
        | ok U =>
          choose B hBij using fun i j => hmul c (R.fl (Q i j - f k i j) : ℝ)
          choose t ht using fun i => hdot (B i) U
          exact ⟨_, .sweep (b := fun i => R.cfl (ui + t i)) hr ⟨c, hc, B, hBij, fun i => ⟨t i, ht i, rfl⟩⟩⟩
    have hst : ∀ i, ∃ r, R.SDCSteps S lam u0 tEnd n K Q f P w i r ∧ ∀ l, r = .ok l → l ≠ [] := by
      intro i
      induction i with
      | zero => exact ⟨_, .start, by rintro l ⟨⟩; simp⟩
      | succ i ih =>
        obtain ⟨r, hr, hne⟩ := ih
        cases r with
        | error e => exact ⟨_, .raised hr, by rintro l ⟨⟩⟩
        | ok l =>
          have hl := hne l rfl
          rw [← List.dropLast_append_getLast hl] at hr
          obtain ⟨r, hr'⟩ := hsw (l.getLast hl) K
          cases r with
          | error e => exact ⟨_, .raisedSweep hr hr', by rintro l ⟨⟩⟩
          | ok U =>
            have hup : ∃ r, R.SDCUpdate lam tEnd n (l.getLast hl) U w r := by
              cases w with
              | none =>
                rcases Nat.eq_zero_or_pos M with h | h
                · exact ⟨_, .noNode h⟩
                · exact ⟨_, .lastNode h⟩
              | some w =>
                obtain ⟨m, w⟩ := w
                by_cases h : m = M
                · subst h
                  obtain ⟨t, ht⟩ := hdot (fun i => (w i : ℂ)) U
                  obtain ⟨a, ha⟩ := hmul c t
                  exact ⟨_, .quadrature hc ht ha⟩
                · exact ⟨_, .badSize h⟩
            obtain ⟨r, hr2⟩ := hup
            refine ⟨_, .step hr hr' hr2, ?_⟩
            cases r with
            | error e => rintro l ⟨⟩
            | ok u =>
              rintro l ⟨⟩
              simp
    obtain ⟨r, hr, -⟩ := hst n
    exact ⟨r, .run hf (fun k _ => hP k) (by simpa using hr)⟩

/-- The maximum norm. -/
noncomputable def supNorm (M : ℕ) : Seminorm ℂ (Fin M → ℂ) := normSeminorm ℂ (Fin M → ℂ)

theorem mulVec_norm_le {A : Matrix (Fin M) (Fin M) ℝ} {z : ℂ} {a : ℝ} (ha : ∀ i, ‖z‖ * ∑ j, |A i j| ≤ a) (ha0 : 0 ≤ a) (x : Fin M → ℂ) :
    ‖(z • cmat A) *ᵥ x‖ ≤ a * ‖x‖ := by
  rw [pi_norm_le_iff_of_nonneg (by positivity)]
  intro i
  have e : ((z • cmat A) *ᵥ x) i = z * ∑ j, (A i j : ℂ) * x j := by
    simp only [Matrix.smul_mulVec, Pi.smul_apply, smul_eq_mul]
    simp [Matrix.mulVec, dotProduct, cmat]
  rw [e, norm_mul]
  refine le_trans ?_ (mul_le_mul_of_nonneg_right (ha i) (norm_nonneg x))
  rw [mul_assoc]
  refine mul_le_mul_of_nonneg_left ?_ (norm_nonneg _)
  rw [Finset.sum_mul]
  refine (norm_sum_le _ _).trans (Finset.sum_le_sum fun j _ => ?_)
  rw [norm_mul, Complex.norm_real, Real.norm_eq_abs]
  exact mul_le_mul_of_nonneg_left (norm_le_pi_norm x j) (abs_nonneg _)

/-- C96: the assumptions on the sweeps for small `λ dt`: `|λ dt| ‖QΔ‖ ≤ d < 1` and `|λ dt| ‖Q - QΔ‖ ≤ a` (maximum norms). -/
theorem C96_small (z : ℂ) (Q : Matrix (Fin M) (Fin M) ℝ) (f : ℕ → Matrix (Fin M) (Fin M) ℝ) (K : ℕ) (d a : ℝ) (hd0 : 0 ≤ d) (hd : d < 1)
    (ha0 : 0 ≤ a) (hD : ∀ k < K, ∀ i, ‖z‖ * ∑ j, |f k i j| ≤ d) (hA : ∀ k < K, ∀ i, ‖z‖ * ∑ j, |Q i j - f k i j| ≤ a) :
    SweepBounds z Q f K (supNorm M) 1 (1 / (1 - d)) (1 + d) a (a / (1 - d)) := by
  have h1 : 0 < 1 - d := by linarith
  have hinv : ∀ k < K, ∀ x, ‖x‖ ≤ 1 / (1 - d) * ‖(1 - z • cmat (f k)) *ᵥ x‖ := by
    intro k hk x
    rw [one_div, inv_mul_eq_div, le_div_iff₀ h1, Matrix.sub_mulVec, Matrix.one_mulVec]
    have h2 := mulVec_norm_le (hD k hk) hd0 x
    have h3 := norm_sub_norm_le x ((z • cmat (f k)) *ᵥ x)
    linarith
  refine ⟨by positivity, by positivity, fun k hk i => by linarith [hD k hk i], hA, hinv, fun x => le_rfl, fun x => (one_mul ‖x‖).ge, ?_⟩
  intro k hk x x' h
  change ‖x'‖ ≤ a / (1 - d) * ‖x‖
  have h2 := hinv k hk x'
  rw [h] at h2
  refine h2.trans ?_
  rw [div_mul_eq_mul_div, div_mul_eq_mul_div, one_mul]
  exact div_le_div_of_nonneg_right (mulVec_norm_le (hA k hk) ha0 x) h1.le

/-- C96: the assumptions on the sweeps for diagonal matrices with positive entries and any `λ dt` of the left half plane:
the contraction factor bounds the row sums of `|Q - QΔ| / QΔ_ii` and does not depend on `λ dt`. -/
theorem C96_diagonal (z : ℂ) (hz : z.re ≤ 0) (Q : Matrix (Fin M) (Fin M) ℝ) (d : ℕ → Fin M → ℝ) (K : ℕ) (hd : ∀ k < K, ∀ i, 0 < d k i)
    (p β ρ : ℝ) (hp : ∀ k < K, ∀ i, 1 + ‖z‖ * d k i ≤ p)
    (hβ : ∀ k < K, ∀ i, ‖z‖ * ∑ j, |Q i j - Matrix.diagonal (d k) i j| ≤ β) (hρ0 : 0 ≤ ρ)
    (hρ : ∀ k < K, ∀ i, ∑ j, |Q i j - Matrix.diagonal (d k) i j| ≤ ρ * d k i) :
    SweepBounds z Q (fun k => Matrix.diagonal (d k)) K (supNorm M) 1 1 p β ρ := by
  have e : ∀ k x i, ((1 - z • cmat (Matrix.diagonal (d k))) *ᵥ x) i = (1 - z * (d k i : ℝ)) * x i := by
    intro k x i
    rw [Matrix.sub_mulVec, Matrix.one_mulVec, Matrix.smul_mulVec]
    have : (cmat (Matrix.diagonal (d k)) *ᵥ x) i = (d k i : ℂ) * x i := by
      have h1 : cmat (Matrix.diagonal (d k)) = Matrix.diagonal fun i => (d k i : ℂ) := by
        rw [cmat, Matrix.diagonal_map (by simp)]
      rw [h1, Matrix.mulVec_diagonal]
    simp only [Pi.sub_apply, Pi.smul_apply, smul_eq_mul, this]
    ring
  have hre : ∀ k < K, ∀ i, (1 - z * (d k i : ℝ)).re = 1 + -z.re * d k i ∧ (1 - z * (d k i : ℝ)).im = -(z.im * d k i) := by
    intro k _ i
    simp [Complex.mul_re, Complex.mul_im]
    ring
  have hge : ∀ k < K, ∀ i, 1 ≤ ‖1 - z * (d k i : ℝ)‖ ∧ ‖z‖ * d k i ≤ ‖1 - z * (d k i : ℝ)‖ := by
    intro k hk i
    obtain ⟨h1, h2⟩ := hre k hk i
    have hpos := hd k hk i
    have h3 : 0 ≤ -z.re * d k i := mul_nonneg (by linarith) hpos.le
    constructor
    · refine le_trans ?_ (Complex.abs_re_le_norm _)
      rw [h1, abs_of_nonneg (by linarith)]
      linarith
    · refine (abs_le_of_sq_le_sq' ?_ (norm_nonneg _)).2
      rw [mul_pow, Complex.sq_norm, Complex.sq_norm, Complex.normSq_apply, Complex.normSq_apply, h1, h2]
      have : (z.re * z.re + z.im * z.im) * d k i ^ 2 = (-z.re * d k i) * (-z.re * d k i) + (z.im * d k i) * (z.im * d k i) := by ring
      rw [this]
      have h4 : (1 + -z.re * d k i) * (1 + -z.re * d k i) = 1 + 2 * (-z.re * d k i) + (-z.re * d k i) * (-z.re * d k i) := by ring
      rw [h4, neg_mul_neg]
      linarith
  have hrow : ∀ k i, ∑ j, |Matrix.diagonal (d k) i j| = |d k i| := by
    intro k i
    rw [Finset.sum_eq_single i]
    · simp
    · intro j _ hj
      simp [Matrix.diagonal_apply_ne' _ hj]
    · simp
  refine ⟨zero_le_one, hρ0, fun k hk i => ?_, hβ, fun k hk x => ?_, fun x => le_rfl, fun x => (one_mul ‖x‖).ge, fun k hk x x' h => ?_⟩
  · rw [hrow, abs_of_pos (hd k hk i)]
    exact hp k hk i
  · rw [one_mul, pi_norm_le_iff_of_nonneg (norm_nonneg _)]
    intro i
    refine le_trans ?_ (norm_le_pi_norm _ i)
    rw [e, norm_mul]
    exact le_mul_of_one_le_left (norm_nonneg _) (hge k hk i).1
  · change ‖x'‖ ≤ ρ * ‖x‖
    rw [pi_norm_le_iff_of_nonneg (by positivity)]
    intro i
    have h1 : (1 - z * (d k i : ℝ)) * x' i = z * ∑ j, ((Q - Matrix.diagonal (d k)) i j : ℂ) * x j := by
      rw [← e, h]
      simp only [Matrix.smul_mulVec, Pi.smul_apply, smul_eq_mul]
      simp [Matrix.mulVec, dotProduct, cmat]
    have h2 : ‖1 - z * (d k i : ℝ)‖ * ‖x' i‖ ≤ ‖z‖ * (ρ * d k i * ‖x‖) := by
      rw [← norm_mul, h1, norm_mul]
      refine mul_le_mul_of_nonneg_left (le_trans ?_ (mul_le_mul_of_nonneg_right (hρ k hk i) (norm_nonneg x))) (norm_nonneg _)
      rw [Finset.sum_mul]
      refine (norm_sum_le _ _).trans (Finset.sum_le_sum fun j _ => ?_)
      rw [norm_mul, Complex.norm_real, Real.norm_eq_abs]
      exact mul_le_mul_of_nonneg_left (norm_le_pi_norm x j) (abs_nonneg _)
    obtain ⟨h3, h4⟩ := hge k hk i
    have h5 : 0 < ‖1 - z * (d k i : ℝ)‖ := by linarith
    have h6 := mul_le_mul_of_nonneg_right h4 (mul_nonneg hρ0 (norm_nonneg x))
    refine le_of_mul_le_mul_left ?_ h5
    linarith

/-- C96: the assumptions on the sweeps for the same matrix in all sweeps, from a bound `C ρ^k` of the `k`-th powers of the iteration. -/
theorem C96_powers (z : ℂ) (Q D : Matrix (Fin M) (Fin M) ℝ) (K : ℕ) (C V p β ρ : ℝ) (hρ : 0 < ρ) (hV : 0 ≤ V)
    (hp : ∀ i, 1 + ‖z‖ * ∑ j, |D i j| ≤ p) (hβ : ∀ i, ‖z‖ * ∑ j, |Q i j - D i j| ≤ β)
    (hinv : ∀ x, ‖x‖ ≤ V * ‖(1 - z • cmat D) *ᵥ x‖)
    (hpow : ∀ x : ℕ → Fin M → ℂ, (∀ k, (1 - z • cmat D) *ᵥ x (k + 1) = (z • cmat (Q - D)) *ᵥ x k) → ∀ k, ‖x k‖ ≤ C * ρ ^ k * ‖x 0‖) :
    ∃ N, SweepBounds z Q (fun _ => D) K N C V p β ρ := by
  have hdet := det_ne_zero_of_bounded hinv
  set A := 1 - z • cmat D with hA
  set B := z • cmat (Q - D) with hB
  set G := A⁻¹ * B with hG
  have hAG : ∀ x, A *ᵥ (G *ᵥ x) = B *ᵥ x := by
    intro x
    rw [hG, Matrix.mulVec_mulVec, ← Matrix.mul_assoc, Matrix.mul_nonsing_inv _ (isUnit_iff_ne_zero.2 hdet), Matrix.one_mul]
  have hb : ∀ x k, ‖(G ^ k) *ᵥ x‖ / ρ ^ k ≤ C * ‖x‖ := by
    intro x k
    have := hpow (fun k => (G ^ k) *ᵥ x) (fun k => by rw [pow_succ', ← Matrix.mulVec_mulVec, hAG]) k
    simp only [pow_zero, Matrix.one_mulVec] at this
    rw [div_le_iff₀ (pow_pos hρ k)]
    linarith
  have hbd : ∀ x, BddAbove (Set.range fun k => ‖(G ^ k) *ᵥ x‖ / ρ ^ k) := fun x => ⟨C * ‖x‖, by rintro _ ⟨k, rfl⟩; exact hb x k⟩
  refine ⟨Seminorm.ofSMulLE (fun x => ⨆ k : ℕ, ‖(G ^ k) *ᵥ x‖ / ρ ^ k) (by simp) (fun x y => ?_) (fun c x => ?_),
    hV, hρ.le, fun _ _ => hp, fun _ _ => hβ, fun _ _ => hinv, fun x => ?_, fun x => ?_, fun k _ x x' h => ?_⟩
  · refine ciSup_le fun k => ?_
    rw [Matrix.mulVec_add]
    refine (div_le_div_of_nonneg_right (norm_add_le _ _) (pow_pos hρ k).le).trans ?_
    rw [add_div]
    exact add_le_add (le_ciSup (hbd x) k) (le_ciSup (hbd y) k)
  · refine ciSup_le fun k => ?_
    rw [Matrix.mulVec_smul, norm_smul, mul_div_assoc]
    exact mul_le_mul_of_nonneg_left (le_ciSup (hbd x) k) (norm_nonneg _)
  · have := le_ciSup (hbd x) 0
    simp only [pow_zero, Matrix.one_mulVec, div_one] at this
    exact this
  · exact ciSup_le (hb x)
  · have hx' : x' = G *ᵥ x := by
      rw [hG, ← Matrix.mulVec_mulVec, ← h, Matrix.mulVec_mulVec, Matrix.nonsing_inv_mul _ (isUnit_iff_ne_zero.2 hdet), Matrix.one_mulVec]
    change (⨆ k : ℕ, ‖(G ^ k) *ᵥ x'‖ / ρ ^ k) ≤ ρ * ⨆ k : ℕ, ‖(G ^ k) *ᵥ x‖ / ρ ^ k
    refine ciSup_le fun k => ?_
    have h1 := le_ciSup (hbd x) (k + 1)
    have e1 : ‖(G ^ k) *ᵥ x'‖ / ρ ^ k = ρ * (‖(G ^ (k + 1)) *ᵥ x‖ / ρ ^ (k + 1)) := by
      rw [hx', Matrix.mulVec_mulVec, ← pow_succ, pow_succ ρ]
      field_simp
    rw [e1]
    exact mul_le_mul_of_nonneg_left h1 hρ.le

/-- C96: the relative size of the rounding errors of a sweep in double precision. -/
theorem C96_double (hu : R.u ≤ 2⁻¹ ^ 53) (hM : M ≤ 10 ^ 6) {σ : ℝ} (hσ : 0 ≤ σ) :
    2 * R.u < 1 ∧ ((2 * M : ℕ) : ℝ) * R.u < 1 ∧ sweepErr R.u σ M ≤ 2 * σ + 4 * (M + 3) * R.u := by
  have hu0 := R.u_nonneg
  have hM' : (M : ℝ) ≤ 10 ^ 6 := by exact_mod_cast hM
  have hM0 : (0 : ℝ) ≤ M := Nat.cast_nonneg M
  generalize R.u = u at *
  have hu1 : u ≤ 1.2e-16 := hu.trans (by norm_num)
  have h2M : 2 * M * u ≤ 2.4e-10 := by nlinarith
  refine ⟨by linarith, by push_cast; linarith, ?_⟩
  have hs : √2 ≤ 1.4143 := by rw [Real.sqrt_le_left (by norm_num)]; norm_num
  have hs0 : 0 ≤ √2 := Real.sqrt_nonneg 2
  have hγ : ∀ k : ℕ, (k : ℝ) * u ≤ 2.4e-10 → 0 ≤ gamma u k ∧ gamma u k ≤ 1.0001 * (k * u) := by
    intro k hk
    have h0 : 0 ≤ (k : ℝ) * u := mul_nonneg (Nat.cast_nonneg _) hu0
    unfold gamma
    refine ⟨div_nonneg h0 (by linarith), ?_⟩
    rw [div_le_iff₀ (by linarith)]
    nlinarith
  obtain ⟨a0, a1⟩ := hγ 2 (by push_cast; linarith)
  obtain ⟨b0, b1⟩ := hγ (2 * M) (by push_cast; linarith)
  push_cast at a1 b1
  have a2 : √2 * gamma u 2 ≤ 2.83 * u := by
    have := mul_le_mul hs a1 a0 (by norm_num)
    linarith
  have b2 : √2 * gamma u (2 * M) ≤ 2.83 * (M * u) := by
    have := mul_le_mul hs b1 b0 (by norm_num)
    have h3 : 0 ≤ M * u := mul_nonneg hM0 hu0
    linarith
  have a3 : 0 ≤ √2 * gamma u 2 := mul_nonneg hs0 a0
  have b3 : 0 ≤ √2 * gamma u (2 * M) := mul_nonneg hs0 b0
  unfold sweepErr
  have c1 : (1 + √2 * gamma u 2) ^ 2 * (1 + u) ^ 2 ≤ 1 + 7.7 * u := by
    have d1 : (1 + √2 * gamma u 2) ^ 2 ≤ 1 + 5.67 * u := by
      calc (1 + √2 * gamma u 2) ^ 2 ≤ (1 + 2.83 * u) ^ 2 := pow_le_pow_left₀ (by linarith) (by linarith) 2
        _ ≤ _ := by nlinarith
    have d2 : (1 + u) ^ 2 ≤ 1 + 2.01 * u := by nlinarith
    calc _ ≤ (1 + 5.67 * u) * (1 + 2.01 * u) := mul_le_mul d1 d2 (by positivity) (by linarith)
      _ ≤ _ := by nlinarith
  have hMu0 : 0 ≤ M * u := mul_nonneg hM0 hu0
  have c2 : (1 + u) * (1 + √2 * gamma u (2 * M)) ≤ 1 + u + 2.84 * (M * u) := by
    calc _ ≤ (1 + u) * (1 + 2.83 * (M * u)) := mul_le_mul_of_nonneg_left (by linarith) (by linarith)
      _ ≤ _ := by nlinarith
  have c3 : 0 ≤ (1 + √2 * gamma u 2) ^ 2 * (1 + u) ^ 2 := by positivity
  calc _ ≤ (1 + 7.7 * u) * (1 + u + 2.84 * (M * u) + σ) - 1 := by
        have : 0 ≤ (1 + u) * (1 + √2 * gamma u (2 * M)) + σ := by positivity
        have := mul_le_mul c1 (by linarith : (1 + u) * (1 + √2 * gamma u (2 * M)) + σ ≤ 1 + u + 2.84 * (M * u) + σ) this (by linarith)
        linarith
    _ ≤ _ := by
      have e1 : u * σ ≤ 1.2e-16 * σ := mul_le_mul_of_nonneg_right hu1 hσ
      have e2 : u * (M * u) ≤ 1.2e-16 * (M * u) := mul_le_mul_of_nonneg_right hu1 hMu0
      have e3 : u * u ≤ 1.2e-16 * u := mul_le_mul_of_nonneg_right hu1 hu0
      nlinarith

/-- The exact solver. -/
noncomputable def exactSolveOps (σ : ℝ) (hσ : 0 ≤ σ) : SolveOps where
  solve A b := npSolve A b
  σ := σ
  σ_nonneg := hσ
  spec A b v hv _ := by
    have hdet := det_ne_zero_of_bounded hv
    refine ⟨A⁻¹ *ᵥ b, by simp [npSolve, hdet], ?_⟩
    rw [Matrix.mulVec_mulVec, Matrix.mul_nonsing_inv _ (isUnit_iff_ne_zero.2 hdet), Matrix.one_mulVec, sub_self, norm_zero]
    exact mul_nonneg (mul_nonneg hσ (Real.iSup_nonneg fun i => Finset.sum_nonneg fun j _ => norm_nonneg _)) (norm_nonneg _)

/-- The matrix of two RADAU-RIGHT nodes. -/
noncomputable def radau2 : Matrix (Fin 2) (Fin 2) ℝ := !![5/12, -1/12; 3/4, 1/4]

/-- Example: ten steps of one explicit (Picard) sweep with two nodes in double precision, with an error below `10^-12`. -/
theorem picard_example (R : Rounding) (hu : R.u ≤ 2⁻¹ ^ 53) (S : SolveOps) (hσ : S.σ ≤ 1e-15) (r : PyResult (List ℂ))
    (h : R.SolveSDC S (-1) 1 1 10 (1 : ℕ) radau2 (.mat 2 2 0) none r) :
    ∃ l out, r = .ok l ∧ solveDahlquistSDC (-1) 1 1 (10 : ℕ) (1 : ℕ) radau2 (.mat 2 2 0) none [] = .ok out ∧
      l.length = 11 ∧ ∀ i (hi : i < l.length) (hi' : i < out.uNum.length), ‖l[i] - out.uNum[i]‖ ≤ 1e-12 := by
  obtain ⟨h1, h2, h3⟩ := C96_double (R := R) (M := 2) (σ := S.σ) hu (by norm_num) S.σ_nonneg
  have hz : ‖(-1 : ℂ) * ((1 : ℝ) / (10 : ℕ) : ℝ)‖ = 1 / 10 := by
    rw [norm_mul, norm_neg, norm_one, Complex.norm_real]
    norm_num
  have hb := C96_small ((-1 : ℂ) * ((1 : ℝ) / (10 : ℕ) : ℝ)) radau2 (fun _ => (0 : Matrix (Fin 2) (Fin 2) ℝ)) 1 0 (1 / 10) le_rfl one_pos
    (by norm_num) (by intro k _ i; simp) (by
      intro k _ i
      rw [hz]
      fin_cases i <;> simp [radau2, Fin.sum_univ_two] <;> norm_num [abs_of_pos])
  have hu1 : R.u ≤ 1.2e-16 := hu.trans (by norm_num)
  have he : sweepErr R.u S.σ 2 ≤ 5e-15 := h3.trans (by push_cast; linarith)
  have he0 : 0 ≤ sweepErr R.u S.σ 2 := R.u_nonneg.trans (sweepErr_ge h1 h2 S.σ_nonneg).2.1
  set e := sweepErr R.u S.σ 2 with hed
  have hX : SDCIterates ((-1 : ℂ) * ((1 : ℝ) / (10 : ℕ) : ℝ)) radau2 (fun _ => (0 : Matrix (Fin 2) (Fin 2) ℝ)) 1 1
      (fun k => if k = 0 then fun _ => 1 else ![29 / 30, 9 / 10]) := by
    refine ⟨rfl, fun k hk => ?_⟩
    have : k = 0 := by omega
    subst this
    funext i
    fin_cases i <;> simp [Matrix.mulVec, dotProduct, cmat, radau2, Fin.sum_univ_two] <;> norm_num
  have hs1 : StepUpdate ((-1 : ℂ) * ((1 : ℝ) / (10 : ℕ) : ℝ)) 1 (![29 / 30, 9 / 10] : Fin 2 → ℂ) none (9 / 10) :=
    StepUpdate.lastNode (M := 2) (by norm_num)
  obtain ⟨l, out, hl, ho, hlen, -, -, hb2⟩ := C96_solve (R := R) (S := S) (M := 2) (by norm_num) (-1) 1 1 10 1 (by norm_num) radau2 (.mat 2 2 0)
    none (fun _ => 0) (.same 1 0) (supNorm 2) 1 (1 / (1 - 0)) (1 + 0) (1 / 10) (1 / 10 / (1 - 0)) (by norm_num) (by norm_num)
    hb h1 h2 (11 / 10 * e) (by rw [hed]; ring) (by linarith) _ hX 1 (by
      intro k hk
      rw [pi_norm_le_iff_of_nonneg (by norm_num)]
      intro i
      split_ifs
      · simp
      · fin_cases i <;> simp <;> norm_num) (9 / 10) hs1 _ rfl r h
  refine ⟨l, out, hl, ho, hlen, fun i hi hi' => (hb2 i hi hi').2.trans ?_⟩
  have hi11 : i ≤ 10 := by omega
  simp only [stepErr, weightsSize, Option.map_none, sweepsErr, Finset.sum_range_one, pow_zero, mul_one, norm_one]
  have hs : ‖(9 / 10 : ℂ)‖ = 9 / 10 := by
    have : (9 / 10 : ℂ) = ((9 / 10 : ℝ) : ℂ) := by push_cast; rfl
    rw [this, Complex.norm_real]; norm_num
  rw [hs]
  set τ := 11 / 10 * e / (1 - 11 / 10 * e) * (1 + 1) with hτ
  have hτ1 : τ ≤ 2e-14 := by
    have : 11 / 10 * e / (1 - 11 / 10 * e) ≤ 1e-14 := by
      rw [div_le_iff₀ (by linarith)]
      linarith
    linarith
  have hτ0 : 0 ≤ τ := by
    have : 0 ≤ 1 - 11 / 10 * e := by linarith
    positivity
  have key : ∀ j : ℕ, j ≤ 10 → (9 / 10 + τ) ^ j - (9 / 10) ^ j ≤ j * 2e-14 := by
    intro j
    induction j with
    | zero => intro _; simp
    | succ j ih =>
      intro hj
      have h4 := ih (by omega)
      have h5 : (9 / 10 + τ) ^ j ≤ 1 := pow_le_one₀ (by linarith) (by linarith)
      have h6 : 0 ≤ (9 / 10 + τ) ^ j - (9 / 10) ^ j := sub_nonneg.2 (pow_le_pow_left₀ (by norm_num) (by linarith) j)
      have h7 := mul_le_mul_of_nonneg_left h5 hτ0
      rw [pow_succ, pow_succ]
      push_cast
      linarith
  have h8 := key i hi11
  have h9 : (i : ℝ) ≤ 10 := by exact_mod_cast hi11
  linarith

/-- The assumptions of the example hold for the double precision of numpy and the exact solver, and there is such a run. -/
example : ∃ r, (binary 53 (by norm_num)).SolveSDC (exactSolveOps 1e-15 (by norm_num)) (-1) 1 1 10 (1 : ℕ) radau2 (.mat 2 2 0) none r ∧
    ∃ l out, r = .ok l ∧ solveDahlquistSDC (-1) 1 1 (10 : ℕ) (1 : ℕ) radau2 (.mat 2 2 0) none [] = .ok out ∧
      l.length = 11 ∧ ∀ i (hi : i < l.length) (hi' : i < out.uNum.length), ‖l[i] - out.uNum[i]‖ ≤ 1e-12 := by
  obtain ⟨r, hr⟩ := C96_exists (R := binary 53 (by norm_num)) (S := exactSolveOps 1e-15 (by norm_num)) (-1) 1 1 10 1 radau2 (.mat 2 2 0) none
  exact ⟨r, hr, picard_example _ (by simp [binary]) _ le_rfl r hr⟩

/-- Example: any number of Picard sweeps and the collocation method, in double precision. -/
example (K : ℕ) (R : Rounding) (hu : R.u ≤ 2⁻¹ ^ 53) (S : SolveOps) (hσ : S.σ ≤ 1e-15) (r : PyResult (List ℂ))
    (h : R.SolveSDC S (-1) 1 1 10 (K : ℕ) radau2 (.mat 2 2 0) none r) :
    ∃ κ ≤ 1e-14, ∃ l, r = .ok l ∧ l.length = 11 ∧ ∀ i (hi : i < l.length),
      ‖l[i] - (580 / 641) ^ i * 1‖ ≤ ((‖(580 / 641 : ℂ)‖ + (((1 / 10 + κ) / (1 - κ)) ^ K * ‖(fun _ => 1) - ![620 / 641, (580 / 641 : ℂ)]‖ +
        sweepsErr κ (1 / 10) K * (2 * ‖![620 / 641, (580 / 641 : ℂ)]‖))) ^ i - ‖(580 / 641 : ℂ)‖ ^ i) * ‖(1 : ℂ)‖ := by
  obtain ⟨h1, h2, h3⟩ := C96_double (R := R) (M := 2) (σ := S.σ) hu (by norm_num) S.σ_nonneg
  have hz : ‖(-1 : ℂ) * ((1 : ℝ) / (10 : ℕ) : ℝ)‖ = 1 / 10 := by
    rw [norm_mul, norm_neg, norm_one, Complex.norm_real]
    norm_num
  have hQ : ∀ i, 1 / 10 * ∑ j, |radau2 i j| ≤ 1 / 10 := by
    intro i
    fin_cases i <;> simp [radau2, Fin.sum_univ_two] <;> norm_num [abs_of_pos]
  have hb := C96_small ((-1 : ℂ) * ((1 : ℝ) / (10 : ℕ) : ℝ)) radau2 (fun _ => (0 : Matrix (Fin 2) (Fin 2) ℝ)) K 0 (1 / 10) le_rfl one_pos
    (by norm_num) (by intro k _ i; simp) (by
      intro k _ i
      rw [hz]
      simpa using hQ i)
  have hu1 : R.u ≤ 1.2e-16 := hu.trans (by norm_num)
  have he : sweepErr R.u S.σ 2 ≤ 5e-15 := h3.trans (by push_cast; linarith)
  have hv : IsCollocationSolution ((-1 : ℂ) * ((1 : ℝ) / (10 : ℕ) : ℝ)) radau2 1 ![620 / 641, (580 / 641 : ℂ)] := by
    funext i
    fin_cases i <;> simp [Matrix.mulVec, dotProduct, cmat, radau2, Fin.sum_univ_two] <;> norm_num
  have hs1 : StepUpdate ((-1 : ℂ) * ((1 : ℝ) / (10 : ℕ) : ℝ)) 1 (![620 / 641, 580 / 641] : Fin 2 → ℂ) none (580 / 641) :=
    StepUpdate.lastNode (M := 2) (by norm_num)
  obtain ⟨l, hl, hlen, -, hb2⟩ := C96_collocation (R := R) (S := S) (M := 2) (by norm_num) (-1) 1 1 10 K radau2 (.mat 2 2 0)
    none (fun _ => 0) (.same K 0) (supNorm 2) 1 (1 / (1 - 0)) (1 + 0) (1 / 10) (1 / 10 / (1 - 0)) (by norm_num) (by norm_num)
    (by intro i; rw [hz]; linarith [hQ i]) hb h1 h2 (11 / 10 * sweepErr R.u S.σ 2) (by ring) (by linarith) _ hv (580 / 641) hs1 _ rfl r h
  refine ⟨11 / 10 * sweepErr R.u S.σ 2, by linarith, l, hl, hlen, fun i hi => ?_⟩
  have := hb2 i hi
  simp only [stepErr, weightsSize, Option.map_none, sub_zero, div_one] at this
  exact this

/-- Example: a diagonal matrix, for all `λ dt` on the negative real axis. -/
example (t : ℝ) (ht : 0 ≤ t) (K : ℕ) :
    SweepBounds (-t : ℝ) radau2 (fun _ => Matrix.diagonal ![5 / 12, 1 / 2]) K (supNorm 2) 1 1 (1 + t) t 2 := by
  have hn : ‖((-t : ℝ) : ℂ)‖ = t := by rw [Complex.norm_real, norm_neg, Real.norm_of_nonneg ht]
  refine C96_diagonal _ (by simpa using ht) _ (fun _ => ![5 / 12, 1 / 2]) _ ?_ _ _ _ ?_ ?_ (by norm_num) ?_
  · intro k _ i; fin_cases i <;> norm_num
  · intro k _ i
    rw [hn]
    fin_cases i <;> simp <;> linarith
  · intro k _ i
    rw [hn]
    refine mul_le_of_le_one_right ht ?_
    fin_cases i <;> simp [radau2, Fin.sum_univ_two] <;> norm_num [abs_of_pos, abs_of_neg]
  · intro k _ i
    fin_cases i <;> simp [radau2, Fin.sum_univ_two] <;> norm_num [abs_of_pos, abs_of_neg]

/-- Example: a nilpotent iteration, with a contraction factor below its norm. -/
example (K : ℕ) : ∃ N, SweepBounds (-1) !![1 / 2, 0; 1 / 2, 1 / 2] (fun _ => Matrix.diagonal ![1 / 2, 1 / 2]) K N (10 / 3) (2 / 3) (3 / 2) (1 / 2)
    (1 / 10) := by
  refine C96_powers _ _ _ _ _ _ _ _ _ (by norm_num) (by norm_num) ?_ ?_ ?_ ?_
  · intro i; fin_cases i <;> simp [Fin.sum_univ_two] <;> norm_num
  · intro i; fin_cases i <;> simp [Fin.sum_univ_two]
  · intro x
    have e : ((1 : Matrix (Fin 2) (Fin 2) ℂ) - (-1 : ℂ) • cmat (Matrix.diagonal ![1 / 2, 1 / 2])) *ᵥ x = (3 / 2 : ℂ) • x := by
      funext i
      fin_cases i <;> simp [Matrix.mulVec, dotProduct, cmat, Fin.sum_univ_two] <;> left <;> norm_num
    rw [e, norm_smul]
    have : ‖(3 / 2 : ℂ)‖ = 3 / 2 := by
      have h : (3 / 2 : ℂ) = ((3 / 2 : ℝ) : ℂ) := by push_cast; rfl
      rw [h, Complex.norm_real]; norm_num
    rw [this]
    linarith
  · intro x hx
    have h1 : ∀ k, x (k + 1) = ![0, -(1 / 3) * x k 0] := by
      intro k
      have h2 := hx k
      funext i
      have h3 := congrFun h2 i
      fin_cases i <;> simp [Matrix.mulVec, dotProduct, cmat, Fin.sum_univ_two] at h3 ⊢
      · rcases h3 with h3 | h3
        · norm_num at h3
        · exact h3
      · linear_combination (2 / 3) * h3
    intro k
    match k with
    | 0 => simp; nlinarith [norm_nonneg (x 0)]
    | 1 =>
      rw [h1 0, pow_one, pi_norm_le_iff_of_nonneg (by positivity)]
      intro i
      fin_cases i
      · simp
      · simp only [Fin.mk_one, Matrix.cons_val_one, Matrix.cons_val_fin_one, norm_mul, norm_neg]
        have h4 := norm_le_pi_norm (x 0) 0
        have h5 : ‖(1 / 3 : ℂ)‖ = 1 / 3 := by
          have h : (1 / 3 : ℂ) = ((1 / 3 : ℝ) : ℂ) := by push_cast; rfl
          rw [h, Complex.norm_real]; norm_num
        rw [h5]
        linarith
    | k + 2 =>
      have h6 : x (k + 2) = 0 := by
        rw [h1 (k + 1), h1 k]
        funext i
        fin_cases i <;> simp
      rw [h6, norm_zero]
      positivity

end QMat
