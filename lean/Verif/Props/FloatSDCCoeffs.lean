import Verif.Lemmas.FloatSDCCoeffs
import Verif.Props.FloatQDelta
import Verif.Props.FloatDahlquist

/-!
# C101: SDC in rounded arithmetic, with coefficients computed in rounded arithmetic
-/

namespace QMat

open Finset Spec Matrix Rounding

variable {R : Rounding} {S : SolveOps} {M : ℕ}

/-- C101: `solveDahlquistSDC` in rounded arithmetic with computed coefficients, whose rows and weights are wrong by at most `δ`, and the result of
the exact computation with the exact coefficients. -/
theorem C101_solve (hM0 : 0 < M) (lam u0 : ℂ) (tEnd : ℝ) (n K : ℕ) (hn : 0 < n) (Q Q' : Matrix (Fin M) (Fin M) ℝ) (QD QD' : SDCQDelta)
    (w w' : Option (Σ k, Fin k → ℝ)) (f f' : ℕ → Matrix (Fin M) (Fin M) ℝ) (hQD : SweepMatrices M K QD f) (hQD' : SweepMatrices M K QD' f')
    (N : Seminorm ℂ (Fin M → ℂ)) (C V p β ρ δ : ℝ) (hp : 1 ≤ p) (hβ : 0 ≤ β) (hB : SweepBounds (lam * (tEnd / n : ℝ)) Q f K N C V p β ρ)
    (hQ' : ∀ i, ∑ j, |Q' i j - Q i j| ≤ δ) (hf' : ∀ k < K, ∀ i, ∑ j, |f' k i j - f k i j| ≤ δ) (hw : WeightsNear δ w w')
    (hk : 2 * R.u < 1) (hM : ((2 * M : ℕ) : ℝ) * R.u < 1) (κ : ℝ)
    (hκd : κ = coeffSweepErr (sweepErr R.u S.σ M) C V p β ‖lam * (tEnd / n : ℝ)‖ δ) (hκ : κ < 1)
    (X : ℕ → Fin M → ℂ) (hX : SDCIterates (lam * (tEnd / n : ℝ)) Q f K 1 X) (g : ℝ) (hg : ∀ k ≤ K, ‖X k‖ ≤ g)
    (s : ℂ) (hs : StepUpdate (lam * (tEnd / n : ℝ)) 1 (X K) w s) (τ : ℝ)
    (hτ : τ = coeffStepErr (sweepsErr κ ρ K * (g + 1)) (sweepErr R.u S.σ M) g (‖lam * (tEnd / n : ℝ)‖ * δ)
      (weightsSize (lam * (tEnd / n : ℝ)) w))
    (r : PyResult (List ℂ)) (h : R.SolveSDC S lam u0 tEnd n K Q' QD' w' r) :
    0 ≤ τ ∧ ∃ l out, r = .ok l ∧ solveDahlquistSDC lam u0 tEnd n K Q QD w [] = .ok out ∧ l.length = n + 1 ∧ out.uNum.length = n + 1 ∧
      l[0]? = some u0 ∧ ∀ i (hi : i < l.length) (hi' : i < out.uNum.length),
        out.uNum[i] = s ^ i * u0 ∧ ‖l[i] - out.uNum[i]‖ ≤ ((‖s‖ + τ) ^ i - ‖s‖ ^ i) * ‖u0‖ := by
  have hdet : ∀ k < K, (1 - (lam * (tEnd / n : ℝ)) • cmat (f k)).det ≠ 0 := fun k hk => det_ne_zero_of_bounded (hB.inv k hk)
  obtain ⟨hwv, hs'⟩ := stepUpdate_iff.1 hs
  have hs2 : s = sdcFactor (lam * (tEnd / n : ℝ)) Q f K w := by
    rw [hs', sdcFactor, SDCIterates.eq hdet hX K le_rfl]
  obtain ⟨hτ0, l, hl, hlen, h0, hb⟩ := run_bound_coeffs hM0 hQD' hp hβ hB hQ' hf' hw hk hM hκd hκ hX.sweep hg (g' := 1) (by linarith) hs h rfl
    (τ := τ) (by
      rw [hτ, hX.copy, sub_self, map_zero, mul_zero, zero_add])
  have hout := solveSDC_eq lam u0 tEnd n K hn Q QD f hQD w hwv [] (by intro k hk; cases hk) hdet
  refine ⟨hτ0, l, _, hl, hout, hlen, by simp [sdcResult], h0, fun i hi hi' => ?_⟩
  have e : (sdcResult (sdcData lam u0 tEnd n Q f w) n K []).uNum[i] = s ^ i * u0 := by
    simp only [sdcResult, List.getElem_map, List.getElem_range, SDCData.vals, sdcData, hs2, Int.cast_natCast]
  exact ⟨e, e ▸ (hb i hi).1⟩

/-- C101: the same call and the exact collocation method. -/
theorem C101_collocation (hM0 : 0 < M) (lam u0 : ℂ) (tEnd : ℝ) (n K : ℕ) (Q Q' : Matrix (Fin M) (Fin M) ℝ) (QD' : SDCQDelta)
    (w w' : Option (Σ k, Fin k → ℝ)) (f f' : ℕ → Matrix (Fin M) (Fin M) ℝ) (hQD' : SweepMatrices M K QD' f')
    (N : Seminorm ℂ (Fin M → ℂ)) (C V p β ρ δ : ℝ) (hp : 1 ≤ p) (hβ : 0 ≤ β) (hQ : ∀ i, 1 + ‖lam * (tEnd / n : ℝ)‖ * ∑ j, |Q i j| ≤ p + β)
    (hB : SweepBounds (lam * (tEnd / n : ℝ)) Q f K N C V p β ρ)
    (hQ' : ∀ i, ∑ j, |Q' i j - Q i j| ≤ δ) (hf' : ∀ k < K, ∀ i, ∑ j, |f' k i j - f k i j| ≤ δ) (hw : WeightsNear δ w w')
    (hk : 2 * R.u < 1) (hM : ((2 * M : ℕ) : ℝ) * R.u < 1) (κ : ℝ)
    (hκd : κ = coeffSweepErr (sweepErr R.u S.σ M) C V p β ‖lam * (tEnd / n : ℝ)‖ δ) (hκ : κ < 1)
    (v : Fin M → ℂ) (hv : IsCollocationSolution (lam * (tEnd / n : ℝ)) Q 1 v)
    (s : ℂ) (hs : StepUpdate (lam * (tEnd / n : ℝ)) 1 v w s) (τ : ℝ)
    (hτ : τ = coeffStepErr (((ρ + κ) / (1 - κ)) ^ K * N ((fun _ => 1) - v) + sweepsErr κ ρ K * (2 * ‖v‖)) (sweepErr R.u S.σ M) ‖v‖
      (‖lam * (tEnd / n : ℝ)‖ * δ) (weightsSize (lam * (tEnd / n : ℝ)) w))
    (r : PyResult (List ℂ)) (h : R.SolveSDC S lam u0 tEnd n K Q' QD' w' r) :
    0 ≤ τ ∧ ∃ l, r = .ok l ∧ l.length = n + 1 ∧ l[0]? = some u0 ∧ ∀ i (hi : i < l.length),
      ‖l[i] - s ^ i * u0‖ ≤ ((‖s‖ + τ) ^ i - ‖s‖ ^ i) * ‖u0‖ := by
  obtain ⟨hτ0, l, hl, hlen, h0, hb⟩ := run_bound_coeffs hM0 hQD' hp hβ hB hQ' hf' hw hk hM hκd hκ (X := fun _ => v) (g := ‖v‖) (g' := ‖v‖) (by
      intro k _
      have e : (lam * (tEnd / n : ℝ)) • cmat (Q - f k) = (lam * (tEnd / n : ℝ)) • cmat Q - (lam * (tEnd / n : ℝ)) • cmat (f k) := by
        rw [← smul_sub]
        congr 1
        ext i j
        simp [cmat]
      have h2 : v - ((lam * (tEnd / n : ℝ)) • cmat Q) *ᵥ v = fun _ => 1 := sub_eq_iff_eq_add.2 hv
      rw [e, Matrix.sub_mulVec, Matrix.sub_mulVec, Matrix.one_mulVec, ← h2]
      abel) (fun _ _ => le_rfl) (by
      have h1 := hQ ⟨0, hM0⟩
      have h2 : (1 : ℂ) = v ⟨0, hM0⟩ - lam * (tEnd / n : ℝ) * ∑ j, (Q ⟨0, hM0⟩ j : ℂ) * v j := by
        have := congrFun hv ⟨0, hM0⟩
        simp only [Pi.add_apply, Matrix.smul_mulVec, Pi.smul_apply, smul_eq_mul] at this
        rw [this]
        simp [Matrix.mulVec, dotProduct, cmat]
      have h3 : (1 : ℝ) ≤ ‖v‖ + ‖lam * (tEnd / n : ℝ)‖ * ((∑ j, |Q ⟨0, hM0⟩ j|) * ‖v‖) := by
        calc (1 : ℝ) = ‖(1 : ℂ)‖ := norm_one.symm
          _ = _ := congrArg norm h2
          _ ≤ _ := norm_sub_le _ _
          _ ≤ _ := by
            refine add_le_add (norm_le_pi_norm v _) ?_
            rw [norm_mul]
            refine mul_le_mul_of_nonneg_left ?_ (norm_nonneg _)
            rw [Finset.sum_mul]
            refine (norm_sum_le _ _).trans (Finset.sum_le_sum fun j _ => ?_)
            rw [norm_mul, Complex.norm_real, Real.norm_eq_abs]
            exact mul_le_mul_of_nonneg_left (norm_le_pi_norm v j) (abs_nonneg _)
      have h4 := mul_le_mul_of_nonneg_right h1 (norm_nonneg v)
      linarith) hs h rfl (τ := τ) (by rw [hτ, two_mul])
  exact ⟨hτ0, l, hl, hlen, h0, fun i hi => (hb i hi).1⟩

/-! ## Small steps -/

/-- The size of the errors for steps with `y (B + 1) ≤ 1/4`, if the rows of `Q` have sums of at most `B` and those of `QΔ` of at most 1. -/
theorem quarter_bounds {e y B δ : ℝ} (he : 0 ≤ e) (he' : e ≤ 1 / 100) (hy : 0 ≤ y) (hB : 1 ≤ B) (hδ : 0 ≤ δ) (hyB : y * (B + 1) ≤ 1 / 4)
    (hyδ : y * δ ≤ 1 / 1000) {κ ρ : ℝ} (hκ : κ = coeffSweepErr e 1 (1 / (1 - y)) (1 + y) (y * (B + 1)) y δ)
    (hρ : ρ = y * (B + 1) / (1 - y)) (K : ℕ) :
    y ≤ 1 / 8 ∧ 0 ≤ κ ∧ κ ≤ 1.6 * e + 3.5 * (y * δ) ∧ κ < 1 ∧ (ρ + κ) / (1 - κ) ≤ 1 / 3 ∧ 0 ≤ (ρ + κ) / (1 - κ) ∧
    0 ≤ sweepsErr κ ρ K ∧ sweepsErr κ ρ K ≤ 2.4 * e + 5.2 * (y * δ) := by
  have hy8 : y ≤ 1 / 8 := by
    have := mul_le_mul_of_nonneg_left (by linarith : (2:ℝ) ≤ B + 1) hy
    linarith
  have hd0 : 0 ≤ y * δ := mul_nonneg hy hδ
  have hyB0 : 0 ≤ y * (B + 1) := mul_nonneg hy (by linarith)
  have h1y : 0 < 1 - y := by linarith
  have hV : 1 / (1 - y) ≤ 8 / 7 := by rw [div_le_div_iff₀ h1y (by norm_num)]; linarith
  have hV0 : 0 ≤ 1 / (1 - y) := by positivity
  have hρ0 : 0 ≤ ρ := hρ ▸ div_nonneg hyB0 h1y.le
  have hρ1 : ρ ≤ 2 / 7 := by rw [hρ, div_le_div_iff₀ h1y (by norm_num)]; linarith
  have hκ0 : 0 ≤ κ := hκ ▸ coeffSweepErr_nonneg he zero_le_one hV0 (by linarith) hyB0 hy hδ
  have hκ1 : κ ≤ 1.6 * e + 3.5 * (y * δ) := by
    rw [hκ, coeffSweepErr, one_mul]
    have k1 : e * (1 + y + y * (B + 1) + 3 * (y * δ)) ≤ e * 1.378 := mul_le_mul_of_nonneg_left (by linarith) he
    have k0 : 0 ≤ e * (1 + y + y * (B + 1) + 3 * (y * δ)) := by positivity
    have k2 := mul_le_mul_of_nonneg_right hV (by linarith : 0 ≤ e * (1 + y + y * (B + 1) + 3 * (y * δ)) + 3 * (y * δ))
    linarith
  have hκ2 : κ ≤ 0.0195 := by linarith
  have hlim := C96_limit hκ0 hρ0 (by linarith : ρ + 2 * κ < 1) K
  refine ⟨hy8, hκ0, hκ1, by linarith, ?_, div_nonneg (by linarith) (by linarith), sweepsErr_nonneg (by linarith) hκ0 hρ0 K, hlim.2.trans ?_⟩
  · rw [div_le_div_iff₀ (by linarith) (by norm_num)]
    linarith
  · rw [div_le_iff₀ (by linarith)]
    have k1 : 0 ≤ (2.4 * e + 5.2 * (y * δ)) := by linarith
    have k2 := mul_le_mul_of_nonneg_left (by linarith : (0.675:ℝ) ≤ 1 - ρ - 2 * κ) k1
    linarith

/-- C101: steps with `y (B + 1) ≤ 1/4`: the constants of `C101_solve` and `C101_collocation`, with `T` the error of the node values and
`ε` what remains of the error of the first node values. -/
theorem C101_quarter {e y δ : ℝ} (he : 0 ≤ e) (he' : e ≤ 1 / 100) (hy : 0 ≤ y) (hδ : 0 ≤ δ)
    (hyδ : y * δ ≤ 1 / 1000) {T g ε : ℝ} (hT0 : 0 ≤ T) (hT : T ≤ ε + 7.2 * e + 15.6 * (y * δ)) (_ : 0 ≤ ε) (hε1 : ε ≤ 1) (hg0 : 0 ≤ g) (hg : g ≤ 2) :
    coeffStepErr T e g (y * δ) none ≤ ε + 8 * e + 16 * (y * δ) ∧
    ∀ ω, 0 ≤ ω → ω ≤ 1 / 4 → coeffStepErr T e g (y * δ) (some ω) ≤ ε / 3 + 8 * e + 16 * (y * δ) := by
  have hd0 : 0 ≤ y * δ := mul_nonneg hy hδ
  refine ⟨by simp only [coeffStepErr]; linarith, fun ω hω0 hω => ?_⟩
  simp only [coeffStepErr, stepErr]
  have k1 : (ω + y * δ) * T ≤ 0.251 * T := mul_le_mul_of_nonneg_right (by linarith) hT0
  have hT1 : T ≤ 1.1 := by linarith
  have k2 : (ω + y * δ) * (g + T) ≤ 0.251 * (g + T) := mul_le_mul_of_nonneg_right (by linarith) (by linarith)
  have k3 : e * (1 + (ω + y * δ) * (g + T)) ≤ e * 1.8 := mul_le_mul_of_nonneg_left (by linarith) he
  have k4 : y * δ * g ≤ y * δ * 2 := mul_le_mul_of_nonneg_left hg hd0
  linarith

/-! ## Double precision -/

theorem LebesgueType.one_le {nt qt : String} {M : ℕ} {B : ℝ} (h : LebesgueType nt qt M B) (hM : 0 < M) : 1 ≤ B := by
  have h1 : (1:ℝ) ≤ M := by exact_mod_cast hM
  rcases h with ⟨-, rfl⟩ | ⟨-, -, rfl⟩ | ⟨-, rfl⟩ | ⟨-, rfl⟩ | ⟨-, rfl⟩
  · exact h1
  · exact Real.one_le_sqrt.2 h1
  · exact Real.one_le_sqrt.2 (by linarith)
  · refine Real.one_le_sqrt.2 ?_
    have : (1:ℝ) * 2 * 3 ≤ M * (M + 1) * (2 * M + 1) := by gcongr <;> linarith
    linarith
  · refine Real.one_le_sqrt.2 ?_
    have h2 : (1:ℝ) ≤ (M:ℝ) ^ 2 := one_le_pow₀ h1
    have : (1:ℝ) * 3 ≤ M * (4 * (M:ℝ) ^ 2 - 1) := by gcongr; linarith
    linarith

theorem NodeClass.exact_ok (hM : 0 < M) (c : NodeClass) (x : Fin M → ℝ) (tLeft : ℝ) (k : ℕ) :
    ∃ D, c.exact x tLeft (some (k + 1)) = .ok D := by
  have hk : checkK (some ((k:ℤ) + 1)) = .ok ((k:ℤ) + 1) := checkK_pos (by omega)
  have ht : TimeStepping.new x tLeft = .ok _ := if_pos hM
  cases c with
  | MIN_SR_NS => exact ⟨_, rfl⟩
  | DNODES d => exact ⟨_, rfl⟩
  | Jumper => simp only [NodeClass.exact, computeJumper, hk]; exact ⟨_, rfl⟩
  | FlexJumper => simp only [NodeClass.exact, computeFlexJumper, hk]; exact ⟨_, rfl⟩
  | _ => simp only [NodeClass.exact, ht]; exact ⟨_, rfl⟩

/-- The rows of the computed `QΔ` in double precision. -/
theorem qdelta_double {M : ℕ} (hM : 0 < M) (hM' : M ≤ 100) {c : NodeClass} (hc : c ≠ .DNODES 0) {x x' : Fin M → ℝ} (hx : Monotone x)
    (h0 : ∀ i, 0 ≤ x i) (h1 : ∀ i, x i ≤ 1) {e B : ℝ} (he0 : 0 ≤ e) (hB : 1 ≤ B)
    (hxx : ∀ i, |x' i - x i| ≤ e / 2 + 1 / 10 ^ 15) {k : Option ℤ} {D : Matrix (Fin M) (Fin M) ℝ} (hD : c.exact x 0 k = .ok D) :
    ∃ D', double.computeQDelta x' 0 k c = .ok D' ∧ ∀ i, ∑ j, |D' i j - D i j| ≤ (M:ℝ) ^ 3 * B ^ 2 * (12 * e + 1 / 10 ^ 13) := by
  obtain ⟨D', hD', hb⟩ := C100_row_errors (R := double) hM c x x' _ 1 hxx hx h0 h1 hc k D hD
  refine ⟨D', hD', fun i => (hb i).trans ?_⟩
  have hMr : (M:ℝ) ≤ 100 := by exact_mod_cast hM'
  have h1r : (1:ℝ) ≤ M := by exact_mod_cast hM
  have hu : (1 + double.u) ^ 3 ≤ 1 + 5 / 10 ^ 16 := by rw [double_u]; norm_num
  have k0 : 0 ≤ 2 * M * (e / 2 + 1 / 10 ^ 15) := by positivity
  have k1 := mul_le_mul_of_nonneg_right hu (by linarith : 0 ≤ 1 + 2 * M * (e / 2 + 1 / 10 ^ 15))
  have k2 : (M:ℝ) ≤ (M:ℝ) ^ 3 * B ^ 2 := by
    have : (M:ℝ) * 1 * 1 ≤ (M:ℝ) * (M:ℝ) ^ 2 * B ^ 2 := by
      gcongr
      · exact one_le_pow₀ h1r
      · exact one_le_pow₀ hB
    calc (M:ℝ) = M * 1 * 1 := by ring
      _ ≤ _ := this
      _ = _ := by ring
  have k3 := mul_le_mul_of_nonneg_right k2 (by linarith : 0 ≤ 12 * e + 1 / 10 ^ 13)
  refine le_trans ?_ k3
  have k4 : (M:ℝ) * e ≤ 100 * e := mul_le_mul_of_nonneg_right hMr he0
  have k5 : 0 ≤ (M:ℝ) * e := by positivity
  linarith

/-- The exact iterates of small steps. -/
theorem iterates_le {z : ℂ} {Q : Matrix (Fin M) (Fin M) ℝ} {f : ℕ → Matrix (Fin M) (Fin M) ℝ} {K : ℕ} {N : Seminorm ℂ (Fin M → ℂ)} {C V p β ρ : ℝ}
    (hB : SweepBounds z Q f K N C V p β ρ) (hβ : 0 ≤ β) {X : ℕ → Fin M → ℂ} (hX : SDCIterates z Q f K 1 X) {g : ℝ} (hg : 1 ≤ g)
    (hV : V * (1 + β * g) ≤ g) {k : ℕ} (hk : k ≤ K) : ‖X k‖ ≤ g := by
  induction k with
  | zero =>
    rw [hX.copy, pi_norm_le_iff_of_nonneg (by linarith)]
    intro i
    rwa [norm_one]
  | succ k ih =>
    have h1 := hB.inv k (by omega) (X (k + 1))
    rw [hX.sweep k (by omega)] at h1
    refine h1.trans (le_trans (mul_le_mul_of_nonneg_left ?_ hB.V_nonneg) hV)
    refine (norm_add_le _ _).trans (add_le_add ?_ ?_)
    · rw [pi_norm_le_iff_of_nonneg zero_le_one]
      intro i
      rw [norm_one]
    · exact (mulVec_norm_le (hB.rest k (by omega)) hβ _).trans (mul_le_mul_of_nonneg_left (ih (by omega)) hβ)

/-- C101: a collocation method and the coefficients of its sweeps computed in double precision and then used by `solveDahlquistSDC` in double precision,
compared with the exact SDC run with exact coefficients, and with the exact collocation method. -/
theorem C101_double {F : FejerOps} (E : NodeOps) (S : SolveOps) (hv : F.v ≤ 1 / 10 ^ 15) {m : ℕ} (hM : 0 < M) (hM' : M ≤ 100)
    (hm : m = M - (M + 1) % 2) (hη : 4 * F.κ / m + 4 * (1 + F.κ) * F.ρ / √m ≤ 1 / 10 ^ 15) {nt qt : String} {B : ℝ} (hB : LebesgueType nt qt M B)
    (hqt : qt ∈ QUAD_TYPES) (hn : ValidSize qt M) (hθ : E.θ ≤ 1 / 10 ^ 14) (hσ : E.σ ≤ 1 / 10 ^ 14) (hS : S.σ ≤ 1 / 1000)
    (cls : ℕ → NodeClass) (hcls : ∀ k, cls k ≠ .DNODES 0) (weights : Bool)
    (lam u0 : ℂ) (tEnd : ℝ) (n K : ℕ) (hn0 : 0 < n) (hz : ‖lam * (tEnd / n : ℝ)‖ * (B + 1) ≤ 1 / 4) (e δ τ : ℝ)
    (he : e = nodesErr double.u E.θ E.σ nt qt M) (hδ : δ = (M:ℝ) ^ 3 * B ^ 2 * (12 * e + 1 / 10 ^ 13))
    (hyδ : ‖lam * (tEnd / n : ℝ)‖ * δ ≤ 1 / 1000) (hτ : τ = 16 * S.σ + 32 * (M + 3) * double.u + 16 * (‖lam * (tEnd / n : ℝ)‖ * δ)) :
    ∃ c raw, ∃ f : ℕ → Matrix (Fin M) (Fin M) ℝ, Collocation.new M nt qt 0 1 = .ok c ∧ double.getEigenvalues E ⟨nt, qt⟩ M = .ok raw ∧
    (∀ k : ℕ, (cls k).exact c.nodes 0 (some (k + 1)) = .ok (f k)) ∧
    (∃ nodes Q' w', ∃ f' : ℕ → Matrix (Fin M) (Fin M) ℝ, double.CollocationArrays F qt hM raw 0 1 nodes Q' w' ∧
      ∀ k : ℕ, double.computeQDelta nodes 0 (some (k + 1)) (cls k) = .ok (f' k)) ∧
    ∀ nodes Q' w' (f' : ℕ → Matrix (Fin M) (Fin M) ℝ), double.CollocationArrays F qt hM raw 0 1 nodes Q' w' →
      (∀ k : ℕ, double.computeQDelta nodes 0 (some (k + 1)) (cls k) = .ok (f' k)) →
      ∀ r, double.SolveSDC S lam u0 tEnd n K Q' (.stack K M M fun k => f' k) (if weights then some ⟨M, w'⟩ else none) r →
      ∃ l out l' s s', r = .ok l ∧
        solveDahlquistSDC lam u0 tEnd n K c.Q (.stack K M M fun k => f k) (if weights then some ⟨M, c.weights⟩ else none) [] = .ok out ∧
        c.toQGenerator.solveDahlquist lam u0 tEnd n = .ok l' ∧ l.length = n + 1 ∧ out.uNum.length = n + 1 ∧ l'.length = n + 1 ∧
        (∀ i (hi : i < l.length) (hi' : i < out.uNum.length), out.uNum[i] = s ^ i * u0 ∧
          ‖l[i] - out.uNum[i]‖ ≤ ((‖s‖ + τ) ^ i - ‖s‖ ^ i) * ‖u0‖) ∧
        s' = ‖stabilityFunction c.Q c.weights (lam * (tEnd / n : ℝ))‖ ∧
        (weights = true → ∀ i (hi : i < l.length) (hi' : i < l'.length),
          ‖l[i] - l'[i]‖ ≤ ((s' + ((1 / 3) ^ (K + 2) + τ)) ^ i - s' ^ i) * ‖u0‖) := by
  obtain ⟨c, Sc, raw, e', hc, -, hraw, he', -, -, ⟨nodes0, Q0, w0, S0, hA0, hS0⟩, hall⟩ := C95_double E hv hM hM' hm hη hB hqt hn hθ hσ
  rw [← he] at he'
  simp only [he'] at hall
  have hen : 0 ≤ e := he ▸ nodesErr_nonneg double.u_nonneg E.θ_nonneg E.σ_nonneg nt qt M
  obtain ⟨hsm, hr01, -, -⟩ := C24_collocation_nodes (by norm_num) c hc
  have hB1 := hB.one_le hM
  choose f hf using fun k : ℕ => NodeClass.exact_ok hM (cls k) c.nodes 0 k
  have hqd : ∀ {nodes : Fin M → ℝ}, (∀ i, |nodes i - c.nodes i| ≤ e / 2 + 1 / 10 ^ 15) → ∀ k : ℕ,
      ∃ D', double.computeQDelta nodes 0 (some (k + 1)) (cls k) = .ok D' ∧ ∀ i, ∑ j, |D' i j - f k i j| ≤ δ := fun hx k => by
    rw [hδ]
    exact qdelta_double hM hM' (hcls k) hsm.monotone (fun i => (hr01 i).1) (fun i => (hr01 i).2) hen hB1 hx (hf k)
  refine ⟨c, raw, f, hc, hraw, hf, ?_, fun nodes Q' w' f' hA hf' r hr => ?_⟩
  · choose f0 hf0 using fun k => hqd (hall nodes0 Q0 w0 S0 hA0 hS0).1 k
    exact ⟨nodes0, Q0, w0, f0, hA0, fun k => (hf0 k).1⟩
  have hnodes : nodes = nodes0 := hA.1.trans hA0.1.symm
  obtain ⟨hx, hQ, hw, -, -, -⟩ := hall nodes Q' w' S0 hA (hnodes ▸ hS0)
  have hfd : ∀ k i, ∑ j, |f' k i j - f k i j| ≤ δ := fun k => by
    obtain ⟨D', h1, h2⟩ := hqd hx k
    rw [hf' k] at h1
    cases h1
    exact h2
  obtain ⟨hqQ, hqw⟩ := C93_collocation_unit (by omega) c hc hB
  have hrow : ∀ v v' : Fin M → ℝ, (∀ j, |v' j - v j| ≤ (M:ℝ) ^ 2 * B ^ 2 * (12 * e + 1 / 10 ^ 13)) → ∑ j, |v' j - v j| ≤ δ := fun v v' h => by
    refine (Finset.sum_le_card_nsmul _ _ _ fun j _ => h j).trans (le_of_eq ?_)
    rw [hδ]
    simp
    ring
  have hB0 : 0 ≤ B := by linarith
  have hqQ' : ∀ i, ∑ j, |c.Q i j| ≤ B := fun i => (hqQ i).trans (mul_le_of_le_one_right hB0 (hr01 i).2)
  have hδ0 : 0 ≤ δ := (Finset.sum_nonneg fun _ _ => abs_nonneg _).trans (hrow _ _ hw)
  obtain ⟨h1, h2, h3⟩ := C96_double (R := double) (M := M) (σ := S.σ) (by rw [double_u]; norm_num) (by omega) S.σ_nonneg
  have hMr : (M:ℝ) ≤ 100 := by exact_mod_cast hM'
  have he0 : 0 ≤ sweepErr double.u S.σ M := double.u_nonneg.trans (sweepErr_ge h1 h2 S.σ_nonneg).2.1
  have hMu : (M:ℝ) * double.u ≤ 100 * double.u := mul_le_mul_of_nonneg_right hMr double.u_nonneg
  have hu : double.u ≤ 1 / 10 ^ 15 := by rw [double_u]; norm_num
  have he1 : sweepErr double.u S.σ M ≤ 1 / 100 := by linarith
  set ε := sweepErr double.u S.σ M with hεd
  have hτε : 8 * ε + 16 * (‖lam * (tEnd / n : ℝ)‖ * δ) ≤ τ := by linarith
  set z := lam * (tEnd / n : ℝ) with hzd
  have hy0 := norm_nonneg z
  obtain ⟨hy8, hκ0, hκ1, hκ2, hq1, hq0, hse0, hse⟩ := quarter_bounds he0 he1 hy0 hB1 hδ0 hz hyδ rfl rfl K
  set κ := coeffSweepErr ε 1 (1 / (1 - ‖z‖)) (1 + ‖z‖) (‖z‖ * (B + 1)) ‖z‖ δ with hκd
  have hyB0 : 0 ≤ ‖z‖ * (B + 1) := mul_nonneg hy0 (by linarith)
  have hyB : ‖z‖ * B ≤ 1 / 4 := by linarith
  -- the exact sweeps
  have hD1 : ∀ k i, ∑ j, |f k i j| ≤ 1 := fun k i => by
    obtain ⟨hn, -, hs⟩ := C100_rows (cls k) c.nodes 1 hsm.monotone (fun i => (hr01 i).1) (fun i => (hr01 i).2) (hcls k) _ (f k) (hf k)
    simpa only [abs_of_nonneg (hn i _)] using hs i
  have hSB : ∀ g : ℕ → Matrix (Fin M) (Fin M) ℝ, (∀ k < K, g k = f k) →
      SweepBounds z c.Q g K (supNorm M) 1 (1 / (1 - ‖z‖)) (1 + ‖z‖) (‖z‖ * (B + 1)) (‖z‖ * (B + 1) / (1 - ‖z‖)) := fun g hg => by
    refine C96_small z c.Q g K ‖z‖ (‖z‖ * (B + 1)) hy0 (by linarith) hyB0 (fun k hk i => ?_) (fun k hk i => ?_)
    · rw [hg k hk]
      exact mul_le_of_le_one_right hy0 (hD1 k i)
    · rw [hg k hk]
      refine mul_le_mul_of_nonneg_left ?_ hy0
      have : ∑ j, |c.Q i j - f k i j| ≤ ∑ j, (|c.Q i j| + |f k i j|) := Finset.sum_le_sum fun j _ => abs_sub _ _
      rw [Finset.sum_add_distrib] at this
      linarith [hqQ' i, hD1 k i]
  set F1 : ℕ → Matrix (Fin M) (Fin M) ℝ := fun k => if h : k < K then f k else 0 with hF1
  set F2 : ℕ → Matrix (Fin M) (Fin M) ℝ := fun k => if h : k < K then f' k else 0 with hF2
  have hsw1 : SweepMatrices M K (.stack K M M fun k => f k) F1 := .each K fun k : Fin K => f k
  have hsw2 : SweepMatrices M K (.stack K M M fun k => f' k) F2 := .each K fun k : Fin K => f' k
  have hSB1 := hSB F1 fun k hk => by simp [hF1, hk]
  have hF12 : ∀ k < K, ∀ i, ∑ j, |F2 k i j - F1 k i j| ≤ δ := fun k hk i => by
    simp only [hF1, hF2, hk, dif_pos]
    exact hfd k i
  have hwn : WeightsNear δ (if weights then some ⟨M, c.weights⟩ else none) (if weights then some ⟨M, w'⟩ else none) := by
    cases weights with
    | false => exact .lastNode
    | true => exact .quadrature (hrow _ _ hw)
  -- the exact run
  have hdet : ∀ k < K, (1 - z • cmat (F1 k)).det ≠ 0 := fun k hk => det_ne_zero_of_bounded (hSB1.inv k hk)
  have hX := sdcIter_iterates (Q := c.Q) hdet 1
  set X := sdcIter z c.Q F1 1 with hXd
  have hg : ∀ k ≤ K, ‖X k‖ ≤ 2 := fun k hk => iterates_le hSB1 hyB0 hX one_le_two (by
    rw [div_mul_eq_mul_div, div_le_iff₀ (by linarith)]
    linarith) hk
  have hdq : (1 - z • cmat c.Q).det ≠ 0 := det_ne_zero_of_bounded (C97_small z c.Q B hB0 hqQ' (by linarith))
  have hout : c.toQGenerator.solveDahlquist lam u0 tEnd n = .ok ((List.range (n + 1)).map fun k =>
      stabilityFunction c.Q c.weights z ^ k * u0) := C30_solveDahlquist c.toQGenerator lam u0 tEnd n hn0 hdq
  obtain ⟨s, hs, hωs⟩ : ∃ s, StepUpdate z 1 (X K) (if weights then some ⟨M, c.weights⟩ else none) s ∧ True := by
    cases weights with
    | false => exact ⟨_, .lastNode hM, trivial⟩
    | true => exact ⟨_, .quadrature c.weights, trivial⟩
  have hωle : ‖z‖ * ∑ i, |c.weights i| ≤ 1 / 4 := (mul_le_mul_of_nonneg_left hqw hy0).trans hyB
  have hω0 : 0 ≤ ‖z‖ * ∑ i, |c.weights i| := mul_nonneg hy0 (Finset.sum_nonneg fun _ _ => abs_nonneg _)
  have hyδ0 : 0 ≤ ‖z‖ * δ := mul_nonneg hy0 hδ0
  obtain ⟨hτ0', l, out, hl, hout', hlen, hlen', -, hb⟩ := C101_solve (R := double) (S := S) hM lam u0 tEnd n K hn0 c.Q Q' _ _ _ _ F1 F2 hsw1 hsw2 _ _ _ _ _ _ δ
    (by linarith) hyB0 hSB1 (fun i => hrow _ _ (hQ i)) hF12 hwn h1 h2 κ hκd hκ2 X hX 2 hg s hs _ rfl r hr
  set τ1 := coeffStepErr (sweepsErr κ (‖z‖ * (B + 1) / (1 - ‖z‖)) K * (2 + 1)) ε 2 (‖z‖ * δ) (weightsSize z (if weights then some ⟨M, c.weights⟩ else none)) with hτ1d
  have hτ1 : τ1 ≤ τ := by
    obtain ⟨q1, q2⟩ := C101_quarter he0 he1 hy0 hδ0 hyδ (T := sweepsErr κ (‖z‖ * (B + 1) / (1 - ‖z‖)) K * (2 + 1)) (g := 2) (ε := 0)
      (by positivity) (by linarith) le_rfl zero_le_one zero_le_two le_rfl
    rw [hτ1d]
    cases weights with
    | false => exact q1.trans (by linarith)
    | true => exact (q2 _ hω0 hωle).trans (by linarith)
  refine ⟨l, out, _, s, _, hl, hout', hout, hlen, hlen', by simp, fun i hi hi' => ⟨(hb i hi hi').1, (hb i hi hi').2.trans ?_⟩, rfl, ?_⟩
  · exact mul_le_mul_of_nonneg_right (sub_le_sub_right (pow_le_pow_left₀ (by positivity) (by linarith) i) _) (norm_nonneg _)
  · rintro rfl i hi hi'
    simp only [if_true] at hr hwn
    set v : Fin M → ℂ := (1 - z • cmat c.Q)⁻¹ *ᵥ fun _ => 1 with hvd
    have hAv : (1 - z • cmat c.Q) *ᵥ v = fun _ => 1 := by
      rw [hvd, Matrix.mulVec_mulVec, Matrix.mul_nonsing_inv _ (isUnit_iff_ne_zero.2 hdq), Matrix.one_mulVec]
    have hv' : v = (fun _ => 1) + (z • cmat c.Q) *ᵥ v := by
      rw [← hAv, Matrix.sub_mulVec, Matrix.one_mulVec, sub_add_cancel]
    have hone : ‖(fun _ => 1 : Fin M → ℂ)‖ ≤ 1 := by
      rw [pi_norm_le_iff_of_nonneg zero_le_one]
      intro i
      rw [norm_one]
    have hvn : ‖v‖ ≤ 4 / 3 := by
      have := C97_small z c.Q B hB0 hqQ' (by linarith) v
      rw [hAv] at this
      refine this.trans ((mul_le_mul_of_nonneg_left hone (one_div_nonneg.2 (by linarith))).trans ?_)
      rw [mul_one, div_le_div_iff₀ (by linarith) (by norm_num)]
      linarith
    have hdiff : ‖(fun _ => 1 : Fin M → ℂ) - v‖ ≤ 1 / 3 := by
      have e1 : (fun _ => 1 : Fin M → ℂ) - v = -((z • cmat c.Q) *ᵥ v) := by
        nth_rw 1 [hv']
        abel
      rw [e1, norm_neg]
      have := mulVec_norm_le (fun i => mul_le_mul_of_nonneg_left (hqQ' i) hy0) (mul_nonneg hy0 hB0) v
      have k1 : ‖z‖ * B * ‖v‖ ≤ 1 / 4 * (4 / 3) := mul_le_mul hyB hvn (norm_nonneg _) (by norm_num)
      linarith
    obtain ⟨hτ2', l2, hl2, -, -, hb2⟩ := C101_collocation (R := double) (S := S) hM lam u0 tEnd n K c.Q Q' _ (some ⟨M, c.weights⟩) (some ⟨M, w'⟩) F1 F2
      hsw2 _ _ _ _ _ _ δ (by linarith) hyB0 (fun i => by
        have := mul_le_mul_of_nonneg_left (hqQ' i) hy0
        linarith) hSB1 (fun i => hrow _ _ (hQ i)) hF12 hwn h1 h2 κ hκd hκ2 v hv' (stabilityFunction c.Q c.weights z) (.quadrature c.weights) _ rfl r hr
    rw [hl] at hl2
    cases hl2
    set T := ((‖z‖ * (B + 1) / (1 - ‖z‖) + κ) / (1 - κ)) ^ K * supNorm M ((fun _ => 1) - v) +
      sweepsErr κ (‖z‖ * (B + 1) / (1 - ‖z‖)) K * (2 * ‖v‖) with hTd
    have hp3 : (0:ℝ) ≤ (1 / 3) ^ K := by positivity
    have hT : T ≤ (1 / 3) ^ (K + 1) + 7.2 * ε + 15.6 * (‖z‖ * δ) := by
      have t1 : ((‖z‖ * (B + 1) / (1 - ‖z‖) + κ) / (1 - κ)) ^ K * supNorm M ((fun _ => 1) - v) ≤ (1 / 3) ^ K * (1 / 3) :=
        mul_le_mul (pow_le_pow_left₀ hq0 hq1 K) hdiff (apply_nonneg _ _) hp3
      have t2 : sweepsErr κ (‖z‖ * (B + 1) / (1 - ‖z‖)) K * (2 * ‖v‖) ≤ (2.4 * ε + 5.2 * (‖z‖ * δ)) * 3 :=
        mul_le_mul hse (by linarith) (by positivity) (by linarith)
      rw [hTd, pow_succ]
      linarith
    have hT0 : 0 ≤ T := by
      rw [hTd]
      have := apply_nonneg (supNorm M) ((fun _ => 1) - v)
      positivity
    obtain ⟨-, q2⟩ := C101_quarter he0 he1 hy0 hδ0 hyδ hT0 hT (by positivity) (pow_le_one₀ (by norm_num) (by norm_num)) (norm_nonneg v)
      (by linarith)
    have hτ2 := q2 _ hω0 hωle
    simp only [weightsSize, Option.map_some] at hb2 hτ2'
    have e3 : ((1:ℝ) / 3) ^ (K + 1) / 3 = (1 / 3) ^ (K + 2) := by ring
    rw [e3] at hτ2
    simp only [List.getElem_map, List.getElem_range]
    refine (hb2 i hi).trans (mul_le_mul_of_nonneg_right (sub_le_sub_right (pow_le_pow_left₀ (add_nonneg (norm_nonneg _) hτ2') ?_ i) _) (norm_nonneg _))
    linarith

/-- Differences of powers, for a factor of at most one. -/
theorem pow_sub_pow_le_one {s τ : ℝ} (hs0 : 0 ≤ s) (hs1 : s ≤ 1) (hτ : 0 ≤ τ) (i : ℕ) : (s + τ) ^ i - s ^ i ≤ (1 + τ) ^ i - 1 := by
  induction i with
  | zero => simp
  | succ i ih =>
    have h4 : (s + τ) ^ i ≤ (1 + τ) ^ i := pow_le_pow_left₀ (by linarith) (by linarith) i
    have h5 : s * ((s + τ) ^ i - s ^ i) ≤ 1 * ((1 + τ) ^ i - 1) :=
      mul_le_mul hs1 ih (sub_nonneg.2 (pow_le_pow_left₀ hs0 (by linarith) i)) zero_le_one
    have h6 := mul_le_mul_of_nonneg_left h4 hτ
    rw [pow_succ', pow_succ', pow_succ']
    linarith

theorem instance_bound {s τ : ℝ} (hs0 : 0 ≤ s) (hs1 : s ≤ 1) (hτ0 : 0 ≤ τ) (hτ1 : τ ≤ 6 / 10 ^ 9) {i : ℕ} (hi : i ≤ 10) :
    (s + τ) ^ i - s ^ i ≤ 1 / 10 ^ 7 := by
  refine (pow_sub_pow_le_one hs0 hs1 hτ0 i).trans ?_
  have h1 : (1 + τ) ^ i ≤ (1 + τ) ^ 10 := pow_le_pow_right₀ (by linarith) hi
  have h2 : (1 + τ) ^ 10 ≤ (1 + 6 / 10 ^ 9) ^ 10 := pow_le_pow_left₀ (by linarith) (by linarith) 10
  have h3 : ((1:ℝ) + 6 / 10 ^ 9) ^ 10 ≤ 1 + 1 / 10 ^ 7 := by norm_num
  linarith

/-- Instance: three nodes, one sweep with `BE` and 19 with `MIN_SR_NS`, and ten steps of `20 u' = -u`, all in double precision. -/
example : ∃ c raw, Collocation.new 3 "LEGENDRE" "RADAU-RIGHT" 0 1 = .ok c ∧
    double.getEigenvalues roundedNodeOps ⟨"LEGENDRE", "RADAU-RIGHT"⟩ 3 = .ok raw ∧
    ∃ nodes Q w, ∃ f : ℕ → Matrix (Fin 3) (Fin 3) ℝ, ∃ r, double.CollocationArrays double.fejerOps "RADAU-RIGHT" (by norm_num) raw 0 1 nodes Q w ∧
      (∀ k : ℕ, double.computeQDelta nodes 0 (some (k + 1)) (if k = 0 then .BE else .MIN_SR_NS) = .ok (f k)) ∧
      double.SolveSDC ops (-1 / 20) 1 1 10 (20 : ℕ) Q (.stack 20 3 3 fun k => f k) (some ⟨3, w⟩) r ∧
      ∃ l l', r = .ok l ∧ c.toQGenerator.solveDahlquist (-1 / 20) 1 1 (10 : ℕ) = .ok l' ∧ l.length = 11 ∧
        ∀ i (hi : i < l.length) (hi' : i < l'.length), ‖l[i] - l'[i]‖ ≤ 1 / 10 ^ 7 := by
  obtain ⟨he, he2⟩ := nodesErr_double roundedNodeOps (M := 3) (by norm_num) "LEGENDRE" "RADAU-RIGHT" le_rfl (by show (0:ℝ) ≤ _; norm_num)
  have he3 := he2 (by decide)
  have hz : ‖(-1 / 20 : ℂ) * ((1 : ℝ) / (10 : ℕ) : ℝ)‖ = 1 / 200 := by
    rw [norm_mul, norm_div, norm_neg, norm_one, Complex.norm_real]
    norm_num
  have hes := nodesErr_nonneg (u := double.u) (θ := roundedNodeOps.θ) (σ := roundedNodeOps.σ) double.u_nonneg roundedNodeOps.θ_nonneg
    roundedNodeOps.σ_nonneg "LEGENDRE" "RADAU-RIGHT" 3
  generalize heq : nodesErr double.u roundedNodeOps.θ roundedNodeOps.σ "LEGENDRE" "RADAU-RIGHT" 3 = e at he3 hes
  obtain ⟨c, raw, f0, hc, hraw, -, ⟨nodes, Q, w, f, hA, hf⟩, hall⟩ := C101_double (F := double.fejerOps) roundedNodeOps ops
    (by show double.u ≤ _; rw [double_u]; norm_num) (M := 3) (by norm_num) (by norm_num) (m := 3) rfl
    (by show 4 * double.u / (3:ℕ) + 4 * (1 + double.u) * 0 / √(3:ℕ) ≤ _; rw [double_u]; norm_num) (nt := "LEGENDRE") (qt := "RADAU-RIGHT")
    (Or.inl ⟨rfl, rfl⟩) (by decide) ⟨by norm_num, fun h => by simp at h⟩ le_rfl (by show (0:ℝ) ≤ _; norm_num)
    (by show (1 / 10 ^ 15 : ℝ) ≤ _; norm_num) (fun k => if k = 0 then .BE else .MIN_SR_NS) (fun k => by split_ifs <;> simp) true
    (-1 / 20) 1 1 10 20 (by norm_num) (by rw [hz]; norm_num) e _ _ heq.symm rfl (by rw [hz]; norm_num at he3 ⊢; linarith) rfl
  obtain ⟨r, hr⟩ := C96_exists (R := double) (S := ops) (-1 / 20) 1 1 10 20 Q (.stack 20 3 3 fun k => f k) (some ⟨3, w⟩)
  obtain ⟨l, out, l', s, s', hl, -, hl', hlen, -, -, -, hs', hb⟩ := hall nodes Q w f hA hf r hr
  refine ⟨c, raw, hc, hraw, nodes, Q, w, f, r, hA, hf, hr, l, l', hl, hl', hlen, fun i hi hi' => ?_⟩
  refine (hb rfl i hi hi').trans ?_
  rw [norm_one, mul_one]
  have hs1 : s' ≤ 1 := by
    rw [hs']
    refine legendre_astable (by decide) c hc (unmoved_small (by norm_num) c hc) ?_
    rw [Complex.mul_re, Complex.ofReal_re, Complex.ofReal_im, mul_zero, sub_zero]
    norm_num
  have hs0 : 0 ≤ s' := hs' ▸ norm_nonneg _
  have h0 : ops.σ = 1 / 10 ^ 15 := rfl
  rw [hz, double_u, h0]
  exact instance_bound hs0 hs1 (by positivity) (by norm_num at he3 ⊢; linarith) (by omega)

end QMat
