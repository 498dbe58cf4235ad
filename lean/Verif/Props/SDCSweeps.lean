import Verif.Lemmas.Powers
import Verif.Props.SDCLimits
import Mathlib.LinearAlgebra.Vandermonde

/-!
# C81: SDC with more and more sweeps
-/

namespace QMat

open Spec Matrix Filter Topology

variable {M : ℕ}

/-- One sweep multiplies the distance to the collocation solution by this matrix: `(I - z QΔ)⁻¹ z (Q - QΔ)`. -/
noncomputable def sweepMatrix (z : ℂ) (Q A : Matrix (Fin M) (Fin M) ℝ) : Matrix (Fin M) (Fin M) ℂ :=
  (1 - z • cmat A)⁻¹ * (z • cmat (Q - A))

/-- The sweeps are defined and all eigenvalues of a sweep have modulus less than one. -/
def SweepsContract (z : ℂ) (Q A : Matrix (Fin M) (Fin M) ℝ) : Prop :=
  (1 - z • cmat A).det ≠ 0 ∧ ∀ μ ∈ spectrum ℂ (sweepMatrix z Q A), ‖μ‖ < 1

theorem one_sub_sweep {z : ℂ} {Q A : Matrix (Fin M) (Fin M) ℝ} (h : (1 - z • cmat A).det ≠ 0) :
    (1 - z • cmat A) * (1 - sweepMatrix z Q A) = 1 - z • cmat Q := by
  have e : z • cmat (Q - A) = z • cmat Q - z • cmat A := by
    rw [← smul_sub]; congr 1; ext i j; simp
  rw [sweepMatrix, mul_sub, mul_one, ← mul_assoc, mul_nonsing_inv _ (isUnit_iff_ne_zero.mpr h), one_mul, e]
  abel

theorem SweepsContract.det_ne {z : ℂ} {Q A : Matrix (Fin M) (Fin M) ℝ} (h : SweepsContract z Q A) :
    (1 - z • cmat Q).det ≠ 0 := by
  rw [← one_sub_sweep h.1, det_mul]
  refine mul_ne_zero h.1 fun h0 => ?_
  have h1 : (1:ℂ) ∈ spectrum ℂ (sweepMatrix z Q A) := by
    rw [spectrum.mem_iff, map_one, isUnit_iff_isUnit_det, isUnit_iff_ne_zero, not_not]
    exact h0
  simpa using h.2 1 h1

/-- The collocation solution. -/
theorem collocation_unique {z : ℂ} {Q : Matrix (Fin M) (Fin M) ℝ} (h : (1 - z • cmat Q).det ≠ 0) (u : ℂ)
    (v : Fin M → ℂ) : IsCollocationSolution z Q u v ↔ v = (1 - z • cmat Q)⁻¹ *ᵥ fun _ => u := by
  have hu := isUnit_iff_ne_zero.mpr h
  constructor
  · intro hv
    have : (1 - z • cmat Q) *ᵥ v = fun _ => u := by
      rw [sub_mulVec, one_mulVec]
      unfold IsCollocationSolution at hv
      generalize (z • cmat Q) *ᵥ v = q at hv
      rw [hv]; abel
    rw [← this, mulVec_mulVec, nonsing_inv_mul _ hu, one_mulVec]
  · rintro rfl
    unfold IsCollocationSolution
    generalize hw : (1 - z • cmat Q)⁻¹ *ᵥ (fun _ => u : Fin M → ℂ) = w
    have : (1 - z • cmat Q) *ᵥ w = fun _ => u := by
      rw [← hw, mulVec_mulVec, mul_nonsing_inv _ hu, one_mulVec]
    rw [← this, sub_mulVec, one_mulVec]
    abel

theorem iterates_error {z : ℂ} {Q A : Matrix (Fin M) (Fin M) ℝ} (h : (1 - z • cmat A).det ≠ 0) {u : ℂ}
    {U : ℕ → Fin M → ℂ} (hU : ∀ K, SDCIterates z Q (fun _ => A) K u U) {v : Fin M → ℂ}
    (hv : IsCollocationSolution z Q u v) (k : ℕ) : U k - v = sweepMatrix z Q A ^ k *ᵥ (U 0 - v) := by
  induction k with
  | zero => rw [pow_zero, one_mulVec]
  | succ k ih =>
    have := C56_error_recursion z Q (fun _ => A) (k + 1) u U (hU _) v hv k (Nat.lt_succ_self k)
    have h2 := congrArg (fun x => (1 - z • cmat A)⁻¹ *ᵥ x) this
    simp only [mulVec_mulVec] at h2
    rw [nonsing_inv_mul _ (isUnit_iff_ne_zero.mpr h), one_mulVec, ih, ← sweepMatrix, mulVec_mulVec, ← pow_succ'] at h2
    exact h2

/-- C81: when all eigenvalues of a sweep have modulus less than one, the collocation problem has exactly one solution
and the iterates tend to it. -/
theorem C81_iterates (z : ℂ) (Q A : Matrix (Fin M) (Fin M) ℝ) (h : SweepsContract z Q A) (u : ℂ) (U : ℕ → Fin M → ℂ)
    (hU : ∀ K, SDCIterates z Q (fun _ => A) K u U) :
    ∃ v, IsCollocationSolution z Q u v ∧ (∀ v', IsCollocationSolution z Q u v' → v' = v) ∧
      Tendsto U atTop (𝓝 v) := by
  have hv := (collocation_unique h.det_ne u _).mpr rfl
  refine ⟨_, hv, fun v' hv' => (collocation_unique h.det_ne u v').mp hv', ?_⟩
  have := pow_mulVec_tendsto h.2 (U 0 - (1 - z • cmat Q)⁻¹ *ᵥ fun _ => u)
  simp only [← iterates_error h.1 hU hv] at this
  have h2 := this.add_const ((1 - z • cmat Q)⁻¹ *ᵥ fun _ => u)
  rw [zero_add] at h2
  exact h2.congr fun k => sub_add_cancel _ _

theorem sdcFactor_tendsto {z : ℂ} {Q A : Matrix (Fin M) (Fin M) ℝ} (h : SweepsContract z Q A) (b : Fin M → ℝ) :
    Tendsto (fun K => sdcFactor z Q (fun _ => A) K (some ⟨M, b⟩)) atTop (𝓝 (stabilityFunction Q b z)) := by
  obtain ⟨v, hv, -, ht⟩ := C81_iterates z Q A h 1 _ fun K => sdcIter_iterates (K := K) (fun _ _ => h.1) 1
  have e := (collocation_unique h.det_ne 1 v).mp hv
  simp only [sdcFactor, sdcUpdate, stabilityFunction, dif_pos]
  rw [← e]
  refine tendsto_const_nhds.add (tendsto_const_nhds.mul (tendsto_finsetSum _ fun i _ => ?_))
  exact tendsto_const_nhds.mul (tendsto_pi_nhds.mp ht i)

theorem sdcFactor_tendsto_last {z : ℂ} {Q A : Matrix (Fin M) (Fin M) ℝ} (h : SweepsContract z Q A) (hM : 0 < M) :
    Tendsto (fun K => sdcFactor z Q (fun _ => A) K none) atTop
      (𝓝 (stabilityFunction Q (Q ⟨M - 1, by omega⟩) z)) := by
  obtain ⟨v, hv, -, ht⟩ := C81_iterates z Q A h 1 _ fun K => sdcIter_iterates (K := K) (fun _ _ => h.1) 1
  have e := (collocation_unique h.det_ne 1 v).mp hv
  have hl : stabilityFunction Q (Q ⟨M - 1, by omega⟩) z = v ⟨M - 1, by omega⟩ := by
    rw [stabilityFunction, ← e]
    have := congrFun hv ⟨M - 1, by omega⟩
    rw [this, smul_mulVec]
    rfl
  rw [hl]
  simp only [sdcFactor, sdcUpdate, dif_pos hM]
  exact tendsto_pi_nhds.mp ht _

/-- C81: then `solveDahlquistSDC` succeeds for every number of sweeps, and its values tend to the ones of
`solveDahlquist` with the same coefficients, with the weights, and with the last node value if the weights are the last
row of `Q`. -/
theorem C81_values (g : QGenerator M) (A : Matrix (Fin M) (Fin M) ℝ) (lam u0 : ℂ) (tEnd : ℝ) (n : ℕ) (hn : 0 < n)
    (h : SweepsContract (lam * (tEnd / n : ℝ)) g.Q A) (mons : List String) (hm : ValidMonitors mons)
    (w : Option (Σ k, Fin k → ℝ))
    (hw : w = some ⟨M, g.weights⟩ ∨ w = none ∧ ∃ hM : 0 < M, g.weights = g.Q ⟨M - 1, by omega⟩) :
    ∃ (v : List ℂ) (out : ℕ → SDCOut M), g.solveDahlquist lam u0 tEnd n = .ok v ∧ v.length = n + 1 ∧
      (∀ K : ℕ, solveDahlquistSDC lam u0 tEnd n K g.Q (.mat M M A) w mons = .ok (out K) ∧
        (out K).uNum.length = n + 1) ∧
      ∀ i x, v[i]? = some x → Tendsto (fun K => (out K).uNum.getD i 0) atTop (𝓝 x) := by
  set z : ℂ := lam * (tEnd / n : ℝ) with hz
  have hfit : WeightsFit M w := by
    rcases hw with rfl | ⟨rfl, hM, -⟩
    · rfl
    · exact hM
  have hfac : Tendsto (fun K => sdcFactor z g.Q (fun _ => A) K w) atTop (𝓝 (stabilityFunction g.Q g.weights z)) := by
    rcases hw with rfl | ⟨rfl, hM, hr⟩
    · exact sdcFactor_tendsto h g.weights
    · rw [hr]; exact sdcFactor_tendsto_last h hM
  refine ⟨_, fun K => sdcResult (sdcData lam u0 tEnd n g.Q (fun _ => A) w) n K mons,
    C30_solveDahlquist g lam u0 tEnd n hn h.det_ne, by simp, fun K =>
    ⟨solveSDC_eq lam u0 tEnd n K hn g.Q _ _ (.same K A) w hfit mons hm fun _ _ => h.1, by simp [sdcResult]⟩, ?_⟩
  intro i x hx
  have hi : i < n + 1 := by
    by_contra hi
    rw [List.getElem?_eq_none (by simp; omega)] at hx
    cases hx
  rw [List.getElem?_map, List.getElem?_range hi] at hx
  cases hx
  have e : ∀ K, (sdcResult (sdcData lam u0 tEnd n g.Q (fun _ => A) w) n K mons).uNum.getD i 0 =
      sdcFactor z g.Q (fun _ => A) K w ^ i * u0 := by
    intro K
    simp only [sdcResult, List.getD_eq_getElem?_getD, List.getElem?_map, List.getElem?_range hi, Option.map_some,
      Option.getD_some, SDCData.vals, sdcData]
    simp only [hz, Int.cast_natCast]
  simp only [e]
  exact (hfac.pow i).mul_const u0

/-- C81: sweeps contract for every small `z = λ Δt`, with any `QΔ`. -/
theorem C81_small_steps (Q A : Matrix (Fin M) (Fin M) ℝ) : ∃ δ > 0, ∀ z : ℂ, ‖z‖ < δ → SweepsContract z Q A := by
  have h1 : Tendsto (fun z : ℂ => (1 - z • cmat A)) (𝓝 0) (𝓝 1) := by
    have : Continuous fun z : ℂ => (1 - z • cmat A) := by fun_prop
    simpa using this.tendsto 0
  have h2 : Tendsto (fun z : ℂ => (1 - z • cmat A).det) (𝓝 0) (𝓝 1) := by
    have : Continuous fun z : ℂ => (1 - z • cmat A).det := by fun_prop
    simpa using this.tendsto 0
  have h3 : ∀ᶠ z : ℂ in 𝓝 0, (1 - z • cmat A).det ≠ 0 := h2.eventually_ne one_ne_zero
  have h4 : Tendsto (fun z : ℂ => sweepMatrix z Q A) (𝓝 0) (𝓝 0) := by
    have hinv : Tendsto (fun z : ℂ => (1 - z • cmat A)⁻¹) (𝓝 0) (𝓝 1) := by
      have : (fun z : ℂ => (1 - z • cmat A)⁻¹) = fun z => (1 - z • cmat A).det⁻¹ • (1 - z • cmat A).adjugate := by
        funext z; rw [inv_def, Ring.inverse_eq_inv']
      rw [this]
      have hadj : Tendsto (fun z : ℂ => (1 - z • cmat A).adjugate) (𝓝 0) (𝓝 1) := by
        have : Continuous fun z : ℂ => (1 - z • cmat A).adjugate := by fun_prop
        simpa using this.tendsto 0
      simpa using (h2.inv₀ one_ne_zero).smul hadj
    have hm : Tendsto (fun z : ℂ => z • cmat (Q - A)) (𝓝 0) (𝓝 0) := by
      have : Continuous fun z : ℂ => z • cmat (Q - A) := by fun_prop
      simpa using this.tendsto 0
    simpa [sweepMatrix] using hinv.mul hm
  have h5 : ∀ᶠ z : ℂ in 𝓝 0, ∀ μ ∈ spectrum ℂ (sweepMatrix z Q A), ‖μ‖ < 1 :=
    spectrum_eventually h4 (fun μ hμ => by
      obtain ⟨v, hv, h⟩ := eigen_of_mem hμ
      rw [zero_mulVec, eq_comm, smul_eq_zero] at h
      rw [h.resolve_right hv]; simp)
  obtain ⟨δ, hδ, h⟩ := Metric.eventually_nhds_iff.mp (h3.and h5)
  exact ⟨δ, hδ, fun z hz => h (by simpa using hz)⟩

/-- Instance of `C81_values`: any generator and any sweep matrix, with a step that is small enough. -/
example (g : QGenerator M) (A : Matrix (Fin M) (Fin M) ℝ) : ∃ δ > 0, ∀ lam : ℂ, ‖lam * ((1 : ℝ) / (2 : ℕ) : ℝ)‖ < δ →
    ∃ (v : List ℂ) (out : ℕ → SDCOut M), g.solveDahlquist lam 1 1 (2 : ℕ) = .ok v ∧ v.length = 3 ∧
      ∀ i x, v[i]? = some x → Tendsto (fun K => (out K).uNum.getD i 0) atTop (𝓝 x) := by
  obtain ⟨δ, hδ, h⟩ := C81_small_steps g.Q A
  refine ⟨δ, hδ, fun lam hl => ?_⟩
  obtain ⟨v, out, h1, h2, -, h3⟩ := C81_values g A lam 1 1 2 (by norm_num) (h _ hl) [] (by simp [ValidMonitors]) _ (Or.inl rfl)
  exact ⟨v, out, h1, h2, h3⟩

/-- Instance: any two matrices, a small negative number. -/
example (Q A : Matrix (Fin M) (Fin M) ℝ) : ∃ z : ℂ, z.re < 0 ∧ SweepsContract z Q A := by
  obtain ⟨δ, hδ, h⟩ := C81_small_steps Q A
  refine ⟨((-δ / 2 : ℝ) : ℂ), by rw [Complex.ofReal_re]; linarith, h _ ?_⟩
  rw [Complex.norm_real, Real.norm_eq_abs, abs_of_neg (by linarith)]
  linarith

/-- C81: sweeps contract for every large `z = λ Δt` if all eigenvalues of `I - QΔ⁻¹ Q` have modulus less than one. -/
theorem C81_stiff (Q A : Matrix (Fin M) (Fin M) ℝ) (hA : A.det ≠ 0)
    (h : ∀ μ ∈ spectrum ℂ (cmat (1 - A⁻¹ * Q)), ‖μ‖ < 1) : ∃ R, ∀ z : ℂ, R < ‖z‖ → SweepsContract z Q A := by
  have hdA : (cmat A).det ≠ 0 := by
    have : (cmat A).det = (A.det : ℂ) := (RingHom.map_det Complex.ofRealHom A).symm
    rw [this]; exact_mod_cast hA
  -- in terms of `w = 1/z`
  let G : ℂ → Matrix (Fin M) (Fin M) ℂ := fun w => (w • 1 - cmat A)
  have hG0 : Tendsto (fun w => (G w).det) (𝓝 0) (𝓝 (-cmat A).det) := by
    have : Continuous fun w : ℂ => (w • (1 : Matrix (Fin M) (Fin M) ℂ) - cmat A).det := by fun_prop
    simpa [G] using this.tendsto 0
  have hneg : (-cmat A).det ≠ 0 := by
    rw [det_neg]
    exact mul_ne_zero (pow_ne_zero _ (by norm_num)) hdA
  have h3 : ∀ᶠ w in 𝓝 0, (G w).det ≠ 0 := hG0.eventually_ne hneg
  have hinv : Tendsto (fun w => (G w)⁻¹) (𝓝 0) (𝓝 (-cmat A)⁻¹) := by
    have : (fun w => (G w)⁻¹) = fun w => (G w).det⁻¹ • (G w).adjugate := by
      funext w; rw [inv_def, Ring.inverse_eq_inv']
    rw [this, inv_def, Ring.inverse_eq_inv']
    have hadj : Tendsto (fun w => (G w).adjugate) (𝓝 0) (𝓝 (-cmat A).adjugate) := by
      have : Continuous fun w : ℂ => (w • (1 : Matrix (Fin M) (Fin M) ℂ) - cmat A).adjugate := by fun_prop
      simpa [G] using this.tendsto 0
    exact (hG0.inv₀ hneg).smul hadj
  have hlim : Tendsto (fun w => (G w)⁻¹ * cmat (Q - A)) (𝓝 0) (𝓝 (cmat (1 - A⁻¹ * Q))) := by
    have e : (-cmat A)⁻¹ * cmat (Q - A) = cmat (1 - A⁻¹ * Q) := by
      have hu := isUnit_iff_ne_zero.mpr hneg
      have : cmat (Q - A) = (-cmat A) * cmat (1 - A⁻¹ * Q) := by
        have e1 : -cmat A = cmat (-A) := by ext i j; simp
        have e2 : cmat (-A) * cmat (1 - A⁻¹ * Q) = cmat (-A * (1 - A⁻¹ * Q)) :=
          (Matrix.map_mul (f := Complex.ofRealHom)).symm
        rw [e1, e2]
        congr 1
        rw [mul_sub, mul_one, ← mul_assoc, neg_mul, mul_nonsing_inv _ (isUnit_iff_ne_zero.mpr hA), neg_mul, one_mul]
        abel
      rw [this, ← mul_assoc, nonsing_inv_mul _ hu, one_mul]
    rw [← e]
    exact hinv.mul tendsto_const_nhds
  obtain ⟨δ, hδ, hall⟩ := Metric.eventually_nhds_iff.mp (h3.and (spectrum_eventually hlim h))
  refine ⟨1 / δ, fun z hz => ?_⟩
  have hz0 : z ≠ 0 := fun h0 => by
    rw [h0, norm_zero] at hz
    exact absurd hz (not_lt.mpr (by positivity))
  obtain ⟨h6, h7⟩ := hall (y := z⁻¹) (by
    rw [dist_zero_right, norm_inv, inv_lt_comm₀ (norm_pos_iff.mpr hz0) hδ, ← one_div]; exact hz)
  have e : 1 - z • cmat A = z • G z⁻¹ := by
    simp only [G]
    rw [smul_sub, smul_smul, mul_inv_cancel₀ hz0, one_smul]
  have hdet : (1 - z • cmat A).det ≠ 0 := by
    rw [e, det_smul]
    exact mul_ne_zero (pow_ne_zero _ hz0) h6
  refine ⟨hdet, ?_⟩
  have e2 : sweepMatrix z Q A = (G z⁻¹)⁻¹ * cmat (Q - A) := by
    have hu := isUnit_iff_ne_zero.mpr hdet
    have h8 : (1 - z • cmat A) * ((G z⁻¹)⁻¹ * cmat (Q - A)) = z • cmat (Q - A) := by
      rw [e, smul_mul, ← mul_assoc, mul_nonsing_inv _ (isUnit_iff_ne_zero.mpr h6), one_mul]
    rw [sweepMatrix, ← h8, ← mul_assoc, nonsing_inv_mul _ hu, one_mul]
  rw [e2]
  exact h7

/-- Instance: the exact sweep, for which the matrix of the errors is zero. -/
example : ∃ R, ∀ z : ℂ, R < ‖z‖ → SweepsContract z !![(1/2:ℝ)] !![(1/2:ℝ)] :=
  C81_stiff _ _ (by norm_num [Matrix.det_fin_one]) (fun μ hμ => by
    rw [nonsing_inv_mul _ (by norm_num [Matrix.det_fin_one]), sub_self] at hμ
    obtain ⟨v, hv, h⟩ := eigen_of_mem hμ
    have h0 : v 0 ≠ 0 := fun h0 => hv (funext fun i => by rw [Subsingleton.elim i 0]; exact h0)
    have := congrFun h 0
    simp [cmat, mulVec, dotProduct, h0] at this
    rw [this]; norm_num)

theorem mem_spectrum_of_eigen {A : Matrix (Fin M) (Fin M) ℂ} {μ : ℂ} {v : Fin M → ℂ} (hv : v ≠ 0)
    (h : A *ᵥ v = μ • v) : μ ∈ spectrum ℂ A := by
  rw [spectrum.mem_iff, Matrix.isUnit_iff_isUnit_det, isUnit_iff_ne_zero, not_not]
  refine Matrix.exists_mulVec_eq_zero_iff.mp ⟨v, hv, ?_⟩
  rw [Matrix.sub_mulVec, h, Matrix.algebraMap_eq_diagonal, sub_eq_zero]
  ext i
  rw [Matrix.mulVec_diagonal]
  rfl

theorem pow_mulVec_eigen {A : Matrix (Fin M) (Fin M) ℂ} {μ : ℂ} {v : Fin M → ℂ} (h : A *ᵥ v = μ • v) (k : ℕ) :
    A ^ k *ᵥ v = μ ^ k • v := by
  induction k with
  | zero => simp
  | succ k ih => rw [pow_succ', ← mulVec_mulVec, ih, mulVec_smul, h, smul_smul, pow_succ]

/-- C81: the error decreases at least as fast as the powers of any bound of the eigenvalues. -/
theorem C81_rate (z : ℂ) (Q A : Matrix (Fin M) (Fin M) ℝ) (hd : (1 - z • cmat A).det ≠ 0) (ρ : ℝ) (hρ : 0 < ρ)
    (h : ∀ μ ∈ spectrum ℂ (sweepMatrix z Q A), ‖μ‖ < ρ) (u : ℂ) (U : ℕ → Fin M → ℂ)
    (hU : ∀ K, SDCIterates z Q (fun _ => A) K u U) (v : Fin M → ℂ) (hv : IsCollocationSolution z Q u v) :
    ∃ C, ∀ K i, ‖U K i - v i‖ ≤ C * ρ ^ K := by
  have hc : (ρ : ℂ) ≠ 0 := by exact_mod_cast hρ.ne'
  have h1 : ∀ μ ∈ spectrum ℂ ((ρ : ℂ)⁻¹ • sweepMatrix z Q A), ‖μ‖ < 1 := fun μ hμ => by
    obtain ⟨w, hw, e⟩ := eigen_of_mem hμ
    have e2 : sweepMatrix z Q A *ᵥ w = (ρ * μ) • w := by
      rw [mul_smul, ← e, smul_mulVec, smul_smul, mul_inv_cancel₀ hc, one_smul]
    have := h _ (mem_spectrum_of_eigen hw e2)
    rw [norm_mul, Complex.norm_real, Real.norm_of_nonneg hρ.le] at this
    exact lt_of_mul_lt_mul_left (this.trans_eq (mul_one ρ).symm) hρ.le
  have ht := (pow_mulVec_tendsto h1 (U 0 - v)).norm
  obtain ⟨C, hC⟩ := ht.bddAbove_range
  refine ⟨C, fun K i => ?_⟩
  have := (norm_le_pi_norm _ i).trans (hC ⟨K, rfl⟩)
  rw [smul_pow, smul_mulVec, ← iterates_error hd hU hv, Pi.smul_apply, norm_smul, norm_pow, norm_inv,
    Complex.norm_real, Real.norm_of_nonneg hρ.le, inv_pow, inv_mul_le_iff₀ (by positivity)] at this
  rw [mul_comm]
  exact this

theorem IntegratesMonomials.pow_one {x : Fin M → ℝ} {Q : Matrix (Fin M) (Fin M) ℝ} (hQ : IntegratesMonomials x Q)
    (j : ℕ) (hj : j < M) : (fun i => ((x i : ℂ)) ^ j) = (j.factorial : ℂ) • (cmat Q ^ j *ᵥ fun _ => 1) := by
  induction j with
  | zero => simp
  | succ j ih =>
    have e : (fun i => (x i : ℂ) ^ (j + 1)) = ((j:ℂ) + 1) • (cmat Q *ᵥ fun i => (x i : ℂ) ^ j) := by
      funext i
      have h := hQ j (by omega) i
      have h2 : (cmat Q *ᵥ fun i => (x i : ℂ) ^ j) i = ((Q *ᵥ fun l => x l ^ j) i : ℝ) := by
        simp [mulVec, dotProduct]
      have h3 : ((j : ℂ) + 1) ≠ 0 := by exact_mod_cast Nat.succ_ne_zero j
      rw [Pi.smul_apply, h2, h, smul_eq_mul]
      push_cast
      field_simp
    rw [e, ih (by omega), mulVec_smul, smul_smul, mulVec_mulVec, ← pow_succ', Nat.factorial_succ]
    push_cast
    ring_nf

/-- C81: Picard iteration (`QΔ = 0`, name `PIC`) on a collocation method converges exactly when all eigenvalues of `z Q`
have modulus less than one. -/
theorem C81_picard (ext : ExternalNum) {nt qt : String} {b : ℝ} (hb : 0 < b) (c : Collocation M)
    (hc : Collocation.new M nt qt 0 b = .ok c) (k : Option ℤ) (z u : ℂ) (hu : u ≠ 0) :
    ∃ A : Matrix (Fin M) (Fin M) ℝ, getQD ext "PIC" (kwQ c.Q) k = .ok ⟨M, A⟩ ∧
      ∀ U : ℕ → Fin M → ℂ, (∀ K, SDCIterates z c.Q (fun _ => A) K u U) →
        ((∃ v, Tendsto U atTop (𝓝 v)) ↔ ∀ μ ∈ spectrum ℂ (z • cmat c.Q), ‖μ‖ < 1) := by
  refine ⟨0, (C48_Q_based ext c.Q k).1, fun U hU => ?_⟩
  have e0 : (1 - z • cmat (0 : Matrix (Fin M) (Fin M) ℝ)) = 1 := by
    have : cmat (0 : Matrix (Fin M) (Fin M) ℝ) = 0 := by ext i j; simp
    rw [this, smul_zero, sub_zero]
  have hs : sweepMatrix z c.Q 0 = z • cmat c.Q := by
    rw [sweepMatrix, e0, inv_one, one_mul, sub_zero]
  have hd : (1 - z • cmat (0 : Matrix (Fin M) (Fin M) ℝ)).det ≠ 0 := by rw [e0, det_one]; exact one_ne_zero
  constructor
  · rintro ⟨v, hv⟩ μ hμ
    obtain ⟨hx, hQ⟩ := coll_monomials hb hc
    -- the increments
    have hstep : ∀ K, U (K + 1) = (fun _ => u) + (z • cmat c.Q) *ᵥ U K := fun K => by
      have := (hU (K + 1)).sweep K (Nat.lt_succ_self K)
      rw [e0, one_mulVec, sub_zero] at this
      exact this
    have hinc : ∀ K, U (K + 1) - U K = (z • cmat c.Q) ^ (K + 1) *ᵥ fun _ => u := by
      intro K
      induction K with
      | zero =>
        rw [hstep 0, (hU 0).copy, zero_add, pow_one, add_sub_cancel_left]
      | succ K ih =>
        rw [pow_succ', ← mulVec_mulVec, ← ih, mulVec_sub]
        conv_lhs => rw [hstep (K + 1)]
        conv_lhs => rw [hstep K]
        conv_rhs => rw [hstep K]
        abel
    have hinc0 : Tendsto (fun K => (z • cmat c.Q) ^ (K + 1) *ᵥ fun _ => u) atTop (𝓝 0) := by
      simp only [← hinc]
      simpa using ((tendsto_add_atTop_iff_nat 1).mpr hv).sub hv
    have hone : Tendsto (fun K => (z • cmat c.Q) ^ K *ᵥ fun _ => (1:ℂ)) atTop (𝓝 0) := by
      rw [← tendsto_add_atTop_iff_nat 1]
      have h2 := hinc0.const_smul u⁻¹
      rw [smul_zero] at h2
      refine h2.congr fun K => ?_
      rw [← mulVec_smul]
      congr 1
      funext i
      simp [hu]
    have hmono : ∀ j, j < M → Tendsto (fun K => (z • cmat c.Q) ^ K *ᵥ fun i => (c.nodes i : ℂ) ^ j) atTop (𝓝 0) := by
      intro j hj
      rw [hQ.pow_one j hj]
      have h3 : Continuous fun w : Fin M → ℂ => (j.factorial : ℂ) • (cmat c.Q ^ j *ᵥ w) := by fun_prop
      have h4 := (h3.tendsto 0).comp hone
      rw [mulVec_zero, smul_zero] at h4
      refine h4.congr fun K => ?_
      simp only [Function.comp]
      rw [mulVec_smul, mulVec_mulVec, mulVec_mulVec, smul_pow, mul_smul_comm, smul_mul, ← pow_add, ← pow_add, add_comm]
    obtain ⟨w, hw, e⟩ := eigen_of_mem hμ
    have hw0 : Tendsto (fun K => (z • cmat c.Q) ^ K *ᵥ w) atTop (𝓝 0) := by
      obtain ⟨a, ha⟩ := exists_monomial_coeffs hx fun i => (w i).re
      obtain ⟨a', ha'⟩ := exists_monomial_coeffs hx fun i => (w i).im
      have e3 : w = ∑ j : Fin M, ((a j : ℂ) + a' j * Complex.I) • fun i => (c.nodes i : ℂ) ^ (j : ℕ) := by
        funext i
        rw [Finset.sum_apply]
        simp only [Pi.smul_apply, smul_eq_mul]
        rw [← Complex.re_add_im (w i), ha i, ha' i]
        push_cast
        rw [Finset.sum_mul, ← Finset.sum_add_distrib]
        exact Finset.sum_congr rfl fun j _ => by ring
      rw [e3]
      simp only [mulVec_sum, mulVec_smul]
      have := tendsto_finsetSum (Finset.univ : Finset (Fin M)) fun j _ =>
        (hmono j j.2).const_smul ((a j : ℂ) + a' j * Complex.I)
      simpa using this
    simp only [pow_mulVec_eigen e] at hw0
    obtain ⟨i, hi⟩ := Function.ne_iff.mp hw
    have h5 := (tendsto_pi_nhds.mp hw0 i).mul_const (w i)⁻¹
    simp only [Pi.smul_apply, smul_eq_mul, mul_assoc, Pi.zero_apply] at h5
    rw [mul_inv_cancel₀ hi, zero_mul] at h5
    simp only [mul_one] at h5
    exact tendsto_pow_atTop_nhds_zero_iff_norm_lt_one.mp h5
  · intro h
    obtain ⟨v, -, -, hv⟩ := C81_iterates z c.Q 0 ⟨hd, by rw [hs]; exact h⟩ u U hU
    exact ⟨v, hv⟩

/-! ## The hypotheses are satisfiable -/

-- C81_iterates, C81_values, C81_rate: the implicit midpoint rule, swept with the backward Euler coefficient
example : SweepsContract (-1) !![(1/2:ℝ)] !![(1:ℝ)] := by
  have hd : (1 - (-1:ℂ) • cmat !![(1:ℝ)]).det = 2 := by
    simp only [Matrix.det_fin_one, Matrix.sub_apply, Matrix.smul_apply, cmat, Matrix.map_apply]
    norm_num
  refine ⟨by rw [hd]; exact two_ne_zero, fun μ hμ => ?_⟩
  have e : (1 - (-1:ℂ) • cmat !![(1:ℝ)]) * sweepMatrix (-1) !![(1/2:ℝ)] !![(1:ℝ)] =
      (-1:ℂ) • cmat (!![(1/2:ℝ)] - !![(1:ℝ)]) := by
    rw [sweepMatrix, ← mul_assoc, mul_nonsing_inv _ (isUnit_iff_ne_zero.mpr (by rw [hd]; exact two_ne_zero)), one_mul]
  obtain ⟨v, hv, h⟩ := eigen_of_mem hμ
  have h0 : v 0 ≠ 0 := fun h0 => hv (funext fun i => by rw [Subsingleton.elim i 0]; exact h0)
  have e1 := congrFun (congrArg (fun B => B *ᵥ v) e) 0
  simp only [← mulVec_mulVec, h] at e1
  simp [mulVec, dotProduct, Matrix.sub_apply, Matrix.smul_apply] at e1
  have e2 : μ = 1 / 4 := mul_right_cancel₀ h0 (by linear_combination e1 / 2)
  rw [e2]; norm_num

end QMat
