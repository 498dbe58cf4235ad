import Verif.Lemmas.SDC
import Verif.Props.Dahlquist

/-!
# C56-C59: SDC sweeps on Dahlquist's equation
-/

namespace QMat

open Matrix Spec

variable {M : ℕ}

/-- The matrices of the sweeps meant by a `QDelta` argument: one matrix for all of them, or a stack
with one matrix per sweep. -/
inductive SweepMatrices (M : ℕ) : ℤ → SDCQDelta → (ℕ → Matrix (Fin M) (Fin M) ℝ) → Prop
  | same (nSweeps : ℕ) (A : Matrix (Fin M) (Fin M) ℝ) : SweepMatrices M nSweeps (.mat M M A) fun _ => A
  | each (nSweeps : ℕ) (A : Fin nSweeps → Matrix (Fin M) (Fin M) ℝ) :
      SweepMatrices M nSweeps (.stack nSweeps M M A) fun k => if h : k < nSweeps then A ⟨k, h⟩ else 0

/-- The value `u'` after a step from `u` with node values `U`: the last node value if there are no
weights, `u + z wᵀ U` otherwise. -/
inductive StepUpdate (z : ℂ) (u : ℂ) (U : Fin M → ℂ) : Option (Σ k, Fin k → ℝ) → ℂ → Prop
  | lastNode (h : 0 < M) : StepUpdate z u U none (U ⟨M - 1, by omega⟩)
  | quadrature (w : Fin M → ℝ) : StepUpdate z u U (some ⟨M, w⟩) (u + z * ∑ i, (w i : ℂ) * U i)

theorem sweepMatrices_iff (nSweeps : ℤ) (QD : SDCQDelta) (f : ℕ → Matrix (Fin M) (Fin M) ℝ) :
    sdcQDelta M nSweeps QD = .ok f ↔ SweepMatrices M nSweeps QD f := by
  constructor
  · intro h
    cases QD with
    | mat r c A =>
      simp only [sdcQDelta] at h
      split_ifs at h with h1 h2
      obtain ⟨rfl, rfl⟩ := h1
      cases h
      obtain ⟨n, rfl⟩ := Int.eq_ofNat_of_zero_le (not_lt.mp h2)
      exact .same n A
    | stack s r c A =>
      simp only [sdcQDelta] at h
      split_ifs at h with h1
      obtain ⟨rfl, rfl, rfl⟩ := h1
      cases h
      exact .each s A
    | other => cases h
  · intro h
    cases h with
    | same n A => simp [sdcQDelta]
    | each n A => simp [sdcQDelta]

theorem sweepMatrices_nonneg {nSweeps : ℤ} {QD : SDCQDelta} {f : ℕ → Matrix (Fin M) (Fin M) ℝ}
    (h : SweepMatrices M nSweeps QD f) : 0 ≤ nSweeps := by
  cases h with
  | same n A => omega
  | each n A => omega

theorem stepUpdate_iff {z u u' : ℂ} {U : Fin M → ℂ} {w : Option (Σ k, Fin k → ℝ)} :
    StepUpdate z u U w u' ↔ WeightsFit M w ∧ u' = sdcUpdate z w u U := by
  constructor
  · intro h
    cases h with
    | lastNode h => exact ⟨h, by simp [sdcUpdate, h]⟩
    | quadrature w => exact ⟨rfl, by simp [sdcUpdate]⟩
  · rintro ⟨hw, rfl⟩
    cases w with
    | none =>
      have hM : 0 < M := hw
      simp only [sdcUpdate, hM, dif_pos]
      exact .lastNode hM
    | some w =>
      obtain ⟨k, w⟩ := w
      have : k = M := hw
      subst this
      simp only [sdcUpdate, dif_pos, Fin.cast_eq_self]
      exact .quadrature w

/-- The quantities of a call that stay fixed. -/
noncomputable def sdcData (lam u0 : ℂ) (tEnd : ℝ) (nSteps : ℤ) (Q : Matrix (Fin M) (Fin M) ℝ)
    (f : ℕ → Matrix (Fin M) (Fin M) ℝ) (w : Option (Σ k, Fin k → ℝ)) : SDCData M :=
  ⟨lam, u0, tEnd / nSteps, Q, f, fun i => ∑ j, Q i j, fun i => i * (tEnd / nSteps), w⟩

/-- The loops of a call. -/
noncomputable def sdcLoops (d : SDCData M) (K n : ℕ) (mons : List String) (mon : SDCMonitors M) :
    PyResult (SDCOut M) := do
  let (uNum, mon) ← (List.range n).foldlM (d.step K) (Function.update (fun _ => 0) 0 d.u0, mon)
  return { uNum := (List.range (n + 1)).map uNum
           monitors := if mons = [] then none else some mon }

theorem solveSDC_unfold (lam u0 : ℂ) (tEnd : ℝ) (n : ℕ) (hn : 0 < n) (nSweeps : ℤ)
    (Q : Matrix (Fin M) (Fin M) ℝ) (QD : SDCQDelta) (w : Option (Σ k, Fin k → ℝ))
    (mons : List String) :
    solveDahlquistSDC lam u0 tEnd n nSweeps Q QD w mons =
      (sdcQDelta M nSweeps QD >>= fun f => setupMonitors M mons >>= fun mon =>
        sdcLoops (sdcData lam u0 tEnd n Q f w) nSweeps.toNat n mons mon) := by
  have h1 : ¬ ((n : ℤ) = 0) := by omega
  have h2 : ¬ ((n : ℤ) + 1 < 0) := by omega
  have h3 : ¬ ((n : ℤ) + 1 = 0) := by omega
  unfold solveDahlquistSDC
  rw [if_neg h1, if_neg h2]
  cases sdcQDelta M nSweeps QD with
  | error e => rfl
  | ok f => 
    simp only [h3, if_false, Int.toNat_natCast]
    rfl

theorem solveSDC_nonpos (lam u0 : ℂ) (tEnd : ℝ) (nSteps nSweeps : ℤ) (hn : nSteps ≤ 0)
    (Q : Matrix (Fin M) (Fin M) ℝ) (QD : SDCQDelta) (w : Option (Σ k, Fin k → ℝ)) :
    ∃ e, ∀ mons, solveDahlquistSDC lam u0 tEnd nSteps nSweeps Q QD w mons = .error e := by
  by_cases h1 : nSteps = 0
  · subst h1
    exact ⟨.zeroDivisionError, fun _ => rfl⟩
  by_cases h2 : nSteps + 1 < 0
  · refine ⟨.valueError, fun _ => ?_⟩
    unfold solveDahlquistSDC
    rw [if_neg h1, if_pos h2]
    rfl
  · have h3 : nSteps + 1 = 0 := by omega
    cases h : sdcQDelta M nSweeps QD with
    | error e =>
      refine ⟨e, fun _ => ?_⟩
      unfold solveDahlquistSDC
      rw [if_neg h1, if_neg h2, h]
      rfl
    | ok f =>
      refine ⟨.indexError, fun _ => ?_⟩
      unfold solveDahlquistSDC
      rw [if_neg h1, if_neg h2, h]
      simp only [bind, Except.bind, h3, if_true]
      rfl

/-- The value of `solveDahlquistSDC` when it succeeds. -/
noncomputable def sdcResult (d : SDCData M) (n K : ℕ) (mons : List String) : SDCOut M where
  uNum := (List.range (n + 1)).map (d.vals K)
  monitors := if mons = [] then none else some
      { residuals := if "residuals" ∈ mons then some fun k i => if k ≤ K ∧ i < n then
          d.resid (d.vals K i) (sdcIter (d.lam * d.dt) d.Q d.QDelta (d.vals K i) k) else 0 else none
        errors := if "errors" ∈ mons then some fun k i => if k ≤ K ∧ i < n then
          d.err i (sdcIter (d.lam * d.dt) d.Q d.QDelta (d.vals K i) k) else 0 else none }

/-- All keys are known monitors. -/
def ValidMonitors (mons : List String) : Prop := ∀ k ∈ mons, k = "residuals" ∨ k = "errors"

/-- The monitors before the loops. -/
def initMonitors (M : ℕ) (mons : List String) : SDCMonitors M where
  residuals := if "residuals" ∈ mons then some fun _ _ _ => 0 else none
  errors := if "errors" ∈ mons then some fun _ _ _ => 0 else none

theorem setupMonitors_valid {mons : List String} (hm : ValidMonitors mons) :
    setupMonitors M mons = .ok (initMonitors M mons) := by
  rw [setupMonitors_eq]
  exact if_pos hm

theorem setupMonitors_invalid {mons : List String} (hm : ¬ ValidMonitors mons) :
    setupMonitors M mons = .error .assertionError := by
  rw [setupMonitors_eq]
  exact if_neg hm

theorem sdcLoops_eq (d : SDCData M) (K n : ℕ) (mons : List String) (hw : WeightsFit M d.weights)
    (h : ∀ k < K, (d.P k).det ≠ 0) :
    sdcLoops d K n mons (initMonitors M mons) = .ok (sdcResult d n K mons) := by
  unfold sdcLoops
  rw [d.steps_eq K hw h]
  simp only [sdcResult, SDCData.mons_eq, bind, Except.bind, pure, Except.pure, initMonitors]
  congr 2
  · refine List.map_congr_left fun i hi => ?_
    rw [if_pos (by simpa [Nat.lt_succ_iff] using hi)]
  · split_ifs <;> rfl

theorem sdcP (lam u0 : ℂ) (tEnd : ℝ) (n : ℕ) (Q : Matrix (Fin M) (Fin M) ℝ)
    (f : ℕ → Matrix (Fin M) (Fin M) ℝ) (w : Option (Σ k, Fin k → ℝ)) (k : ℕ) :
    (sdcData lam u0 tEnd n Q f w).P k = 1 - (lam * (tEnd / n : ℝ)) • cmat (f k) := by
  simp [SDCData.P, sdcData]

theorem solveSDC_eq (lam u0 : ℂ) (tEnd : ℝ) (n K : ℕ) (hn : 0 < n) (Q : Matrix (Fin M) (Fin M) ℝ)
    (QD : SDCQDelta) (f : ℕ → Matrix (Fin M) (Fin M) ℝ) (hQD : SweepMatrices M K QD f)
    (w : Option (Σ k, Fin k → ℝ)) (hw : WeightsFit M w) (mons : List String) (hm : ValidMonitors mons)
    (hdet : ∀ k < K, (1 - (lam * (tEnd / n : ℝ)) • cmat (f k)).det ≠ 0) :
    solveDahlquistSDC lam u0 tEnd n K Q QD w mons =
      .ok (sdcResult (sdcData lam u0 tEnd n Q f w) n K mons) := by
  rw [solveSDC_unfold _ _ _ _ hn, (sweepMatrices_iff _ _ _).mpr hQD, setupMonitors_valid hm]
  exact sdcLoops_eq _ K n mons hw fun k hk => by rw [sdcP]; exact hdet k hk

/-- Success means valid arguments and regular sweep matrices. -/
theorem solveSDC_ok {lam u0 : ℂ} {tEnd : ℝ} {nSteps nSweeps : ℤ} {Q : Matrix (Fin M) (Fin M) ℝ}
    {QD : SDCQDelta} {w : Option (Σ k, Fin k → ℝ)} {mons : List String} {out : SDCOut M}
    (h : solveDahlquistSDC lam u0 tEnd nSteps nSweeps Q QD w mons = .ok out) :
    ∃ (n K : ℕ) (f : ℕ → Matrix (Fin M) (Fin M) ℝ), nSteps = n ∧ nSweeps = K ∧ 0 < n ∧
      SweepMatrices M K QD f ∧ WeightsFit M w ∧ ValidMonitors mons ∧
      (∀ k < K, (1 - (lam * (tEnd / n : ℝ)) • cmat (f k)).det ≠ 0) ∧
      out = sdcResult (sdcData lam u0 tEnd n Q f w) n K mons := by
  have hn : 0 < nSteps := by
    by_contra hn
    obtain ⟨e, he⟩ := solveSDC_nonpos lam u0 tEnd nSteps nSweeps (not_lt.mp hn) Q QD w
    rw [he] at h
    cases h
  obtain ⟨n, rfl⟩ := Int.eq_ofNat_of_zero_le hn.le
  have hn : 0 < n := by omega
  have h' := h
  rw [solveSDC_unfold _ _ _ _ hn] at h
  obtain ⟨f, hf, h⟩ := bind_ok h
  obtain ⟨mon, hmon, h⟩ := bind_ok h
  have hQD := (sweepMatrices_iff _ _ _).mp hf
  obtain ⟨K, rfl⟩ := Int.eq_ofNat_of_zero_le (sweepMatrices_nonneg hQD)
  have hm : ValidMonitors mons := by
    by_contra hm
    rw [setupMonitors_invalid hm] at hmon
    cases hmon
  have hok : WeightsFit M w ∧ ∀ k < K, (1 - (lam * (tEnd / n : ℝ)) • cmat (f k)).det ≠ 0 := by
    by_contra hcon
    have : ¬ WeightsFit M w ∨ ∃ k < K, ((sdcData lam u0 tEnd n Q f w).P k).det = 0 := by
      by_cases hw : WeightsFit M w
      · right
        by_contra hk
        push Not at hk
        exact hcon ⟨hw, fun k hkK => by rw [← sdcP lam u0 tEnd n Q f w]; exact hk k hkK⟩
      · exact Or.inl hw
    obtain ⟨s, hs, h⟩ := bind_ok h
    obtain ⟨e, he⟩ := SDCData.steps_error (sdcData lam u0 tEnd n Q f w) K this
      (Function.update (fun _ => 0) 0 (sdcData lam u0 tEnd n Q f w).u0, mon) n hn
    rw [Int.toNat_natCast, he] at hs
    cases hs
  refine ⟨n, K, f, rfl, rfl, hn, hQD, hok.1, hm, hok.2, ?_⟩
  rw [solveSDC_eq lam u0 tEnd n K hn Q QD f hQD w hok.1 mons hm hok.2] at h'
  cases h'
  rfl

theorem sdcVals_succ (d : SDCData M) (K i : ℕ) :
    d.vals K (i + 1) = sdcUpdate (d.lam * d.dt) d.weights (d.vals K i)
      (sdcIter (d.lam * d.dt) d.Q d.QDelta (d.vals K i) K) := by
  rw [sdcIter_smul, sdcUpdate_smul]
  simp only [SDCData.vals, sdcFactor, pow_succ]
  ring

/-! ## C56 -/

/-- C56: what `solveDahlquistSDC` computes when it returns: `nSteps + 1` values starting with `u0`, and
every step runs `nSweeps` sweeps from the copy of the value, `(I - z QΔ_k) u^{k+1} = u + z (Q - QΔ_k) u^k`,
and takes the last node value or the quadrature of the last iterate. -/
theorem C56_sweeps (lam u0 : ℂ) (tEnd : ℝ) (nSteps nSweeps : ℤ) (Q : Matrix (Fin M) (Fin M) ℝ)
    (QD : SDCQDelta) (w : Option (Σ k, Fin k → ℝ)) (mons : List String) (out : SDCOut M)
    (h : solveDahlquistSDC lam u0 tEnd nSteps nSweeps Q QD w mons = .ok out) :
    0 < nSteps ∧ 0 ≤ nSweeps ∧ out.uNum.length = nSteps.toNat + 1 ∧ out.uNum[0]? = some u0 ∧
    ∃ f, SweepMatrices M nSweeps QD f ∧ ∀ i < nSteps.toNat, ∃ u u' U,
      out.uNum[i]? = some u ∧ out.uNum[i + 1]? = some u' ∧
      SDCIterates (lam * (tEnd / nSteps : ℝ)) Q f nSweeps.toNat u U ∧
      StepUpdate (lam * (tEnd / nSteps : ℝ)) u (U nSweeps.toNat) w u' := by
  obtain ⟨n, K, f, rfl, rfl, hn, hQD, hw, hm, hdet, rfl⟩ := solveSDC_ok h
  refine ⟨by omega, by omega, by simp [sdcResult], by simp [sdcResult, SDCData.vals, sdcData], f, hQD,
    fun i hi => ?_⟩
  simp only [Int.toNat_natCast] at hi ⊢
  refine ⟨(sdcData lam u0 tEnd n Q f w).vals K i, (sdcData lam u0 tEnd n Q f w).vals K (i + 1),
    sdcIter (lam * (tEnd / (n : ℤ) : ℝ)) Q f _, ?_, ?_, sdcIter_iterates ?_ _, ?_⟩
  · simp only [sdcResult]
    rw [List.getElem?_map, List.getElem?_range (by omega)]
    rfl
  · simp only [sdcResult]
    rw [List.getElem?_map, List.getElem?_range (by omega)]
    rfl
  · exact fun k hk => by simpa using hdet k hk
  · rw [stepUpdate_iff]
    exact ⟨hw, sdcVals_succ _ K i⟩

/-- C56: the sweeps determine the iterates: when all the matrices `I - z QΔ_k` are regular there is
exactly one sequence of iterates from a given value. -/
theorem C56_iterates_unique (z : ℂ) (Q : Matrix (Fin M) (Fin M) ℝ)
    (f : ℕ → Matrix (Fin M) (Fin M) ℝ) (K : ℕ) (h : ∀ k < K, (1 - z • cmat (f k)).det ≠ 0) (u : ℂ) :
    (∃ U, SDCIterates z Q f K u U) ∧ ∀ U U', SDCIterates z Q f K u U → SDCIterates z Q f K u U' →
      ∀ k ≤ K, U k = U' k :=
  ⟨⟨_, sdcIter_iterates h u⟩, fun _ _ hU hU' k hk => (SDCIterates.eq h hU k hk).trans (SDCIterates.eq h hU' k hk).symm⟩

/-- C56: the error to the collocation solution follows
`(I - z QΔ_k)(u^{k+1} - u*) = z (Q - QΔ_k)(u^k - u*)`. -/
theorem C56_error_recursion (z : ℂ) (Q : Matrix (Fin M) (Fin M) ℝ)
    (f : ℕ → Matrix (Fin M) (Fin M) ℝ) (K : ℕ) (u : ℂ) (U : ℕ → Fin M → ℂ)
    (hU : SDCIterates z Q f K u U) (v : Fin M → ℂ) (hv : IsCollocationSolution z Q u v)
    (k : ℕ) (hk : k < K) :
    (1 - z • cmat (f k)) *ᵥ (U (k + 1) - v) = (z • cmat (Q - f k)) *ᵥ (U k - v) := by
  have e : (z • cmat (Q - f k)) = z • cmat Q - z • cmat (f k) := by
    rw [← smul_sub]
    congr 1
    ext i j
    simp
  rw [Matrix.mulVec_sub, Matrix.mulVec_sub, hU.sweep k hk, e]
  simp only [Matrix.sub_mulVec, Matrix.one_mulVec]
  unfold IsCollocationSolution at hv
  generalize (z • cmat Q) *ᵥ v = q at hv
  rw [hv]
  abel

/-- C56: the collocation solution is the only fixed point of a sweep: an iterate that is the
collocation solution stays it, and an iterate that a sweep does not change is it. -/
theorem C56_fixed_point (z : ℂ) (Q : Matrix (Fin M) (Fin M) ℝ)
    (f : ℕ → Matrix (Fin M) (Fin M) ℝ) (K : ℕ) (u : ℂ) (U : ℕ → Fin M → ℂ)
    (hU : SDCIterates z Q f K u U) (k : ℕ) (hk : k < K) (hdet : (1 - z • cmat (f k)).det ≠ 0) :
    IsCollocationSolution z Q u (U k) ↔ U (k + 1) = U k := by
  constructor
  · intro hv
    have := C56_error_recursion z Q f K u U hU (U k) hv k hk
    rw [sub_self, Matrix.mulVec_zero] at this
    have h0 := congrArg (fun x => (1 - z • cmat (f k))⁻¹ *ᵥ x) this
    simp only [Matrix.mulVec_zero, Matrix.mulVec_mulVec] at h0
    rw [Matrix.nonsing_inv_mul _ (isUnit_iff_ne_zero.mpr hdet), Matrix.one_mulVec] at h0
    exact sub_eq_zero.mp h0
  · intro h
    have := hU.sweep k hk
    rw [h] at this
    have e : (z • cmat (Q - f k)) = z • cmat Q - z • cmat (f k) := by
      rw [← smul_sub]
      congr 1
      ext i j
      simp
    rw [e, Matrix.sub_mulVec, Matrix.sub_mulVec, Matrix.one_mulVec] at this
    unfold IsCollocationSolution
    have h2 := congrArg (fun x => x + (z • cmat (f k)) *ᵥ U k) this
    simpa [add_assoc] using h2

/-- C56: when the call succeeds, and which error it raises for singular sweeps and no steps. -/
theorem C56_total (lam u0 : ℂ) (tEnd : ℝ) (Q : Matrix (Fin M) (Fin M) ℝ) (QD : SDCQDelta)
    (w : Option (Σ k, Fin k → ℝ)) (mons : List String) (n K : ℕ)
    (f : ℕ → Matrix (Fin M) (Fin M) ℝ) (hQD : SweepMatrices M K QD f) (hm : ValidMonitors mons) :
    (0 < n → (w = none ∧ 0 < M ∨ ∃ b : Fin M → ℝ, w = some ⟨M, b⟩) →
      (∀ k < K, (1 - (lam * (tEnd / n : ℝ)) • cmat (f k)).det ≠ 0) →
      ∃ out, solveDahlquistSDC lam u0 tEnd n K Q QD w mons = .ok out) ∧
    (0 < n → (∃ k < K, (1 - (lam * (tEnd / n : ℝ)) • cmat (f k)).det = 0) →
      solveDahlquistSDC lam u0 tEnd n K Q QD w mons = .error .linAlgError) ∧
    solveDahlquistSDC lam u0 tEnd 0 K Q QD w mons = .error .zeroDivisionError := by
  refine ⟨fun hn hw hdet => ?_, fun hn hs => ?_, rfl⟩
  · have hw' : WeightsFit M w := by
      rcases hw with ⟨rfl, h⟩ | ⟨b, rfl⟩
      · exact h
      · rfl
    exact ⟨_, solveSDC_eq lam u0 tEnd n K hn Q QD f hQD w hw' mons hm hdet⟩
  · rw [solveSDC_unfold _ _ _ _ hn, (sweepMatrices_iff _ _ _).mpr hQD, setupMonitors_valid hm]
    simp only [bind, Except.bind, sdcLoops, Int.toNat_natCast]
    rw [SDCData.steps_singular _ K ?_ _ n hn]
    obtain ⟨k, hk, hs⟩ := hs
    exact ⟨k, hk, by rw [sdcP]; exact hs⟩

/-- Instance: three sweeps with one half over two steps. -/
example : ∃ out, solveDahlquistSDC (M := 1) (-1) 1 2 2 3 !![1] (.mat 1 1 !![1/2]) none ["residuals"] = .ok out :=
  (C56_total (-1) 1 2 !![1] (.mat 1 1 !![1/2]) none ["residuals"] 2 3 (fun _ => !![1/2]) (.same 3 _)
    (fun k hk => Or.inl (by simpa using hk))).1 (by norm_num) (Or.inl ⟨rfl, by norm_num⟩) (fun k _ => by
    simp only [Matrix.det_fin_one, Matrix.sub_apply, Matrix.smul_apply, cmat, Matrix.map_apply]
    norm_num)

/-! ## C57 -/

/-- C57: a sweep with `QΔ = Q` gives the collocation solution, whatever the iterate before. -/
theorem C57_exact_sweep (z : ℂ) (Q : Matrix (Fin M) (Fin M) ℝ)
    (f : ℕ → Matrix (Fin M) (Fin M) ℝ) (K : ℕ) (u : ℂ) (U : ℕ → Fin M → ℂ)
    (hU : SDCIterates z Q f K u U) (k : ℕ) (hk : k < K) (hf : f k = Q) :
    IsCollocationSolution z Q u (U (k + 1)) := by
  have := hU.sweep k hk
  rw [hf, sub_self, Matrix.sub_mulVec, Matrix.one_mulVec] at this
  have e : cmat (0 : Matrix (Fin M) (Fin M) ℝ) = 0 := by ext i j; simp
  rw [e, smul_zero, Matrix.zero_mulVec, add_zero] at this
  unfold IsCollocationSolution
  rw [← this]
  simp

/-- Instance: the second of three sweeps is exact. -/
example : ∃ U, SDCIterates (-1) !![(1:ℝ)] (fun k => if k = 1 then !![1] else !![1/2]) 3 1 U ∧
    IsCollocationSolution (-1) !![(1:ℝ)] 1 (U 2) := by
  obtain ⟨⟨U, hU⟩, -⟩ := C56_iterates_unique (-1) !![(1:ℝ)] (fun k => if k = 1 then !![1] else !![1/2]) 3
    (fun k _ => by
      simp only [Matrix.det_fin_one, Matrix.sub_apply, Matrix.smul_apply, cmat, Matrix.map_apply]
      split_ifs <;> norm_num) 1
  exact ⟨U, hU, C57_exact_sweep _ _ _ 3 1 U hU 1 (by norm_num) (by simp)⟩

theorem sdcIter_exact {z : ℂ} {Q : Matrix (Fin M) (Fin M) ℝ} {f : ℕ → Matrix (Fin M) (Fin M) ℝ} {K : ℕ}
    (hK : 0 < K) (hf : f (K - 1) = Q) (u : ℂ) :
    sdcIter z Q f u K = (1 - z • cmat Q)⁻¹ *ᵥ fun _ => u := by
  obtain ⟨k, rfl⟩ : ∃ k, K = k + 1 := ⟨K - 1, by omega⟩
  simp only [Nat.add_sub_cancel] at hf
  have e : cmat (0 : Matrix (Fin M) (Fin M) ℝ) = 0 := by ext i j; simp
  simp only [sdcIter, hf, sub_self, e, smul_zero, Matrix.zero_mulVec, Pi.zero_apply, add_zero]

/-- C57: when the last sweep uses `Q` itself, the quadrature update gives exactly what
`solveDahlquist` gives for the generator with these coefficients; the single matrix `QΔ = Q` is the
special case where the two also fail together. -/
theorem C57_equals_solveDahlquist (g : QGenerator M) (lam u0 : ℂ) (tEnd : ℝ) (n K : ℕ) (hK : 0 < K)
    (hn : 0 < n) (mons : List String) (hm : ValidMonitors mons) :
    (∀ QD f, SweepMatrices M K QD f → f (K - 1) = g.Q → ∀ out,
      solveDahlquistSDC lam u0 tEnd n K g.Q QD (some ⟨M, g.weights⟩) mons = .ok out →
      g.solveDahlquist lam u0 tEnd n = .ok out.uNum) ∧
    (solveDahlquistSDC lam u0 tEnd n K g.Q (.mat M M g.Q) (some ⟨M, g.weights⟩) mons).map
        SDCOut.uNum = g.solveDahlquist lam u0 tEnd n := by
  have main : ∀ QD f, SweepMatrices M K QD f → f (K - 1) = g.Q → ∀ out,
      solveDahlquistSDC lam u0 tEnd n K g.Q QD (some ⟨M, g.weights⟩) mons = .ok out →
      g.solveDahlquist lam u0 tEnd n = .ok out.uNum := by
    intro QD f hQD hf out h
    obtain ⟨n', K', f', e1, e2, -, hQD', -, -, hdet, rfl⟩ := solveSDC_ok h
    have e1 : n' = n := by exact_mod_cast e1.symm
    have e2 : K' = K := by exact_mod_cast e2.symm
    subst e1 e2
    have : f' = f := by
      have h1 := (sweepMatrices_iff _ _ _).mpr hQD
      have h2 := (sweepMatrices_iff _ _ _).mpr hQD'
      rw [h1] at h2
      cases h2
      rfl
    subst this
    have hd := hdet (K' - 1) (by omega)
    rw [hf] at hd
    rw [C30_solveDahlquist g lam u0 tEnd n' hn hd]
    simp only [sdcResult]
    congr 1
    refine List.map_congr_left fun i _ => ?_
    simp only [sdcData, SDCData.vals, sdcFactor, sdcIter_exact hK hf, sdcUpdate, stabilityFunction,
      dif_pos, Fin.cast_eq_self, Int.cast_natCast]
  refine ⟨main, ?_⟩
  by_cases hd : (1 - (lam * (tEnd / n : ℝ)) • cmat g.Q).det = 0
  · rw [(C30_solveDahlquist_errors g lam u0 tEnd).1 n hn hd,
      (C56_total lam u0 tEnd g.Q _ (some ⟨M, g.weights⟩) mons n K _ (.same K g.Q) hm).2.1 hn
        ⟨0, hK, hd⟩]
    rfl
  · obtain ⟨out, hout⟩ := (C56_total lam u0 tEnd g.Q _ (some ⟨M, g.weights⟩) mons n K _
      (.same K g.Q) hm).1 hn (Or.inr ⟨_, rfl⟩) fun k _ => hd
    rw [hout, main _ _ (.same K g.Q) rfl out hout]
    rfl

/-- Instance: two sweeps with the matrix of any generator, both monitors. -/
example (g : QGenerator M) : (solveDahlquistSDC (-1) 1 2 (2 : ℕ) (2 : ℕ) g.Q (.mat M M g.Q) (some ⟨M, g.weights⟩)
    ["errors", "residuals"]).map SDCOut.uNum = g.solveDahlquist (-1) 1 2 (2 : ℕ) :=
  (C57_equals_solveDahlquist g (-1) 1 2 2 2 (by norm_num) (by norm_num) _ (fun k hk => by
    simp at hk; rcases hk with rfl | rfl <;> simp)).2

/-! ## C58 -/

/-- C58: monitors do not change the numerical solution nor the errors raised. -/
theorem C58_monitors (lam u0 : ℂ) (tEnd : ℝ) (nSteps nSweeps : ℤ) (Q : Matrix (Fin M) (Fin M) ℝ)
    (QD : SDCQDelta) (w : Option (Σ k, Fin k → ℝ)) (mons : List String) (hm : ValidMonitors mons) :
    (solveDahlquistSDC lam u0 tEnd nSteps nSweeps Q QD w mons).map SDCOut.uNum =
      (solveDahlquistSDC lam u0 tEnd nSteps nSweeps Q QD w).map SDCOut.uNum := by
  by_cases hn : 0 < nSteps
  swap
  · obtain ⟨e, he⟩ := solveSDC_nonpos lam u0 tEnd nSteps nSweeps (not_lt.mp hn) Q QD w
    rw [he, he]
  obtain ⟨n, rfl⟩ := Int.eq_ofNat_of_zero_le hn.le
  have hn : 0 < n := by omega
  have hm0 : ValidMonitors [] := fun k hk => by simp at hk
  rw [solveSDC_unfold _ _ _ _ hn, solveSDC_unfold _ _ _ _ hn, setupMonitors_valid hm,
    setupMonitors_valid hm0]
  cases sdcQDelta M nSweeps QD with
  | error e => rfl
  | ok f =>
    change (sdcLoops (sdcData lam u0 tEnd n Q f w) nSweeps.toNat n mons _).map _ =
      (sdcLoops (sdcData lam u0 tEnd n Q f w) nSweeps.toNat n [] _).map _
    generalize sdcData lam u0 tEnd n Q f w = d
    generalize nSweeps.toNat = K
    by_cases hs : ∃ k < K, (d.P k).det = 0
    · unfold sdcLoops
      rw [d.steps_singular K hs _ n hn, d.steps_singular K hs _ n hn]
      rfl
    · push Not at hs
      by_cases hw : WeightsFit M d.weights
      · rw [sdcLoops_eq d K n mons hw hs, sdcLoops_eq d K n [] hw hs]
        rfl
      · obtain ⟨n, rfl⟩ : ∃ m, n = m + 1 := ⟨n - 1, by omega⟩
        obtain ⟨e, he⟩ := d.update_error hw d.u0 (sdcIter (d.lam * d.dt) d.Q d.QDelta d.u0 K)
        unfold sdcLoops
        rw [List.range_succ_eq_map, List.foldlM_cons, List.foldlM_cons]
        simp only [bind, Except.bind, SDCData.step, Function.update_self]
        rw [d.sweeps_eq _ _ _ K hs, d.sweeps_eq _ _ _ K hs]
        simp only [he]

/-- Instance: both monitors. -/
example (Q A : Matrix (Fin M) (Fin M) ℝ) : (solveDahlquistSDC (-1) 1 2 2 3 Q (.mat M M A) none
    ["errors", "residuals"]).map SDCOut.uNum = (solveDahlquistSDC (-1) 1 2 2 3 Q (.mat M M A) none).map SDCOut.uNum :=
  C58_monitors (-1) 1 2 2 3 Q (.mat M M A) none _ (fun k hk => by simp at hk; rcases hk with rfl | rfl <;> simp)

/-- C58: an unknown monitor raises `AssertionError` (when the arguments before it are valid). -/
theorem C58_unknown_monitor (lam u0 : ℂ) (tEnd : ℝ) (n : ℕ) (hn : 0 < n) (nSweeps : ℤ)
    (Q : Matrix (Fin M) (Fin M) ℝ) (QD : SDCQDelta) (f) (hQD : SweepMatrices M nSweeps QD f)
    (w : Option (Σ k, Fin k → ℝ)) (mons : List String)
    (key : String) (hkey : key ∈ mons) (h1 : key ≠ "residuals") (h2 : key ≠ "errors") :
    solveDahlquistSDC lam u0 tEnd n nSweeps Q QD w mons = .error .assertionError := by
  rw [solveSDC_unfold _ _ _ _ hn, (sweepMatrices_iff _ _ _).mpr hQD, setupMonitors_invalid]
  · rfl
  · intro h
    rcases h key hkey with h | h
    · exact h1 h
    · exact h2 h

/-- Instance: a misspelt monitor after a known one. -/
example (Q A : Matrix (Fin M) (Fin M) ℝ) : solveDahlquistSDC (-1) 1 2 (2 : ℕ) (3 : ℕ) Q (.mat M M A) none
    ["errors", "residual"] = .error .assertionError :=
  C58_unknown_monitor (-1) 1 2 2 (by norm_num) (3 : ℕ) Q _ (fun _ => A) (.same 3 A) none _ "residual" (by simp)
    (by decide) (by decide)

/-- C58: one matrix behaves as a stack of copies of it, also in the errors and monitors. -/
theorem C58_single_matrix (lam u0 : ℂ) (tEnd : ℝ) (nSteps : ℤ) (K : ℕ) (Q A : Matrix (Fin M) (Fin M) ℝ)
    (w : Option (Σ k, Fin k → ℝ)) (mons : List String) :
    solveDahlquistSDC lam u0 tEnd nSteps K Q (.mat M M A) w mons =
      solveDahlquistSDC lam u0 tEnd nSteps K Q (.stack K M M fun _ => A) w mons := by
  have hfold : ∀ (d d' : SDCData M), d'.lam = d.lam → d'.u0 = d.u0 → d'.dt = d.dt → d'.Q = d.Q →
      d'.nodes = d.nodes → d'.times = d.times → d'.weights = d.weights →
      (∀ k < K, d'.QDelta k = d.QDelta k) → ∀ (l : List ℕ) s, l.foldlM (d'.step K) s =
        l.foldlM (d.step K) s := by
    intro d d' a1 a2 a3 a4 a5 a6 a7 a8 l s
    obtain ⟨lam, u0, dt, Q, QD, nodes, times, w⟩ := d
    obtain ⟨lam', u0', dt', Q', QD', nodes', times', w'⟩ := d'
    dsimp only at a1 a2 a3 a4 a5 a6 a7 a8
    subst a1 a2 a3 a4 a5 a6 a7
    congr 1
    funext s i
    simp only [SDCData.step]
    have : ∀ (l : List ℕ) (i : ℕ) (ui : ℂ) (s : (Fin M → ℂ) × SDCMonitors M), (∀ k ∈ l, k < K) →
        l.foldlM (SDCData.sweep ⟨lam', u0', dt', Q', QD', nodes', times', w'⟩ i ui) s =
        l.foldlM (SDCData.sweep ⟨lam', u0', dt', Q', QD, nodes', times', w'⟩ i ui) s := by
      intro l i ui
      induction l with
      | nil => intros; rfl
      | cons k l ih =>
        intro s hl
        rw [List.foldlM_cons, List.foldlM_cons]
        have e : SDCData.sweep ⟨lam', u0', dt', Q', QD', nodes', times', w'⟩ i ui s k =
            SDCData.sweep ⟨lam', u0', dt', Q', QD, nodes', times', w'⟩ i ui s k := by
          simp only [SDCData.sweep, SDCData.P, SDCData.record, a8 k (hl k (by simp))]
        rw [e]
        congr 1
        funext s'
        exact ih s' fun k hk => hl k (by simp [hk])
    have hr := this (List.range K) i (s.1 i) ((fun _ => s.1 i), SDCData.record ⟨lam', u0', dt', Q', QD', nodes', times', w'⟩ 0 i (s.1 i) (fun _ => s.1 i) s.2) (by simp)
    rw [hr]
    rfl
  unfold solveDahlquistSDC
  simp only [(sweepMatrices_iff _ _ _).mpr (SweepMatrices.same K A),
    (sweepMatrices_iff _ _ _).mpr (SweepMatrices.each K fun _ => A), Int.toNat_natCast]
  simp only [bind, Except.bind]
  have hf := fun tEnd' l s => hfold
    ⟨lam, u0, tEnd', Q, fun _ => A, fun i => ∑ j, Q i j, fun i => i * tEnd', w⟩
    ⟨lam, u0, tEnd', Q, fun k => if h : k < K then A else 0, fun i => ∑ j, Q i j,
      fun i => i * tEnd', w⟩ rfl rfl rfl rfl rfl rfl rfl (fun k hk => by simp [hk]) l s
  simp only [hf]

/-- Instance: three sweeps. -/
example (Q A : Matrix (Fin M) (Fin M) ℝ) : solveDahlquistSDC (-1) 1 2 2 (3 : ℕ) Q (.mat M M A) none ["errors"] =
    solveDahlquistSDC (-1) 1 2 2 (3 : ℕ) Q (.stack (3 : ℕ) M M fun _ => A) none ["errors"] :=
  C58_single_matrix (-1) 1 2 2 3 Q A none ["errors"]

/-! ## C59 -/

/-- C59: the monitored residual is `u + z Q U - U` for the iterate `U` of that sweep and step; it
vanishes exactly when the iterate is the collocation solution.  The monitored error is the distance to
the exact solution at the node times. -/
theorem C59_monitored (lam u0 : ℂ) (tEnd : ℝ) (nSteps nSweeps : ℤ) (Q : Matrix (Fin M) (Fin M) ℝ)
    (QD : SDCQDelta) (w : Option (Σ k, Fin k → ℝ)) (mons : List String) (out : SDCOut M)
    (h : solveDahlquistSDC lam u0 tEnd nSteps nSweeps Q QD w mons = .ok out) (hm : mons ≠ []) :
    ∃ (m : SDCMonitors M) (f : _), out.monitors = some m ∧ SweepMatrices M nSweeps QD f ∧
      (m.residuals.isSome ↔ "residuals" ∈ mons) ∧ (m.errors.isSome ↔ "errors" ∈ mons) ∧
      ∀ i < nSteps.toNat, ∃ u U, out.uNum[i]? = some u ∧
        SDCIterates (lam * (tEnd / nSteps : ℝ)) Q f nSweeps.toNat u U ∧ ∀ k ≤ nSweeps.toNat,
        (∀ r, m.residuals = some r →
          (∀ j, r k i j = u + (((lam * (tEnd / nSteps : ℝ)) • cmat Q) *ᵥ U k) j - U k j) ∧
          ((∀ j, r k i j = 0) ↔ IsCollocationSolution (lam * (tEnd / nSteps : ℝ)) Q u (U k))) ∧
        (∀ e, m.errors = some e → ∀ j, e k i j =
          U k j - u0 * Complex.exp (lam * ((i + ∑ l, Q j l) * (tEnd / nSteps) : ℝ))) := by
  obtain ⟨n, K, f, rfl, rfl, hn, hQD, hw, hvm, hdet, rfl⟩ := solveSDC_ok h
  refine ⟨_, f, by simp only [sdcResult]; rw [if_neg hm], hQD, ?_, ?_, fun i hi => ?_⟩
  · dsimp only
    split_ifs with h1 <;> simp [h1]
  · dsimp only
    split_ifs with h1 <;> simp [h1]
  · simp only [Int.toNat_natCast] at hi ⊢
    refine ⟨(sdcData lam u0 tEnd n Q f w).vals K i, sdcIter (lam * (tEnd / (n : ℤ) : ℝ)) Q f _, ?_,
      sdcIter_iterates (fun k hk => by simpa using hdet k hk) _, fun k hk => ⟨fun r hr => ?_,
      fun e he j => ?_⟩⟩
    · simp only [sdcResult]
      rw [List.getElem?_map, List.getElem?_range (by omega)]
      rfl
    · split_ifs at hr with h1
      cases hr
      simp only [hk, hi, true_and, if_true]
      refine ⟨fun j => rfl, ?_⟩
      constructor
      · intro h0
        funext j
        exact (sub_eq_zero.mp (h0 j)).symm
      · intro h0 j
        exact sub_eq_zero.mpr (congrFun h0 j).symm
    · split_ifs at he with h1
      cases he
      simp only [hk, hi, true_and, if_true, SDCData.err, sdcData]
      congr 4
      push_cast
      ring

/-! ## The hypotheses are satisfiable -/

/-- A call that returns: implicit Euler as a one node method, two steps of three sweeps with `QΔ = 1/2`,
residuals monitored. -/
theorem sdc_example : ∃ out, solveDahlquistSDC (M := 1) (-1) 1 2 2 3 !![1] (.mat 1 1 !![1/2]) none
    ["residuals"] = .ok out := by
  have h := (C56_total (-1) 1 2 !![(1:ℝ)] (.mat 1 1 !![1/2]) none ["residuals"] 2 3
    (fun _ => !![(1/2:ℝ)]) (.same 3 _) (fun k hk => Or.inl (by simpa using hk))).1 (by norm_num)
    (Or.inl ⟨rfl, by norm_num⟩) (fun k hk => ?_)
  · exact_mod_cast h
  · simp only [Matrix.det_fin_one, Matrix.sub_apply, Matrix.smul_apply, cmat, Matrix.map_apply]
    norm_num

-- C56_sweeps, C56_total, C59
example : ∃ out, solveDahlquistSDC (M := 1) (-1) 1 2 2 3 !![1] (.mat 1 1 !![1/2]) none
    ["residuals"] = .ok out ∧ out.uNum.length = 3 := by
  obtain ⟨out, h⟩ := sdc_example
  exact ⟨out, h, by simpa using (C56_sweeps _ _ _ _ _ _ _ _ _ _ h).2.2.1⟩

-- C56_iterates_unique, C56_error_recursion, C56_fixed_point
example : ∃ U, SDCIterates (-1) !![(1:ℝ)] (fun _ => !![(1/2:ℝ)]) 3 1 U ∧
    (1 - (-1:ℂ) • cmat !![(1/2:ℝ)]).det ≠ 0 := by
  have hd : (1 - (-1:ℂ) • cmat !![(1/2:ℝ)]).det ≠ 0 := by
    simp only [Matrix.det_fin_one, Matrix.sub_apply, Matrix.smul_apply, cmat, Matrix.map_apply]
    norm_num
  obtain ⟨⟨U, hU⟩, -⟩ := C56_iterates_unique (-1) !![(1:ℝ)] (fun _ => !![(1/2:ℝ)]) 3 (fun _ _ => hd) 1
  exact ⟨U, hU, hd⟩

-- the collocation solution of C56_error_recursion
example : IsCollocationSolution (-1) !![(1:ℝ)] 1 (fun _ => 1/2) := by
  unfold IsCollocationSolution
  funext i
  fin_cases i
  simp [Matrix.mulVec, dotProduct, cmat]
  norm_num

-- C57, C58
example : SweepMatrices 1 3 (.mat 1 1 !![1]) (fun _ => !![(1:ℝ)]) ∧ ValidMonitors ["errors"] ∧
    ValidMonitors ["errors", "residuals"] :=
  ⟨.same 3 _, fun k hk => Or.inr (by simpa using hk), fun k hk => by
    simp at hk; rcases hk with rfl | rfl <;> simp⟩

end QMat
