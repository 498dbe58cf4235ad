import Verif.Lemmas.ParallelSweeps
import Verif.Props.ExactError
import Verif.Props.FloatQDelta
import Verif.Props.SDCSweeps
import Verif.Props.StageBound

/-!
# C106: parallel implicit Euler sweeps on Legendre nodes converge for every decaying or oscillating equation
-/

namespace QMat

open Polynomial Spec Matrix NodesGenerator

variable {M : ℕ}

/-- The matrix of `BEPAR`, alias `IEpar`. -/
theorem bepar_matrix (ext : ExternalNum) (x : Fin M → ℝ) (hM : 0 < M) (k : Option ℤ) (name : String) (hname : name = "BEPAR" ∨ name = "IEpar") :
    getQD ext name (kwTime x 0) k = .ok ⟨M, diagonal x⟩ := by
  obtain ⟨g, hg⟩ := (C38_constructor x 0).1.mpr hM
  have e : g.computeBEPAR = Matrix.diagonal x := by
    ext i j
    simp [TimeStepping.computeBEPAR, (g.new_ok hg).2.1, (g.new_ok hg).2.2.1]
  rcases hname with rfl | rfl <;>
    rw [getQD_kwTime ext x 0 k (compute := fun g => .ok g.computeBEPAR) (dTau := fun _ => 0) rfl, hg] <;>
    exact congrArg (fun A => Except.ok (⟨M, A⟩ : Σ n, Matrix (Fin n) (Fin n) ℝ)) e

theorem diag_sweep_det {z : ℂ} (hz : z.re ≤ 0) {x : Fin M → ℝ} (h0 : ∀ i, 0 ≤ x i) (h1 : ∀ i, x i ≤ 1) :
    (1 - z • cmat (diagonal x)).det ≠ 0 := by
  have e : 1 - z • cmat (diagonal x) = diagonal fun i => 1 - z * (x i : ℂ) := by
    ext i j
    by_cases h : i = j
    · subst h; simp
    · simp [h]
  rw [e, det_diagonal, Finset.prod_ne_zero_iff]
  intro i _ h
  have := (factor_le hz (h0 i) (h1 i)).1
  rw [h] at this
  norm_num at this

theorem diag_sweep_apply {z : ℂ} {Q : Matrix (Fin M) (Fin M) ℝ} {x : Fin M → ℝ} (hd : (1 - z • cmat (diagonal x)).det ≠ 0) (e : Fin M → ℂ)
    (i : Fin M) : (1 - z * x i) * (sweepMatrix z Q (diagonal x) *ᵥ e) i = z * (∑ j, (Q i j : ℂ) * e j - x i * e i) := by
  have h : (1 - z • cmat (diagonal x)) *ᵥ (sweepMatrix z Q (diagonal x) *ᵥ e) = (z • cmat (Q - diagonal x)) *ᵥ e := by
    rw [sweepMatrix, mulVec_mulVec, ← mul_assoc, mul_nonsing_inv _ (isUnit_iff_ne_zero.mpr hd), one_mul]
  have h2 := congrFun h i
  set v := sweepMatrix z Q (diagonal x) *ᵥ e
  rw [sub_mulVec, one_mulVec, smul_mulVec, smul_mulVec, Pi.sub_apply, Pi.smul_apply, Pi.smul_apply] at h2
  have e1 : (cmat (diagonal x) *ᵥ v) i = x i * v i := by
    rw [show cmat (diagonal x) = diagonal fun i => (x i : ℂ) from diagonal_map Complex.ofReal_zero, mulVec_diagonal]
  have e2 : (cmat (Q - diagonal x) *ᵥ e) i = ∑ j, (Q i j : ℂ) * e j - x i * e i := by
    have : cmat (Q - diagonal x) = cmat Q - cmat (diagonal x) := by
      ext i j
      simp only [Matrix.map_apply, Matrix.sub_apply, Complex.ofReal_sub]
    rw [this, sub_mulVec, Pi.sub_apply, show cmat (diagonal x) = diagonal fun i => (x i : ℂ) from diagonal_map Complex.ofReal_zero,
      mulVec_diagonal]
    rfl
  rw [e1, e2] at h2
  simp only [smul_eq_mul] at h2
  linear_combination h2

/-- What the estimates need of Legendre collocation. -/
theorem parallel_facts {qt : String} (c : Collocation M) (hc : Collocation.new M "LEGENDRE" qt 0 1 = .ok c) (hun : Unmoved "LEGENDRE" qt c) :
    0 < M ∧ Function.Injective c.nodes ∧ (∀ i, 0 ≤ c.nodes i) ∧ (∀ i, c.nodes i ≤ 1) ∧ (∀ i, 0 < c.weights i) ∧ ∑ i, c.weights i = 1 ∧
      QuadUpper c.nodes c.weights (2 * M - 2) ∧
      ∀ f : ℝ[X], f.degree < M → ∀ i, ∑ j, c.Q i j * f.eval (c.nodes j) = polyInt f 0 (c.nodes i) := by
  obtain ⟨x', hM0, h⟩ := collocation_spec hc
  obtain ⟨-, hr, -, -⟩ := C24_collocation_nodes (by norm_num) c hc
  have hw1 : ∑ i, c.weights i = 1 := by
    have := h.weights_exact (by norm_num) 1 (by rw [degree_one]; exact_mod_cast hM0)
    unfold QuadExact at this
    rw [polyInt_one] at this
    simpa using this
  exact ⟨hM0, (h.strictMono (by norm_num)).injective, fun i => (hr i).1, fun i => (hr i).2, C71_weights_pos c hc hun, hw1,
    (legendre_quadUpper c hc hun).1, h.Q_exact (by norm_num)⟩

theorem rate_sq {z : ℂ} {g : ℝ} (hg : g = ‖z‖ / √(1 + ‖z‖ ^ 2)) : 0 ≤ g ∧ g < 1 ∧ (1 + ‖z‖ ^ 2) * g ^ 2 = ‖z‖ ^ 2 := by
  have h1 : 0 < 1 + ‖z‖ ^ 2 := by positivity
  have h0 : 0 ≤ g := hg ▸ by positivity
  have h2 : (1 + ‖z‖ ^ 2) * g ^ 2 = ‖z‖ ^ 2 := by
    rw [hg, div_pow, Real.sq_sqrt h1.le]
    field_simp
  refine ⟨h0, ?_, h2⟩
  by_contra h
  have h3 : 1 ≤ g ^ 2 := one_le_pow₀ (not_lt.1 h)
  nlinarith [mul_le_mul_of_nonneg_left h3 h1.le]

/-- A sweep in the discrete mean square. -/
theorem sweep_meanNorm {qt : String} (c : Collocation M) (hc : Collocation.new M "LEGENDRE" qt 0 1 = .ok c) (hun : Unmoved "LEGENDRE" qt c) {z : ℂ}
    (hz : z.re ≤ 0) {g : ℝ} (hg : g = ‖z‖ / √(1 + ‖z‖ ^ 2)) (e : Fin M → ℂ) :
    meanNorm c.weights (sweepMatrix z c.Q (diagonal c.nodes) *ᵥ e) ≤ g * meanNorm c.weights e := by
  obtain ⟨hM, hinj, h0, h1, hw, -, hup, hQ⟩ := parallel_facts c hc hun
  obtain ⟨hg0, -, hg2⟩ := rate_sq hg
  have h := parallel_sweep hM hinj h0 h1 (fun i => (hw i).le) hup hQ hz (diag_sweep_apply (diag_sweep_det hz h0 h1) e)
  rw [← meanNorm_sq fun i => (hw i).le, ← meanNorm_sq fun i => (hw i).le] at h
  refine le_of_sq_le_sq ?_ (mul_nonneg hg0 (meanNorm_nonneg _))
  rw [mul_pow]
  refine le_of_mul_le_mul_left (a := 1 + ‖z‖ ^ 2) ?_ (by positivity)
  rw [← mul_assoc, hg2]
  exact h

/-- C106: the eigenvalues of a `BEPAR` sweep on any number of `LEGENDRE` nodes have modulus at most `|z| / √(1 + |z|²)` for every
`z = λ Δt` with non-positive real part. -/
theorem C106_contract {qt : String} (c : Collocation M) (hc : Collocation.new M "LEGENDRE" qt 0 1 = .ok c) (hun : Unmoved "LEGENDRE" qt c)
    (ext : ExternalNum) (k : Option ℤ) (name : String) (hname : name = "BEPAR" ∨ name = "IEpar") :
    ∃ A : Matrix (Fin M) (Fin M) ℝ, getQD ext name (kwTime c.nodes 0) k = .ok ⟨M, A⟩ ∧ ∀ z : ℂ, z.re ≤ 0 →
      SweepsContract z c.Q A ∧ ∀ μ ∈ spectrum ℂ (sweepMatrix z c.Q A), ‖μ‖ ≤ ‖z‖ / √(1 + ‖z‖ ^ 2) := by
  obtain ⟨hM, hinj, h0, h1, hw, -, hup, hQ⟩ := parallel_facts c hc hun
  refine ⟨_, bepar_matrix ext c.nodes hM k name hname, fun z hz => ?_⟩
  have key : ∀ μ ∈ spectrum ℂ (sweepMatrix z c.Q (diagonal c.nodes)), ‖μ‖ ≤ ‖z‖ / √(1 + ‖z‖ ^ 2) := fun μ hμ => by
    obtain ⟨v, hv, e⟩ := eigen_of_mem hμ
    have h := sweep_meanNorm c hc hun hz rfl v
    have hs : meanNorm c.weights (μ • v) = ‖μ‖ * meanNorm c.weights v := by
      rw [meanNorm, meanNorm]
      conv_rhs => rw [← Real.sqrt_sq (norm_nonneg μ), ← Real.sqrt_mul (sq_nonneg _), Finset.mul_sum]
      congr 1
      refine Finset.sum_congr rfl fun i _ => ?_
      rw [Pi.smul_apply, smul_eq_mul, norm_mul]
      ring
    rw [e, hs] at h
    refine le_of_mul_le_mul_right h (Real.sqrt_pos.2 ?_)
    obtain ⟨i, hi⟩ := Function.ne_iff.1 hv
    refine Finset.sum_pos' (fun i _ => mul_nonneg (hw i).le (sq_nonneg _)) ⟨i, Finset.mem_univ i, mul_pos (hw i) ?_⟩
    have : v i ≠ 0 := hi
    positivity
  exact ⟨⟨diag_sweep_det hz h0 h1, fun μ hμ => (key μ hμ).trans_lt (rate_sq rfl).2.1⟩, key⟩

/-- C106: the error after `K` sweeps in the discrete mean square and at every node. -/
theorem C106_error {qt : String} (c : Collocation M) (hc : Collocation.new M "LEGENDRE" qt 0 1 = .ok c) (hun : Unmoved "LEGENDRE" qt c)
    (z : ℂ) (hz : z.re ≤ 0) (g : ℝ) (hg : g = ‖z‖ / √(1 + ‖z‖ ^ 2)) (u : ℂ) (U : ℕ → Fin M → ℂ)
    (hU : ∀ K, SDCIterates z c.Q (fun _ => diagonal c.nodes) K u U) (v : Fin M → ℂ) (hv : IsCollocationSolution z c.Q u v) (K : ℕ) :
    ∑ i, c.weights i * ‖U K i - v i‖ ^ 2 ≤ (g ^ (K + 1) / (1 - g) * ‖u‖) ^ 2 ∧
    ∀ i, ‖U K i - v i‖ ≤ M * (g ^ (K + 1) / (1 - g) * ‖u‖) := by
  obtain ⟨hM, hinj, h0, h1, hw, hw1, hup, hQ⟩ := parallel_facts c hc hun
  have hw0 : ∀ i, 0 ≤ c.weights i := fun i => (hw i).le
  obtain ⟨hg0, hg1, hg2⟩ := rate_sq hg
  have hd := diag_sweep_det hz h0 h1
  have herr := iterates_error hd hU hv
  have hpow : ∀ k, meanNorm c.weights (U k - v) ≤ g ^ k * meanNorm c.weights (U 0 - v) := by
    intro k
    induction k with
    | zero => simp
    | succ k ih =>
      rw [herr (k + 1), pow_succ', ← mulVec_mulVec, ← herr k, pow_succ', mul_assoc]
      exact (sweep_meanNorm c hc hun hz hg _).trans (mul_le_mul_of_nonneg_left ih hg0)
  -- the first correction
  have hone : ∀ i, ∑ j, (c.Q i j : ℂ) = c.nodes i := fun i => by
    have := hQ 1 (by rw [degree_one]; exact_mod_cast hM) i
    rw [polyInt_one, sub_zero] at this
    simp only [eval_one, mul_one] at this
    exact_mod_cast this
  have hfirst : ∀ i, (1 - z * c.nodes i) * (U 1 - U 0) i = z * c.nodes i * u := fun i => by
    have e1 := diag_sweep_apply (Q := c.Q) hd (U 0 - v) i
    have e2 := herr 1
    rw [pow_one] at e2
    rw [← e2] at e1
    have e3 := congrFun hv i
    rw [Pi.add_apply, smul_mulVec, Pi.smul_apply] at e3
    have e4 : v i = u + z * ∑ j, (c.Q i j : ℂ) * v j := e3
    have e5 : ∑ j, (c.Q i j : ℂ) * (U 0 - v) j = c.nodes i * u - ∑ j, (c.Q i j : ℂ) * v j := by
      rw [(hU 0).copy]
      simp only [Pi.sub_apply, mul_sub]
      rw [Finset.sum_sub_distrib, ← Finset.sum_mul, hone]
    have e6 : U 0 i = u := congrFun (hU 0).copy i
    rw [e5] at e1
    simp only [Pi.sub_apply, e6] at e1 ⊢
    linear_combination e1 + e4
  have hfirst' : meanNorm c.weights (U 0 - U 1) ≤ g * ‖u‖ := by
    refine le_of_sq_le_sq ?_ (by positivity)
    rw [meanNorm_sq hw0]
    calc ∑ i, c.weights i * ‖(U 0 - U 1) i‖ ^ 2 ≤ ∑ i, c.weights i * (g * ‖u‖) ^ 2 := by
          refine Finset.sum_le_sum fun i _ => mul_le_mul_of_nonneg_left ?_ (hw0 i)
          obtain ⟨f1, f2⟩ := factor_le hz (h0 i) (h1 i)
          have hn := congrArg (fun v : ℂ => ‖v‖ ^ 2) (hfirst i)
          simp only [norm_mul (1 - z * (c.nodes i : ℂ)), norm_mul (z * (c.nodes i : ℂ)), mul_pow] at hn
          have e : ‖(U 0 - U 1) i‖ = ‖(U 1 - U 0) i‖ := norm_sub_rev _ _
          rw [e]
          have hp : 0 < (1 + ‖z‖ ^ 2) * ‖1 - z * c.nodes i‖ ^ 2 := mul_pos (by positivity) (lt_of_lt_of_le one_pos f1)
          refine le_of_mul_le_mul_left ?_ hp
          calc (1 + ‖z‖ ^ 2) * ‖1 - z * c.nodes i‖ ^ 2 * ‖(U 1 - U 0) i‖ ^ 2
              = ((1 + ‖z‖ ^ 2) * ‖z * c.nodes i‖ ^ 2) * ‖u‖ ^ 2 := by rw [mul_assoc, hn]; ring
            _ ≤ (‖z‖ ^ 2 * ‖1 - z * c.nodes i‖ ^ 2) * ‖u‖ ^ 2 := mul_le_mul_of_nonneg_right f2 (sq_nonneg _)
            _ = ((1 + ‖z‖ ^ 2) * g ^ 2 * ‖1 - z * c.nodes i‖ ^ 2) * ‖u‖ ^ 2 := by rw [hg2]
            _ = _ := by ring
      _ = (g * ‖u‖) ^ 2 := by rw [← Finset.sum_mul, hw1, one_mul]
  have hstart : meanNorm c.weights (U 0 - v) ≤ g / (1 - g) * ‖u‖ := by
    have h2 := meanNorm_add_le hw0 (U 0 - U 1) (U 1 - v)
    rw [sub_add_sub_cancel] at h2
    have h3 := hpow 1
    rw [pow_one] at h3
    rw [div_mul_eq_mul_div, le_div_iff₀ (by linarith)]
    linarith
  have hfin : meanNorm c.weights (U K - v) ≤ g ^ (K + 1) / (1 - g) * ‖u‖ :=
    (hpow K).trans ((mul_le_mul_of_nonneg_left hstart (pow_nonneg hg0 K)).trans (le_of_eq (by rw [pow_succ]; ring)))
  have hsq := pow_le_pow_left₀ (meanNorm_nonneg _) hfin 2
  rw [meanNorm_sq hw0] at hsq
  refine ⟨hsq, fun i => ?_⟩
  have hb : 0 ≤ g ^ (K + 1) / (1 - g) * ‖u‖ := (meanNorm_nonneg _).trans hfin
  refine le_of_sq_le_sq ?_ (by positivity)
  have h2 := node_le_mean hM hinj h0 h1 hup hQ (U K - v) i
  rw [mul_pow]
  exact h2.trans (mul_le_mul_of_nonneg_left hsq (by positivity))

/-- C106: one step of `solveDahlquistSDC` against one of `solveDahlquist`. -/
theorem C106_values {qt : String} (hM : M ≤ 158) (c : Collocation M) (hc : Collocation.new M "LEGENDRE" qt 0 1 = .ok c)
    (lam u0 : ℂ) (tEnd : ℝ) (hlam : lam.re * tEnd ≤ 0) (n : ℕ) (hn : 0 < n) (K : ℕ) (mons : List String) (hm : ValidMonitors mons)
    (w : Option (Σ k, Fin k → ℝ)) (z : ℂ) (hz : z = lam * (tEnd / n : ℝ)) (g τ : ℝ) (hg : g = ‖z‖ / √(1 + ‖z‖ ^ 2))
    (hw : (w = some ⟨M, c.weights⟩ ∧ τ = ‖z‖ * (g ^ (K + 1) / (1 - g))) ∨
      (w = none ∧ (qt = "RADAU-RIGHT" ∨ qt = "LOBATTO") ∧ τ = M * (g ^ (K + 1) / (1 - g)))) :
    ∃ v out, c.toQGenerator.solveDahlquist lam u0 tEnd n = .ok v ∧ v.length = n + 1 ∧
      solveDahlquistSDC lam u0 tEnd n K c.Q (.mat M M (diagonal c.nodes)) w mons = .ok out ∧ out.uNum.length = n + 1 ∧
      ∀ i ≤ n, ‖out.uNum.getD i 0 - v.getD i 0‖ ≤
        ((‖stabilityFunction c.Q c.weights z‖ + τ) ^ i - ‖stabilityFunction c.Q c.weights z‖ ^ i) * ‖u0‖ := by
  have hun := unmoved_small hM c hc
  obtain ⟨hM0, hinj, h0, h1, hwp, hw1, hup, hQ⟩ := parallel_facts c hc hun
  have hw0 : ∀ i, 0 ≤ c.weights i := fun i => (hwp i).le
  have hzre : z.re ≤ 0 := by
    rw [hz, Complex.mul_re, Complex.ofReal_re, Complex.ofReal_im, mul_zero, sub_zero, ← mul_div_assoc]
    exact div_nonpos_of_nonpos_of_nonneg hlam (Nat.cast_nonneg n)
  have hd := diag_sweep_det hzre h0 h1
  have hdet : (1 - z • cmat c.Q).det ≠ 0 := legendre_det c hc hun hzre
  obtain ⟨hg0, hg1, -⟩ := rate_sq hg
  have hfit : WeightsFit M w := by
    rcases hw with ⟨rfl, -⟩ | ⟨rfl, -⟩
    · rfl
    · exact hM0
  set Y := (1 - z • cmat c.Q)⁻¹ *ᵥ fun _ => (1:ℂ) with hY
  have hsol : IsCollocationSolution z c.Q 1 Y := (collocation_unique hdet 1 _).mpr rfl
  obtain ⟨e1, e2⟩ := C106_error c hc hun z hzre g hg 1 _ (fun K => sdcIter_iterates (K := K) (fun _ _ => hd) 1) Y hsol K
  rw [norm_one, mul_one] at e1 e2
  have hb : 0 ≤ g ^ (K + 1) / (1 - g) := div_nonneg (pow_nonneg hg0 _) (by linarith)
  have hfac : ‖sdcFactor z c.Q (fun _ => diagonal c.nodes) K w - stabilityFunction c.Q c.weights z‖ ≤ τ := by
    rcases hw with ⟨rfl, rfl⟩ | ⟨rfl, hqt, rfl⟩
    · have e : sdcFactor z c.Q (fun _ => diagonal c.nodes) K (some ⟨M, c.weights⟩) - stabilityFunction c.Q c.weights z =
          z * ∑ i, (c.weights i : ℂ) * (sdcIter z c.Q (fun _ => diagonal c.nodes) 1 K - Y) i := by
        simp only [sdcFactor, sdcUpdate, stabilityFunction, dif_pos]
        rw [← hY]
        simp only [Pi.sub_apply, mul_sub, Finset.sum_sub_distrib]
        change 1 + z * ∑ i, (c.weights i : ℂ) * _ - (1 + z * ∑ i, (c.weights i : ℂ) * Y i) = _
        ring
      rw [e, norm_mul]
      refine mul_le_mul_of_nonneg_left ((sum_le_meanNorm hw0 hw1 _).trans (le_of_sq_le_sq ?_ hb)) (norm_nonneg _)
      rw [meanNorm_sq hw0]
      exact e1
    · obtain ⟨-, hr, -, hrr⟩ := C24_collocation_nodes (by norm_num) c hc
      obtain ⟨i, hi⟩ := hrr hqt (Or.inr (by norm_num))
      obtain ⟨x', _, h⟩ := collocation_spec hc
      have hlast : i = ⟨M - 1, by omega⟩ := by
        by_contra hne
        have hlt : i < ⟨M - 1, by omega⟩ := lt_of_le_of_ne (Fin.le_def.2 (by have := i.2; simp; omega)) hne
        have := h.strictMono (by norm_num) hlt
        rw [hi] at this
        exact absurd (h1 _) (not_le.2 this)
      have hrow : c.weights = c.Q ⟨M - 1, by omega⟩ := hlast ▸ C26_weights_last_row (by norm_num) c hc i hi
      have hl : stabilityFunction c.Q c.weights z = Y ⟨M - 1, by omega⟩ := by
        rw [stabilityFunction, ← hY, hrow]
        have := congrFun hsol ⟨M - 1, by omega⟩
        rw [this, smul_mulVec]
        rfl
      rw [hl]
      simp only [sdcFactor, sdcUpdate, dif_pos hM0]
      exact e2 _
  refine ⟨_, sdcResult (sdcData lam u0 tEnd n c.Q (fun _ => diagonal c.nodes) w) n K mons,
    C30_solveDahlquist c.toQGenerator lam u0 tEnd n hn (by rw [← hz]; exact hdet), by simp,
    solveSDC_eq lam u0 tEnd n K hn c.Q _ _ (.same K _) w hfit mons hm fun _ _ => by rw [← hz]; exact hd, by simp [sdcResult], ?_⟩
  intro i hi
  have hi' : i < n + 1 := by omega
  have e : (sdcResult (sdcData lam u0 tEnd n c.Q (fun _ => diagonal c.nodes) w) n K mons).uNum.getD i 0 =
      sdcFactor z c.Q (fun _ => diagonal c.nodes) K w ^ i * u0 := by
    simp only [sdcResult, List.getD_eq_getElem?_getD, List.getElem?_map, List.getElem?_range hi', Option.map_some,
      Option.getD_some, SDCData.vals, sdcData]
    simp only [hz, Int.cast_natCast]
  rw [e, List.getD_eq_getElem?_getD, List.getElem?_map, List.getElem?_range hi', Option.map_some, Option.getD_some, ← hz, ← sub_mul, norm_mul]
  exact mul_le_mul_of_nonneg_right (pow_near rfl hfac i) (norm_nonneg _)

/-- Instance: five right Radau nodes and `λ dt = -1`: with 40 sweeps a step is within `2e-5` of the one of `solveDahlquist`, whichever update. -/
example : ∃ c : Collocation 5, Collocation.new 5 "LEGENDRE" "RADAU-RIGHT" 0 1 = .ok c ∧ ∃ v out,
    c.toQGenerator.solveDahlquist (-1) 1 1 (1 : ℕ) = .ok v ∧
    solveDahlquistSDC (-1) 1 1 (1 : ℕ) (40 : ℕ) c.Q (.mat 5 5 (diagonal c.nodes)) none [] = .ok out ∧
    ‖out.uNum.getD 1 0 - v.getD 1 0‖ ≤ 2 / 10 ^ 5 := by
  obtain ⟨c, hc⟩ := collocation_new_ok (M := 5) (nt := "LEGENDRE") (qt := "RADAU-RIGHT") (by decide)
    (by decide) ⟨by norm_num, fun _ => by norm_num⟩ 0 1
  obtain ⟨v, out, h1, -, h2, -, h3⟩ := C106_values (by norm_num) c hc (-1) 1 1 (by norm_num) 1 one_pos 40 [] (fun k hk => by simp at hk) none
    (-1) (by simp) (1 / √2) _ (by norm_num) (Or.inr ⟨rfl, Or.inl rfl, rfl⟩)
  refine ⟨c, hc, v, out, h1, h2, ?_⟩
  have h4 := h3 1 le_rfl
  rw [pow_one, pow_one, norm_one, mul_one, add_sub_cancel_left] at h4
  refine h4.trans ?_
  have hs : (1 / √2) ^ 2 = (1 / 2 : ℝ) := by rw [div_pow, Real.sq_sqrt (by norm_num)]; norm_num
  have hlt : 1 / √2 ≤ (708 / 1000 : ℝ) := by
    refine le_of_sq_le_sq ?_ (by norm_num)
    rw [hs]; norm_num
  have h40 : (1 / √2) ^ (40 + 1) ≤ (1 / 2 : ℝ) ^ 20 := by
    rw [pow_succ, show 40 = 2 * 20 by norm_num, pow_mul, hs]
    exact mul_le_of_le_one_right (by positivity) (hlt.trans (by norm_num))
  have : (1 / √2) ^ (40 + 1) / (1 - 1 / √2) ≤ (1 / 2 : ℝ) ^ 20 / (292 / 1000) :=
    div_le_div₀ (by positivity) h40 (by norm_num) (by linarith)
  calc ((5 : ℕ) : ℝ) * ((1 / √2) ^ (40 + 1) / (1 - 1 / √2)) ≤ 5 * ((1 / 2 : ℝ) ^ 20 / (292 / 1000)) := by
        push_cast; exact mul_le_mul_of_nonneg_left this (by norm_num)
    _ ≤ _ := by norm_num

/-- Instance: fifty Lobatto nodes and the oscillating equation with `λ dt = 100 i`. -/
example (ext : ExternalNum) : ∃ (c : Collocation 50) (A : Matrix (Fin 50) (Fin 50) ℝ), Collocation.new 50 "LEGENDRE" "LOBATTO" 0 1 = .ok c ∧
    getQD ext "IEpar" (kwTime c.nodes 0) none = .ok ⟨50, A⟩ ∧ SweepsContract (100 * Complex.I) c.Q A := by
  obtain ⟨c, hc⟩ := collocation_new_ok (M := 50) (nt := "LEGENDRE") (qt := "LOBATTO") (by decide)
    (by decide) ⟨by norm_num, fun _ => by norm_num⟩ 0 1
  obtain ⟨A, h1, h2⟩ := C106_contract c hc (unmoved_small (by norm_num) c hc) ext none "IEpar" (Or.inr rfl)
  exact ⟨c, A, hc, h1, (h2 _ (by simp)).1⟩

end QMat
