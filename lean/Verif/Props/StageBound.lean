import Verif.Lemmas.StageBound
import Verif.Spec.StageBound
import Verif.Props.AStable
import Verif.Props.SDC
import Verif.Props.ExactError

/-!
# C104: size of the stage values of Legendre collocation in the left half plane, and what the residual says about the error
-/

namespace QMat

open Finset Matrix Spec Rounding Polynomial

variable {M : ℕ}

/-- The rules other than LOBATTO are exact up to degree `2 M - 2`. -/
theorem legendre_exact {qt : String} (c : Collocation M) (hc : Collocation.new M "LEGENDRE" qt 0 1 = .ok c) (hun : Unmoved "LEGENDRE" qt c)
    (hqt : qt ≠ "LOBATTO") (F : ℝ[X]) (hF : F.natDegree ≤ 2 * M - 2) : ∑ i, c.weights i * F.eval (c.nodes i) = polyInt F 0 1 := by
  obtain ⟨x, hx, hun⟩ := hun
  obtain ⟨x', hM, h⟩ := collocation_spec hc
  obtain ⟨order, ho, -, hex⟩ := C28_quadrature_order_unmoved (by norm_num) c hc x hx (fun i => by rw [hun]; ring)
  refine hex F (lt_of_le_of_lt degree_le_natDegree ?_)
  rcases legendre_order c hc with ⟨-, ho'⟩ | ⟨-, ho'⟩ | ⟨hq, -, -⟩
  · rw [ho] at ho'; cases ho'
    exact_mod_cast (by omega : F.natDegree < 2 * M)
  · rw [ho] at ho'; cases ho'
    exact_mod_cast (by omega : F.natDegree < 2 * M - 1)
  · exact absurd hq hqt

/-- C104: the inverse of the matrix of the stages of a `LEGENDRE` collocation is at most `1 + 2 M |z|` (`1 + 2 M² |z|` for LOBATTO) in the
maximum norm for every `z` with non-positive real part. -/
theorem C104_inverse {qt : String} (hM : M ≤ 158) (c : Collocation M) (hc : Collocation.new M "LEGENDRE" qt 0 1 = .ok c) (z : ℂ) (hz : z.re ≤ 0)
    (x : Fin M → ℂ) : ‖x‖ ≤ (1 + stageFactor qt M * ‖z‖) * ‖(1 - z • cmat c.Q) *ᵥ x‖ := by
  have hun := unmoved_small hM c hc
  obtain ⟨x', hM0, h⟩ := collocation_spec hc
  obtain ⟨-, hr, -, -⟩ := C24_collocation_nodes (by norm_num) c hc
  set g := (1 - z • cmat c.Q) *ᵥ x with hg
  have hx : ∀ i, x i = g i + z * ∑ j, (c.Q i j : ℂ) * x j := fun i => by
    rw [hg, Matrix.sub_mulVec, Matrix.one_mulVec, Matrix.smul_mulVec, Pi.sub_apply, Pi.smul_apply]
    change _ = x i - z * ∑ j, (c.Q i j : ℂ) * x j + _
    ring
  have hw1 : ∑ i, c.weights i = 1 := by
    have := h.weights_exact (by norm_num) 1 (by rw [degree_one]; exact_mod_cast hM0)
    unfold QuadExact at this
    rw [polyInt_one] at this
    simpa using this
  obtain ⟨h1, h2⟩ := stage_bound hM0 (h.strictMono (by norm_num)).injective (fun i => (hr i).1) (fun i => (hr i).2)
    (fun i => (C71_weights_pos c hc hun i).le) hw1 (legendre_quadUpper c hc hun).1 (h.Q_exact (by norm_num)) hz hx (G := ‖g‖) (norm_le_pi_norm g)
  unfold stageFactor
  split_ifs with hqt
  · exact (pi_norm_le_iff_of_nonneg (by positivity)).2 h1
  · exact (pi_norm_le_iff_of_nonneg (by positivity)).2 (h2 (legendre_exact c hc hun hqt))

/-- Instance: three right Radau nodes and `λ dt = -1000`: node values are at most 6001 times the right-hand side. -/
example : ∃ c : Collocation 3, Collocation.new 3 "LEGENDRE" "RADAU-RIGHT" 0 1 = .ok c ∧
    ∀ x, ‖x‖ ≤ 6001 * ‖(1 - (-1000 : ℂ) • cmat c.Q) *ᵥ x‖ := by
  obtain ⟨c, hc⟩ := collocation_new_ok (M := 3) (nt := "LEGENDRE") (qt := "RADAU-RIGHT") (by decide)
    (by decide) ⟨by norm_num, fun h => by simp at h⟩ 0 1
  refine ⟨c, hc, fun x => ?_⟩
  refine (C104_inverse (by norm_num) c hc (-1000) (by simp) x).trans (mul_le_mul_of_nonneg_right ?_ (norm_nonneg _))
  rw [norm_neg, stageFactor, if_neg (by decide)]
  norm_num

/-- C104: what the monitored residual says about the distance of the node values to the collocation solution, for any `Q` and any QDelta
coefficients. -/
theorem C104_residual (lam u0 : ℂ) (tEnd : ℝ) (nSteps nSweeps : ℤ) (Q : Matrix (Fin M) (Fin M) ℝ)
    (QD : SDCQDelta) (w : Option (Σ k, Fin k → ℝ)) (mons : List String) (out : SDCOut M)
    (h : solveDahlquistSDC lam u0 tEnd nSteps nSweeps Q QD w mons = .ok out) (hm : mons ≠ []) (z : ℂ) (hz : z = lam * (tEnd / nSteps : ℝ))
    (V q : ℝ) (hV : ∀ x, ‖x‖ ≤ V * ‖(1 - z • cmat Q) *ᵥ x‖) (hq0 : 0 ≤ q) (hq : ∀ i, ∑ j, |Q i j| ≤ q) :
    ∃ (m : SDCMonitors M) (f : _), out.monitors = some m ∧ SweepMatrices M nSweeps QD f ∧ (m.residuals.isSome ↔ "residuals" ∈ mons) ∧
      ∀ i < nSteps.toNat, ∃ u U Y, out.uNum[i]? = some u ∧ SDCIterates z Q f nSweeps.toNat u U ∧ IsCollocationSolution z Q u Y ∧
        ∀ k ≤ nSweeps.toNat, ∀ r, m.residuals = some r → ‖U k - Y‖ ≤ V * ‖r k i‖ ∧ ‖r k i‖ ≤ (1 + ‖z‖ * q) * ‖U k - Y‖ := by
  obtain ⟨m, f, hmon, hf, hres, -, hall⟩ := C59_monitored lam u0 tEnd nSteps nSweeps Q QD w mons out h hm
  rw [← hz] at hall
  refine ⟨m, f, hmon, hf, hres, fun i hi => ?_⟩
  obtain ⟨u, U, hu, hU, hk⟩ := hall i hi
  have hdet := det_ne_zero_of_bounded hV
  have hY : (1 - z • cmat Q) *ᵥ ((1 - z • cmat Q)⁻¹ *ᵥ fun _ => u) = fun _ => u := by
    rw [Matrix.mulVec_mulVec, Matrix.mul_nonsing_inv _ (isUnit_iff_ne_zero.2 hdet), Matrix.one_mulVec]
  set Y := (1 - z • cmat Q)⁻¹ *ᵥ fun _ => u with hYd
  clear_value Y
  refine ⟨u, U, Y, hu, hU, ?_, fun k hkk r hr => ?_⟩
  · unfold IsCollocationSolution
    rw [← hY, Matrix.sub_mulVec, Matrix.one_mulVec]
    ring
  · have e : r k i = -((1 - z • cmat Q) *ᵥ (U k - Y)) := by
      funext j
      have h1 := (((hk k hkk).1 r hr).1 j)
      have h2 := congrFun hY j
      rw [Matrix.mulVec_sub, Matrix.sub_mulVec, Matrix.one_mulVec]
      simp only [Pi.neg_apply, Pi.sub_apply]
      rw [h1, h2]
      ring
    rw [e, norm_neg]
    refine ⟨hV _, ?_⟩
    rw [Matrix.sub_mulVec, Matrix.one_mulVec]
    have h2 := mulVec_norm_le (fun i => mul_le_mul_of_nonneg_left (hq i) (norm_nonneg z)) (mul_nonneg (norm_nonneg z) hq0) (U k - Y)
    have h3 := norm_sub_le (U k - Y) ((z • cmat Q) *ᵥ (U k - Y))
    linarith

/-- C104: for `LEGENDRE` nodes and decaying or oscillating equations the distance of the node values of any sweep to the collocation solution lies
between the residual divided by `1 + M |λ dt|` and the residual times `1 + 2 M |λ dt|` (`2 M²` for LOBATTO). -/
theorem C104_residual_legendre {qt : String} (hM : M ≤ 158) (c : Collocation M) (hc : Collocation.new M "LEGENDRE" qt 0 1 = .ok c) (lam u0 : ℂ)
    (tEnd : ℝ) (hlam : lam.re * tEnd ≤ 0) (nSteps nSweeps : ℤ) (QD : SDCQDelta) (w : Option (Σ k, Fin k → ℝ)) (mons : List String) (out : SDCOut M)
    (h : solveDahlquistSDC lam u0 tEnd nSteps nSweeps c.Q QD w mons = .ok out) (hm : mons ≠ []) (z : ℂ) (hz : z = lam * (tEnd / nSteps : ℝ)) :
    ∃ (m : SDCMonitors M) (f : _), out.monitors = some m ∧ SweepMatrices M nSweeps QD f ∧ (m.residuals.isSome ↔ "residuals" ∈ mons) ∧
      ∀ i < nSteps.toNat, ∃ u U Y, out.uNum[i]? = some u ∧ SDCIterates z c.Q f nSweeps.toNat u U ∧ IsCollocationSolution z c.Q u Y ∧
        ∀ k ≤ nSweeps.toNat, ∀ r, m.residuals = some r →
          ‖U k - Y‖ ≤ (1 + stageFactor qt M * ‖z‖) * ‖r k i‖ ∧ ‖r k i‖ ≤ (1 + M * ‖z‖) * ‖U k - Y‖ := by
  have hn : (0:ℝ) < nSteps := by
    obtain ⟨n, K, f, rfl, rfl, hn, -⟩ := solveSDC_ok h
    exact_mod_cast hn
  have hzre : z.re ≤ 0 := by
    rw [hz, Complex.mul_re, Complex.ofReal_re, Complex.ofReal_im, mul_zero, sub_zero, ← mul_div_assoc]
    exact div_nonpos_of_nonpos_of_nonneg hlam hn.le
  obtain ⟨hqQ, -⟩ := C93_collocation_unit hM c hc (Or.inl ⟨rfl, rfl⟩)
  obtain ⟨-, hr01, -, -⟩ := C24_collocation_nodes (by norm_num) c hc
  have hq : ∀ i, ∑ j, |c.Q i j| ≤ M := fun i => (hqQ i).trans (mul_le_of_le_one_right (Nat.cast_nonneg _) (hr01 i).2)
  obtain ⟨m, f, h1, h2, h3, h4⟩ := C104_residual lam u0 tEnd nSteps nSweeps c.Q QD w mons out h hm z hz _ M
    (C104_inverse hM c hc z hzre) (Nat.cast_nonneg _) hq
  refine ⟨m, f, h1, h2, h3, fun i hi => ?_⟩
  obtain ⟨u, U, Y, h5, h6, h7, h8⟩ := h4 i hi
  exact ⟨u, U, Y, h5, h6, h7, fun k hk r hr => ⟨(h8 k hk r hr).1, by rw [mul_comm (M:ℝ)]; exact (h8 k hk r hr).2⟩⟩

/-- C104: the error of a step in rounded arithmetic when the inverse is not small. -/
theorem C104_large (e V y q δ : ℝ) (he : 0 ≤ e) (hV : 1 ≤ V) (hy : 0 ≤ y) (hq : 0 ≤ q) (hδ : 0 ≤ δ) (hδ1 : δ ≤ 1)
    (h : 2 * (e + δ) * (V * (1 + y * (q + 1))) ≤ 1) :
    stageErr e V y q δ ≤ 1 / 2 ∧ dahlquistErr e V y q δ ≤ 4 * (e + δ) * (V * (1 + y * (q + 1))) ^ 2 := by
  have hV0 : 0 ≤ V := by linarith
  set Y := 1 + y * (q + 1) with hY
  have hY1 : 1 ≤ Y := by rw [hY]; nlinarith
  have hκ : stageErr e V y q δ ≤ V * ((e + δ) * Y) := by
    unfold stageErr
    refine mul_le_mul_of_nonneg_left ?_ hV0
    have h1 : e * (y * δ) ≤ e * (y * 1) := by gcongr
    have h2 : 0 ≤ δ * (y * q) := by positivity
    rw [hY]
    nlinarith
  have hκ0 := stageErr_nonneg he hV0 hy hq hδ
  unfold dahlquistErr
  set κ := stageErr e V y q δ
  have hκ1 : κ ≤ 1 / 2 := by linarith
  refine ⟨hκ1, ?_⟩
  have hVY : 1 ≤ V * Y := by nlinarith
  have hε : 0 ≤ e + δ := by linarith
  have h3 : q * κ + e * (q + δ) + δ ≤ (e + δ) * ((q + 1) * (1 + V * Y)) := by
    have h4 : q * κ ≤ q * (V * ((e + δ) * Y)) := mul_le_mul_of_nonneg_left hκ hq
    have h5 : e * δ ≤ e * 1 := by gcongr
    have h6 : 0 ≤ (e + δ) * (V * Y) := by positivity
    have h7 : 0 ≤ δ * q := by positivity
    nlinarith
  have h4 : y * V / (1 - κ) ≤ 2 * (y * V) := by
    rw [div_le_iff₀ (by linarith)]
    have : 0 ≤ y * V := by positivity
    nlinarith
  have h5 : y * V / (1 - κ) * (q * κ + e * (q + δ) + δ) ≤ 2 * (y * V) * ((e + δ) * ((q + 1) * (1 + V * Y))) :=
    mul_le_mul h4 h3 (by positivity) (by positivity)
  have h6 : 2 * (y * V) * ((e + δ) * ((q + 1) * (1 + V * Y))) = 2 * (e + δ) * ((V * Y - V) * (1 + V * Y)) := by rw [hY]; ring
  have h7 : (V * Y - V) * (1 + V * Y) ≤ (V * Y - V) * (2 * (V * Y)) :=
    mul_le_mul_of_nonneg_left (by linarith) (by nlinarith)
  have h8 := mul_le_mul_of_nonneg_left h7 (show 0 ≤ 2 * (e + δ) by linarith)
  have h9 : (V * Y - V) * (2 * (V * Y)) ≤ 2 * (V * Y) ^ 2 - 2 * (V * Y) := by nlinarith
  have h10 := mul_le_mul_of_nonneg_left h9 (show 0 ≤ 2 * (e + δ) by linarith)
  have h11 : e ≤ (e + δ) * (V * Y) := by nlinarith
  nlinarith

/-- Instance: Picard sweeps for a stiff equation with three right Radau nodes; whatever the sweeps do, the residual bounds the error. -/
example : ∃ (c : Collocation 3) (out : SDCOut 3) (m : SDCMonitors 3) (r : _), Collocation.new 3 "LEGENDRE" "RADAU-RIGHT" 0 1 = .ok c ∧
    solveDahlquistSDC (-1000) 1 2 2 4 c.Q (.mat 3 3 0) none ["residuals"] = .ok out ∧ out.monitors = some m ∧ m.residuals = some r ∧
    ∃ U Y : _, IsCollocationSolution (-1000) c.Q 1 Y ∧ ‖U - Y‖ ≤ 6001 * ‖r 4 0‖ ∧ ‖r 4 0‖ ≤ 3001 * ‖U - Y‖ := by
  obtain ⟨c, hc⟩ := collocation_new_ok (M := 3) (nt := "LEGENDRE") (qt := "RADAU-RIGHT") (by decide)
    (by decide) ⟨by norm_num, fun h => by simp at h⟩ 0 1
  have hnode := (C24_collocation_nodes (by norm_num) c hc)
  obtain ⟨out, h⟩ : ∃ out, solveDahlquistSDC (-1000) 1 2 2 4 c.Q (.mat 3 3 0) none ["residuals"] = .ok out := by
    have h := (C56_total (-1000) 1 2 c.Q (.mat 3 3 0) none ["residuals"] 2 4 (fun _ => 0) (.same 4 _)
      (fun k hk => Or.inl (by simpa using hk))).1 (by norm_num) (Or.inl ⟨rfl, by norm_num⟩) (fun k hk => by simp [cmat])
    exact_mod_cast h
  obtain ⟨m, f, h1, -, h3, h4⟩ := C104_residual_legendre (by norm_num) c hc (-1000) 1 2 (by norm_num) 2 4 (.mat 3 3 0) none ["residuals"] out h
    (by simp) (-1000) (by push_cast; norm_num)
  obtain ⟨r, hr⟩ := Option.isSome_iff_exists.1 (h3.2 (by simp))
  obtain ⟨u, U, Y, hu, -, hY, hb⟩ := h4 0 (by norm_num)
  have hu1 : u = 1 := by
    have := (C56_sweeps _ _ _ _ _ _ _ _ _ _ h).2.2.2.1
    rw [this] at hu
    exact (Option.some.inj hu).symm
  subst hu1
  obtain ⟨b1, b2⟩ := hb 4 (by norm_num) r hr
  have hz : ‖(-1000 : ℂ)‖ = 1000 := by rw [norm_neg]; norm_num
  rw [hz, stageFactor, if_neg (by decide)] at b1
  rw [hz] at b2
  exact ⟨c, out, m, r, hc, h, h1, hr, U 4, Y, hY, by norm_num at b1; exact b1, by norm_num at b2; exact b2⟩

/-- C104: `LEGENDRE` collocation computed and used in double precision for decaying or oscillating equations, also stiff ones, as long as
the rounding errors times the square of `|λ dt|` are small. -/
theorem C104_double {F : FejerOps} (E : NodeOps) (S : SolveOps) (hv : F.v ≤ 1 / 10 ^ 15) {m : ℕ} (hM : 0 < M) (hM' : M ≤ 100)
    (hm : m = M - (M + 1) % 2) (hη : 4 * F.κ / m + 4 * (1 + F.κ) * F.ρ / √m ≤ 1 / 10 ^ 15) {qt : String}
    (hqt : qt ∈ QUAD_TYPES) (hn : ValidSize qt M) (hθ : E.θ ≤ 1 / 10 ^ 14) (hσ : E.σ ≤ 1 / 10 ^ 14)
    (lam u0 : ℂ) (tEnd : ℝ) (hlam : lam.re * tEnd ≤ 0) (n : ℕ) (hn0 : 0 < n) (y e δ ε Y τ : ℝ) (hy : y = ‖lam * (tEnd / n : ℝ)‖)
    (he : e = nodesErr double.u E.θ E.σ "LEGENDRE" qt M) (hδ : δ = (M:ℝ) ^ 5 * (12 * e + 1 / 10 ^ 13))
    (hε : ε = 2 * S.σ + 4 * (M + 3) * double.u + δ) (hY : Y = (1 + stageFactor qt M * y) * (1 + y * (M + 1))) (hYε : 2 * ε * Y ≤ 1)
    (hτ : τ = 4 * ε * Y ^ 2) :
    ∃ c raw, Collocation.new M "LEGENDRE" qt 0 1 = .ok c ∧ double.getEigenvalues E ⟨"LEGENDRE", qt⟩ M = .ok raw ∧
    (∃ nodes Q' w', double.CollocationArrays F qt hM raw 0 1 nodes Q' w') ∧
    ∀ nodes Q' w', double.CollocationArrays F qt hM raw 0 1 nodes Q' w' → ∀ r, double.SolveDahlquist S lam u0 tEnd n Q' ⟨M, w'⟩ r →
      ∃ l l' s, r = .ok l ∧ c.toQGenerator.solveDahlquist lam u0 tEnd n = .ok l' ∧
        s = ‖stabilityFunction c.Q c.weights (lam * (tEnd / n : ℝ))‖ ∧ l.length = n + 1 ∧ l'.length = n + 1 ∧
        (∀ i (hi : i < l.length) (hi' : i < l'.length), ‖l[i] - l'[i]‖ ≤ ((s + τ) ^ i - s ^ i) * ‖u0‖) ∧
        (qt ≠ "RADAU-LEFT" → ∀ i (hi : i < l.length) (hi' : i < l'.length), ‖l[i] - l'[i]‖ ≤ ((1 + τ) ^ i - 1) * ‖u0‖) := by
  obtain ⟨c, Sc, raw, e', hc, -, hraw, he', -, -, ⟨nodes0, Q0, w0, S0, hA0, hS0⟩, hall⟩ :=
    C95_double (F := F) E hv hM hM' hm hη (nt := "LEGENDRE") (Or.inl ⟨rfl, rfl⟩) hqt hn hθ hσ
  rw [← he] at he'
  simp only [he'] at hall
  refine ⟨c, raw, hc, hraw, ⟨nodes0, Q0, w0, hA0⟩, fun nodes Q' w' hA r hr => ?_⟩
  have hnodes : nodes = nodes0 := hA.1.trans hA0.1.symm
  obtain ⟨-, hQ, hw, -, -, -⟩ := hall nodes Q' w' S0 hA (hnodes ▸ hS0)
  obtain ⟨hqQ, hqw⟩ := C93_collocation_unit (by omega) c hc (Or.inl ⟨rfl, rfl⟩)
  obtain ⟨-, hr01, -, -⟩ := C24_collocation_nodes (by norm_num) c hc
  have hB0 : (0:ℝ) ≤ M := Nat.cast_nonneg M
  have hrow : ∀ v v' : Fin M → ℝ, (∀ j, |v' j - v j| ≤ (M:ℝ) ^ 2 * (M:ℝ) ^ 2 * (12 * e + 1 / 10 ^ 13)) → ∑ j, |v' j - v j| ≤ δ := fun v v' h => by
    refine (Finset.sum_le_card_nsmul _ _ _ fun j _ => h j).trans (le_of_eq ?_)
    rw [hδ]
    simp
    ring
  have hqQ' : ∀ i, ∑ j, |c.Q i j| ≤ M := fun i => (hqQ i).trans (mul_le_of_le_one_right hB0 (hr01 i).2)
  have hδ0 : 0 ≤ δ := (Finset.sum_nonneg fun _ _ => abs_nonneg _).trans (hrow _ _ hw)
  obtain ⟨h1, h2, h3⟩ := C96_double (R := double) (M := M) (σ := S.σ) (by rw [double_u]; norm_num) (by omega) S.σ_nonneg
  have he0 : 0 ≤ sweepErr double.u S.σ M := double.u_nonneg.trans (sweepErr_ge h1 h2 S.σ_nonneg).2.1
  have hy0 : 0 ≤ y := hy ▸ norm_nonneg _
  have hsf : 0 ≤ stageFactor qt M := by unfold stageFactor; split_ifs <;> positivity
  set V := 1 + stageFactor qt M * y with hV
  have hV1 : 1 ≤ V := by
    have : 0 ≤ stageFactor qt M * y := mul_nonneg hsf hy0
    linarith
  have hY1 : 1 ≤ Y := by
    have : 0 ≤ y * (M + 1) := by positivity
    rw [hY]; nlinarith
  have hε0 : sweepErr double.u S.σ M + δ ≤ ε := by linarith
  have hδ1 : δ ≤ 1 := by
    have : ε ≤ ε * Y := le_mul_of_one_le_right (by linarith) hY1
    linarith
  have hle : 2 * (sweepErr double.u S.σ M + δ) * Y ≤ 2 * ε * Y := by gcongr
  obtain ⟨hκ, hτ'⟩ := C104_large _ V y M δ he0 hV1 hy0 hB0 hδ0 hδ1 (by rw [← hY]; linarith)
  rw [← hY] at hτ'
  have hzre : (lam * (tEnd / n : ℝ)).re ≤ 0 := by
    have hn' : (0:ℝ) < n := by exact_mod_cast hn0
    rw [Complex.mul_re, Complex.ofReal_re, Complex.ofReal_im, mul_zero, sub_zero, ← mul_div_assoc]
    exact div_nonpos_of_nonpos_of_nonneg hlam hn'.le
  have hVx : ∀ x, ‖x‖ ≤ V * ‖(1 - (lam * (tEnd / n : ℝ)) • cmat c.Q) *ᵥ x‖ := fun x => by
    have := C104_inverse (by omega) c hc (lam * (tEnd / n : ℝ)) hzre x
    rwa [← hy] at this
  obtain ⟨l, l', s, hl, hl', hs, hlen, hlen', -, hb⟩ := C97_solve (R := double) (S := S) hM c.toQGenerator false c.weights rfl Q' w' lam u0 tEnd n
    hn0 h1 h2 V M δ (by linarith) hVx hqQ' hqw (fun i => hrow _ _ (hQ i)) (hrow _ _ hw) _ (by rw [← hy]; linarith) rfl r hr
  rw [← hy] at hb
  have hτ0 : 0 ≤ dahlquistErr (sweepErr double.u S.σ M) V y M δ := dahlquistErr_nonneg he0 (by linarith) hy0 hB0 hδ0 (by linarith)
  set τ' := dahlquistErr (sweepErr double.u S.σ M) V y M δ with hτd
  have hττ : τ' ≤ τ := by
    refine hτ'.trans ?_
    rw [hτ]
    gcongr
  have hs0 : 0 ≤ s := hs ▸ norm_nonneg _
  have hfin : ∀ i (hi : i < l.length) (hi' : i < l'.length), ‖l[i] - l'[i]‖ ≤ ((s + τ) ^ i - s ^ i) * ‖u0‖ := fun i hi hi' =>
    (hb i hi hi').1.trans (mul_le_mul_of_nonneg_right (sub_le_sub_right (pow_le_pow_left₀ (by linarith) (by linarith) i) _) (norm_nonneg _))
  refine ⟨l, l', s, hl, hl', hs, hlen, hlen', hfin, fun hqt' i hi hi' => (hfin i hi hi').trans (mul_le_mul_of_nonneg_right ?_ (norm_nonneg _))⟩
  have hs1 : s ≤ 1 := hs ▸ legendre_astable hqt' c hc (unmoved_small (by omega) c hc) hzre
  have := pow_sub_pow_mono hs0 hs1 (by linarith : 0 ≤ τ) i
  rwa [one_pow] at this

/-- Instance: two right Radau nodes, ten steps of `u' = -20 u` up to time one (`λ dt = -2`), in double precision. -/
example : ∃ c raw, Collocation.new 2 "LEGENDRE" "RADAU-RIGHT" 0 1 = .ok c ∧
    double.getEigenvalues roundedNodeOps ⟨"LEGENDRE", "RADAU-RIGHT"⟩ 2 = .ok raw ∧
    ∃ nodes Q w r, double.CollocationArrays double.fejerOps "RADAU-RIGHT" (by norm_num) raw 0 1 nodes Q w ∧
      double.SolveDahlquist ops (-20) 1 1 (10 : ℕ) Q ⟨2, w⟩ r ∧
      ∃ l l', r = .ok l ∧ c.toQGenerator.solveDahlquist (-20) 1 1 (10 : ℕ) = .ok l' ∧ l.length = 11 ∧
        ∀ i (hi : i < l.length) (hi' : i < l'.length), ‖l[i] - l'[i]‖ ≤ 1 / 1000 := by
  obtain ⟨he, he2⟩ := nodesErr_double roundedNodeOps (M := 2) (by norm_num) "LEGENDRE" "RADAU-RIGHT" le_rfl (by show (0:ℝ) ≤ _; norm_num)
  have he3 := he2 (by decide)
  have hz : ‖(-20 : ℂ) * ((1 : ℝ) / (10 : ℕ) : ℝ)‖ = 2 := by
    rw [norm_mul, norm_neg, Complex.norm_real]
    norm_num
  have hes := nodesErr_nonneg (u := double.u) (θ := roundedNodeOps.θ) (σ := roundedNodeOps.σ) double.u_nonneg roundedNodeOps.θ_nonneg
    roundedNodeOps.σ_nonneg "LEGENDRE" "RADAU-RIGHT" 2
  generalize heq : nodesErr double.u roundedNodeOps.θ roundedNodeOps.σ "LEGENDRE" "RADAU-RIGHT" 2 = e at he3 hes
  obtain ⟨c, raw, hc, hraw, ⟨nodes, Q, w, hA⟩, hall⟩ := C104_double (F := double.fejerOps) roundedNodeOps ops
    (by show double.u ≤ _; rw [double_u]; norm_num) (M := 2) (by norm_num) (by norm_num) (m := 1) rfl
    (by show 4 * double.u / (1:ℕ) + 4 * (1 + double.u) * 0 / √(1:ℕ) ≤ _; rw [double_u]; norm_num) (qt := "RADAU-RIGHT")
    (by decide) ⟨by norm_num, fun h => by simp at h⟩ le_rfl (by show (0:ℝ) ≤ _; norm_num)
    (-20) 1 1 (by norm_num) 10 (by norm_num) 2 e _ _ 63 _ hz.symm heq.symm rfl rfl (by rw [stageFactor, if_neg (by decide)]; norm_num)
    (by
      have h0 : ops.σ = 1 / 10 ^ 15 := rfl
      rw [h0, double_u]
      norm_num at he3 ⊢
      linarith) rfl
  obtain ⟨r, hr⟩ := C97_exists (R := double) (S := ops) (-20) 1 1 10 Q ⟨2, w⟩
  obtain ⟨l, l', s, hl, hl', -, hlen, -, -, hb⟩ := hall nodes Q w hA r hr
  refine ⟨c, raw, hc, hraw, nodes, Q, w, r, hA, hr, l, l', hl, hl', hlen, fun i hi hi' => ?_⟩
  refine (hb (by decide) i hi hi').trans ?_
  rw [norm_one, mul_one]
  have h0 : ops.σ = 1 / 10 ^ 15 := rfl
  rw [h0, double_u]
  set τ : ℝ := 4 * (2 * (1 / 10 ^ 15) + 4 * (((2:ℕ):ℝ) + 3) * (1 / 2) ^ 53 + ((2:ℕ):ℝ) ^ 5 * (12 * e + 1 / 10 ^ 13)) * 63 ^ 2 with hτ
  have hτ0 : 0 ≤ τ := by positivity
  have hτ1 : τ ≤ 4 / 10 ^ 5 := by
    rw [hτ]
    norm_num at he3 ⊢
    linarith
  clear_value τ
  have hi10 : i ≤ 10 := by omega
  have h1 : (1 + τ) ^ i ≤ (1 + τ) ^ 10 := pow_le_pow_right₀ (by linarith) hi10
  have h2 : (1 + τ) ^ 10 ≤ (1 + 4 / 10 ^ 5) ^ 10 := pow_le_pow_left₀ (by linarith) (by linarith) 10
  have h3 : ((1:ℝ) + 4 / 10 ^ 5) ^ 10 ≤ 1 + 1 / 1000 := by norm_num
  linarith

end QMat
