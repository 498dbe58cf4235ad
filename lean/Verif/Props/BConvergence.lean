import Verif.Lemmas.BConvergence
import Verif.Props.BStable

/-!
# C117: Legendre collocation on stiff nonlinear equations: solvability, residuals and convergence without a Lipschitz constant
-/

namespace QMat

open Polynomial Spec NodesGenerator Matrix

/-- The bound of slopes and stages of a Legendre collocation. -/
theorem legendre_stage_bound {M : ℕ} {qt : String} (c : Collocation M)
    (hc : Collocation.new M "LEGENDRE" qt 0 1 = .ok c) (hun : Unmoved "LEGENDRE" qt c) :
    ∃ κ : ℝ, 0 ≤ κ ∧ ∀ {E : Type*} [NormedAddCommGroup E] [InnerProductSpace ℝ E] (G η : Fin M → E) (d : ℝ),
      (∀ i, c.nodes i = 0 → G i = 0) → (∀ i, inner ℝ (G i) (∑ j, c.Q i j • G j + η i) ≤ 0) → (∀ i, ‖η i‖ ≤ d) →
      ∀ i, ‖∑ j, c.Q i j • G j‖ ≤ κ * d ∧ ‖G i‖ ≤ κ * d := by
  obtain ⟨x', hM, h⟩ := collocation_spec hc
  obtain ⟨-, hr, -, -⟩ := C24_collocation_nodes (by norm_num) c hc
  exact coll_stage_bound hM (h.strictMono (by norm_num)).injective hr (h.Q_exact (by norm_num))
    (h.weights_exact (by norm_num)) (legendre_quadUpper c hc hun).1 (C71_weights_pos c hc hun)

/-- C117 (uniqueness), every quadrature type: a step of any size on a dissipative equation in any inner product space has at most one
result. -/
theorem C117_unique {M : ℕ} {qt : String} (c : Collocation M)
    (hc : Collocation.new M "LEGENDRE" qt 0 1 = .ok c) (hun : Unmoved "LEGENDRE" qt c)
    {E : Type*} [NormedAddCommGroup E] [InnerProductSpace ℝ E]
    (f : ℝ → E → E) (hf : ∀ t x y, inner ℝ (f t x - f t y) (x - y) ≤ 0) (t h : ℝ) (hh : 0 ≤ h) (u u1 u1' : E)
    (Y Y' : Fin M → E) (hu : RKStep c.nodes c.Q c.weights f t h u Y u1)
    (hu' : RKStep c.nodes c.Q c.weights f t h u Y' u1') : Y = Y' ∧ u1 = u1' := by
  obtain ⟨κ, hκ0, hκ⟩ := legendre_stage_bound c hc hun
  have hrow : ∀ i, c.nodes i = 0 → Y i = Y' i := fun i hi => by
    rw [hu.stages i, hu'.stages i]
    simp [zero_row c hc hi]
  have e : ∀ i, Y i - Y' i = ∑ j, c.Q i j • (h • (f (t + h * c.nodes j) (Y j) - f (t + h * c.nodes j) (Y' j))) + 0 := fun i => by
    rw [hu.stages i, hu'.stages i]
    simp only [smul_sub, Finset.sum_sub_distrib, Finset.smul_sum, smul_comm h]
    abel
  have hY : Y = Y' := by
    funext i
    have := (hκ (fun j => h • (f (t + h * c.nodes j) (Y j) - f (t + h * c.nodes j) (Y' j))) (fun _ => 0) 0
      (fun i hi => by rw [hrow i hi, sub_self, smul_zero]) (fun i => by
        rw [← e i, inner_smul_left, conj_trivial]
        exact mul_nonpos_of_nonneg_of_nonpos hh (hf _ _ _)) (fun i => by simp) i).1
    rw [mul_zero] at this
    have h0 := norm_le_zero_iff.1 this
    have h1 := e i
    rw [h0, zero_add] at h1
    exact sub_eq_zero.1 h1
  exact ⟨hY, by rw [hu.result, hu'.result, hY]⟩

/-- Instance: three Lobatto nodes, `u' = -u ^ 3`, a step of size one thousand. -/
example (u u1 u1' : ℝ) (Y Y' : Fin 3 → ℝ) : ∃ c : Collocation 3, Collocation.new 3 "LEGENDRE" "LOBATTO" 0 1 = .ok c ∧
    (RKStep c.nodes c.Q c.weights (fun _ u : ℝ => -u ^ 3) 0 1000 u Y u1 →
      RKStep c.nodes c.Q c.weights (fun _ u : ℝ => -u ^ 3) 0 1000 u Y' u1' → Y = Y' ∧ u1 = u1') := by
  obtain ⟨c, hc⟩ := collocation_new_ok (M := 3) (nt := "LEGENDRE") (qt := "LOBATTO") (by decide)
    (by decide) ⟨by norm_num, fun _ => by norm_num⟩ 0 1
  refine ⟨c, hc, C117_unique c hc (unmoved_small (by norm_num) c hc) _ (fun t x y => ?_) 0 1000
    (by norm_num) u u1 u1' Y Y'⟩
  simp only [RCLike.inner_apply, conj_trivial]
  nlinarith [mul_nonneg (sq_nonneg (x - y)) (add_nonneg (add_nonneg (sq_nonneg x) (sq_nonneg y)) (sq_nonneg (x + y)))]

/-- C117 (solvability), every quadrature type: on a dissipative Lipschitz continuous equation in a complete inner product space a step of
any size from any value can be done in exactly one way, however large the Lipschitz constant is. -/
theorem C117_solvable {M : ℕ} {qt : String} (c : Collocation M)
    (hc : Collocation.new M "LEGENDRE" qt 0 1 = .ok c) (hun : Unmoved "LEGENDRE" qt c)
    {E : Type*} [NormedAddCommGroup E] [InnerProductSpace ℝ E] [CompleteSpace E]
    (f : ℝ → E → E) (hf : ∀ t x y, inner ℝ (f t x - f t y) (x - y) ≤ 0) (hL : ∀ t, ∃ L, ∀ x y, ‖f t x - f t y‖ ≤ L * ‖x - y‖)
    (t h : ℝ) (hh : 0 ≤ h) (u : E) : ∃! v : (Fin M → E) × E, RKStep c.nodes c.Q c.weights f t h u v.1 v.2 := by
  classical
  obtain ⟨κ, hκ0, hκ⟩ := legendre_stage_bound c hc hun
  choose L hL using hL
  let F : Fin M → E → E := fun i y => h • f (t + h * c.nodes i) (if c.nodes i = 0 then u else y)
  set Λ := h * ∑ i, |L (t + h * c.nodes i)| with hΛ
  have hΛ0 : 0 ≤ Λ := mul_nonneg hh (Finset.sum_nonneg fun i _ => abs_nonneg _)
  obtain ⟨Y, hY⟩ := stages_exist (x := c.nodes) (A := c.Q) hκ0 hκ (F := F) (fun i a b => by
      simp only [F]
      split
      · simp
      · rw [← smul_sub, inner_smul_left, conj_trivial]
        exact mul_nonpos_of_nonneg_of_nonpos hh (hf _ _ _)) (fun i hi a b => by simp only [F, hi, if_true])
    hΛ0 (fun i a b => by
      simp only [F]
      split
      · simp only [sub_self, norm_zero]; positivity
      · rw [← smul_sub, norm_smul, Real.norm_eq_abs, abs_of_nonneg hh, hΛ, mul_assoc]
        refine mul_le_mul_of_nonneg_left ((hL _ a b).trans (mul_le_mul_of_nonneg_right ?_ (norm_nonneg _))) hh
        exact (le_abs_self _).trans (Finset.single_le_sum (f := fun i => |L (t + h * c.nodes i)|)
          (fun i _ => abs_nonneg _) (Finset.mem_univ i))) (fun _ => u)
  have hY0 : ∀ i, c.nodes i = 0 → Y i = u := fun i hi => by
    rw [hY i]; simp [zero_row c hc hi]
  have hFY : ∀ j, F j (Y j) = h • f (t + h * c.nodes j) (Y j) := fun j => by
    simp only [F]
    split
    · next hj => rw [hY0 j hj]
    · rfl
  have hst : RKStep c.nodes c.Q c.weights f t h u Y (u + h • ∑ i, c.weights i • f (t + h * c.nodes i) (Y i)) := by
    refine ⟨fun i => ?_, rfl⟩
    rw [hY i]
    simp only [hFY, Finset.smul_sum, smul_comm h]
  refine ⟨(Y, _), hst, fun v hv => ?_⟩
  obtain ⟨h1, h2⟩ := C117_unique c hc hun f hf t h hh u _ _ _ _ hv hst
  exact Prod.ext h1 h2

/-- Instance: three Lobatto nodes, `u' = -1000000 u`, a step of size one. -/
example : ∃ c : Collocation 3, Collocation.new 3 "LEGENDRE" "LOBATTO" 0 1 = .ok c ∧
    ∃! v : (Fin 3 → ℝ) × ℝ, RKStep c.nodes c.Q c.weights (fun _ u : ℝ => -1000000 * u) 0 1 1 v.1 v.2 := by
  obtain ⟨c, hc⟩ := collocation_new_ok (M := 3) (nt := "LEGENDRE") (qt := "LOBATTO") (by decide)
    (by decide) ⟨by norm_num, fun _ => by norm_num⟩ 0 1
  refine ⟨c, hc, C117_solvable c hc (unmoved_small (by norm_num) c hc) _ (fun t x y => ?_)
    (fun t => ⟨1000000, fun x y => ?_⟩) 0 1 zero_le_one 1⟩
  · simp only [RCLike.inner_apply, conj_trivial]
    nlinarith [sq_nonneg (x - y)]
  · rw [← mul_sub, norm_mul]; norm_num

/-- `GAUSS` and `RADAU-RIGHT` nodes are not at zero. -/
theorem nodes_ne_zero {M : ℕ} {qt : String} (hqt : qt = "GAUSS" ∨ qt = "RADAU-RIGHT") (c : Collocation M)
    (hc : Collocation.new M "LEGENDRE" qt 0 1 = .ok c) (hun : Unmoved "LEGENDRE" qt c) (i : Fin M) : c.nodes i ≠ 0 := by
  classical
  intro hi
  obtain ⟨hw, hP⟩ := C78_algebraic hqt c hc hun
  have := hP (fun k => if k = i then 1 else 0)
  simp only [mul_ite, mul_one, mul_zero, Finset.sum_ite_eq', Finset.mem_univ, if_true] at this
  rw [zero_row c hc hi i] at this
  nlinarith [mul_pos (hw i) (hw i)]

/-- C117 (residuals), `GAUSS` and `RADAU-RIGHT`: stage values that satisfy the stage equations up to residuals of size `d`, as an inexact
solver leaves them, change the result by at most `C d`, and the stages by at most `C (‖u - v‖ + d)`, where `C` depends neither on the
equation nor on the step size. -/
theorem C117_residuals {M : ℕ} {qt : String} (hqt : qt = "GAUSS" ∨ qt = "RADAU-RIGHT") (c : Collocation M)
    (hc : Collocation.new M "LEGENDRE" qt 0 1 = .ok c) (hun : Unmoved "LEGENDRE" qt c) :
    ∃ C : ℝ, 0 ≤ C ∧ ∀ {E : Type*} [NormedAddCommGroup E] [InnerProductSpace ℝ E]
      (f : ℝ → E → E), (∀ t x y, inner ℝ (f t x - f t y) (x - y) ≤ 0) → ∀ (t h : ℝ), 0 ≤ h → ∀ (u v u1 v1 : E)
      (Y Z r : Fin M → E) (r1 : E) (d : ℝ), (∀ i, ‖r i‖ ≤ d) → ‖r1‖ ≤ d →
      (∀ i, Y i = u + h • ∑ j, c.Q i j • f (t + h * c.nodes j) (Y j) + r i) →
      u1 = u + h • ∑ i, c.weights i • f (t + h * c.nodes i) (Y i) + r1 →
      RKStep c.nodes c.Q c.weights f t h v Z v1 →
      ‖u1 - v1‖ ≤ ‖u - v‖ + C * d ∧ ∀ i, ‖Y i - Z i‖ ≤ C * (‖u - v‖ + d) := by
  obtain ⟨κ, hκ0, hκ⟩ := legendre_stage_bound c hc hun
  obtain ⟨x', hM, hs⟩ := collocation_spec hc
  obtain ⟨hw, hP⟩ := C78_algebraic hqt c hc hun
  have hsum : ∑ i, c.weights i = 1 := by
    have : ∑ i, c.weights i * (1 : ℝ[X]).eval (c.nodes i) = polyInt 1 0 1 :=
      hs.weights_exact (by norm_num) 1 (by rw [degree_one]; exact_mod_cast hM)
    simpa [polyInt_one] using this
  have hx0 := nodes_ne_zero hqt c hc hun
  refine ⟨κ + 3, by positivity, ?_⟩
  intro E _ _ f hf t h hh u v u1 v1 Y Z r r1 d hr hr1 hY h1 hv
  have hd : 0 ≤ d := (norm_nonneg _).trans hr1
  set G : Fin M → E := fun j => h • (f (t + h * c.nodes j) (Y j) - f (t + h * c.nodes j) (Z j)) with hG
  have eY : ∀ i, Y i - Z i = (u - v) + ∑ j, c.Q i j • G j + r i := fun i => by
    rw [hY i, hv.stages i]
    simp only [hG, smul_sub, Finset.sum_sub_distrib, Finset.smul_sum, smul_comm h]
    abel
  have e1 : u1 - v1 = (u - v) + ∑ i, c.weights i • G i + r1 := by
    rw [h1, hv.result]
    simp only [hG, smul_sub, Finset.sum_sub_distrib, Finset.smul_sum, smul_comm h]
    abel
  have hdis : ∀ i, inner ℝ (G i) (Y i - Z i) ≤ 0 := fun i => by
    simp only [hG]
    rw [inner_smul_left, conj_trivial]
    exact mul_nonpos_of_nonneg_of_nonpos hh (hf _ _ _)
  have hb : ∀ i, _ := hκ G (fun i => (u - v) + r i) (‖u - v‖ + d) (fun i hi => absurd hi (hx0 i)) (fun i => by
    have := hdis i
    rw [eY i] at this
    convert this using 2
    abel) (fun i => (norm_add_le _ _).trans (by linarith [hr i]))
  refine ⟨perturbed_step (fun i => (hw i).le) hsum hP hκ0 hd eY e1 hdis hr hr1 fun i => (hb i).2, fun i => ?_⟩
  rw [eY i]
  have n0 := norm_nonneg (u - v)
  calc ‖(u - v) + ∑ j, c.Q i j • G j + r i‖ ≤ ‖u - v‖ + ‖∑ j, c.Q i j • G j‖ + ‖r i‖ := norm_add₃_le
    _ ≤ _ := by nlinarith [(hb i).1, hr i]

/-- Instance: the backward Euler step, three Radau nodes and a cubic equation. -/
example : ∃ c : Collocation 3, Collocation.new 3 "LEGENDRE" "RADAU-RIGHT" 0 1 = .ok c ∧ ∃ C : ℝ, 0 ≤ C ∧
    ∀ (h : ℝ), 0 ≤ h → ∀ (u v u1 v1 : ℝ) (Y Z r : Fin 3 → ℝ) (d : ℝ), (∀ i, ‖r i‖ ≤ d) →
      (∀ i, Y i = u + h • ∑ j, c.Q i j • (-(Y j) ^ 3) + r i) → u1 = u + h • ∑ i, c.weights i • (-(Y i) ^ 3) →
      RKStep c.nodes c.Q c.weights (fun _ u : ℝ => -u ^ 3) 0 h v Z v1 → ‖u1 - v1‖ ≤ ‖u - v‖ + C * d := by
  obtain ⟨c, hc⟩ := collocation_new_ok (M := 3) (nt := "LEGENDRE") (qt := "RADAU-RIGHT") (by decide)
    (by decide) ⟨by norm_num, fun _ => by norm_num⟩ 0 1
  obtain ⟨C, hC, H⟩ := C117_residuals (Or.inr rfl) c hc (unmoved_small (by norm_num) c hc)
  refine ⟨c, hc, C, hC, fun h hh u v u1 v1 Y Z r d hr hY h1 hv => ?_⟩
  refine (H (fun _ u : ℝ => -u ^ 3) (fun t x y => ?_) 0 h hh u v u1 v1 Y Z r 0 d hr
    (by rw [norm_zero]; exact (norm_nonneg _).trans (hr 0)) hY (by rw [add_zero]; exact h1) hv).1
  simp only [RCLike.inner_apply, conj_trivial]
  nlinarith [mul_nonneg (sq_nonneg (x - y)) (add_nonneg (add_nonneg (sq_nonneg x) (sq_nonneg y)) (sq_nonneg (x + y)))]

/-- The powers of the nodes are integrated exactly. -/
theorem coll_powers {M : ℕ} {nt qt : String} (c : Collocation M) (hc : Collocation.new M nt qt 0 1 = .ok c) :
    (∀ i, ∀ k < M, ∑ j, c.Q i j * c.nodes j ^ k = c.nodes i ^ (k + 1) / (k + 1)) ∧
    ∀ k < M, ∑ j, c.weights j * c.nodes j ^ k = 1 ^ (k + 1) / (k + 1) := by
  obtain ⟨x', hM, hs⟩ := collocation_spec hc
  have hdeg : ∀ k < M, (X ^ k : ℝ[X]).degree < M := fun k hk => by rw [degree_X_pow]; exact_mod_cast hk
  refine ⟨fun i k hk => ?_, fun k hk => ?_⟩
  · have : ∑ j, c.Q i j * (X ^ k : ℝ[X]).eval (c.nodes j) = polyInt (X ^ k) 0 (c.nodes i) :=
      hs.Q_exact (by norm_num) (X ^ k) (hdeg k hk) i
    rw [polyInt_X_pow] at this
    simpa using this
  · have : ∑ j, c.weights j * (X ^ k : ℝ[X]).eval (c.nodes j) = polyInt (X ^ k) 0 1 :=
      hs.weights_exact (by norm_num) (X ^ k) (hdeg k hk)
    rw [polyInt_X_pow] at this
    simpa using this

/-- C117 (convergence), `GAUSS` and `RADAU-RIGHT` with `M` nodes: there is a number `C` such that on every dissipative equation, in every
inner product space, and for every solution whose derivative of order `M + 1` is bounded by `K`, steps of any sizes at most `H` miss the
solution by at most `C K (t_n - t_0) H ^ M`, plus the error of the initial value, plus `C d` per step if the stage equations are solved up
to residuals of size `d`. `C` does not depend on the Lipschitz constant of the equation, that is on its stiffness, nor on `H`. -/
theorem C117_convergence {M : ℕ} {qt : String} (hqt : qt = "GAUSS" ∨ qt = "RADAU-RIGHT") (c : Collocation M)
    (hc : Collocation.new M "LEGENDRE" qt 0 1 = .ok c) (hun : Unmoved "LEGENDRE" qt c) :
    ∃ C : ℝ, 0 ≤ C ∧ ∀ {E : Type*} [NormedAddCommGroup E] [InnerProductSpace ℝ E]
      (f : ℝ → E → E), (∀ t x y, inner ℝ (f t x - f t y) (x - y) ≤ 0) → ∀ (t0 T K : ℝ) (D : ℕ → ℝ → E),
      (∀ k < M + 1, ∀ t ∈ Set.Icc t0 T, HasDerivWithinAt (D k) (D (k + 1) t) (Set.Icc t0 T) t) →
      (∀ t ∈ Set.Icc t0 T, D 1 t = f t (D 0 t)) → (∀ t ∈ Set.Icc t0 T, ‖D (M + 1) t‖ ≤ K) →
      ∀ (N : ℕ) (H d : ℝ) (τ h : ℕ → ℝ), τ 0 = t0 → (∀ n < N, 0 ≤ h n ∧ h n ≤ H ∧ τ (n + 1) = τ n + h n) → τ N ≤ T → 0 ≤ d →
      ∀ (u : ℕ → E) (Y r : ℕ → Fin M → E) (r1 : ℕ → E), (∀ n < N, (∀ i, ‖r n i‖ ≤ d) ∧ ‖r1 n‖ ≤ d ∧
        (∀ i, Y n i = u n + h n • ∑ j, c.Q i j • f (τ n + h n * c.nodes j) (Y n j) + r n i) ∧
        u (n + 1) = u n + h n • ∑ i, c.weights i • f (τ n + h n * c.nodes i) (Y n i) + r1 n) →
      ∀ n ≤ N, ‖u n - D 0 (τ n)‖ ≤ ‖u 0 - D 0 t0‖ + C * (K * (τ n - t0) * H ^ M + n * d) := by
  obtain ⟨κ, hκ0, hκ⟩ := legendre_stage_bound c hc hun
  obtain ⟨x', hM, hs⟩ := collocation_spec hc
  obtain ⟨hw, hP⟩ := C78_algebraic hqt c hc hun
  obtain ⟨-, hx, -, -⟩ := C24_collocation_nodes (by norm_num) c hc
  obtain ⟨hQ, hW⟩ := coll_powers c hc
  have hsum : ∑ i, c.weights i = 1 := by simpa using hW 0 hM
  have hx0 := nodes_ne_zero hqt c hc hun
  set α := 1 + ∑ i, ∑ j, |c.Q i j| + ∑ j, |c.weights j| with hα
  have hQα : ∀ i, 1 + ∑ j, |c.Q i j| ≤ α := fun i => by
    have h1 := Finset.single_le_sum (f := fun i => ∑ j, |c.Q i j|)
      (fun i _ => Finset.sum_nonneg fun j _ => abs_nonneg _) (Finset.mem_univ i)
    have h2 : 0 ≤ ∑ j, |c.weights j| := Finset.sum_nonneg fun j _ => abs_nonneg _
    change ∑ j, |c.Q i j| ≤ ∑ i, ∑ j, |c.Q i j| at h1
    linarith
  have hWα : 1 + ∑ j, |c.weights j| ≤ α := by
    have h2 : 0 ≤ ∑ i, ∑ j, |c.Q i j| := Finset.sum_nonneg fun i _ => Finset.sum_nonneg fun j _ => abs_nonneg _
    linarith
  have hα1 : 1 ≤ α := by
    have h2 : 0 ≤ ∑ j, |c.weights j| := Finset.sum_nonneg fun j _ => abs_nonneg _
    linarith
  refine ⟨(κ + 3) * α, by positivity, ?_⟩
  intro E _ _ f hf t0 T K D hD hsol hK N H d τ h hτ0 hτ hτN hd u Y r r1 hstep
  have hτmono : ∀ n m, n ≤ m → m ≤ N → τ n ≤ τ m := by
    intro n m hnm
    induction m, hnm using Nat.le_induction with
    | base => intro _; exact le_rfl
    | succ m hnm ih =>
      intro hm
      have := hτ m (by omega)
      rw [this.2.2]
      linarith [ih (by omega)]
  intro n
  induction n with
  | zero => intro _; simp [hτ0]
  | succ n ih =>
    intro hn
    have ih' := ih (by omega)
    obtain ⟨hh, hH, hτn⟩ := hτ n (by omega)
    obtain ⟨hr, hr1, hY, h1⟩ := hstep n (by omega)
    have hlo : t0 ≤ τ n := by rw [← hτ0]; exact hτmono 0 n (by omega) (by omega)
    have hhi : τ n + h n ≤ T := by rw [← hτn]; exact (hτmono (n + 1) N hn le_rfl).trans hτN
    have hsub : Set.Icc (τ n) (τ n + h n) ⊆ Set.Icc t0 T := Set.Icc_subset_Icc hlo hhi
    have hD' : ∀ k < M + 1, ∀ s ∈ Set.Icc (τ n) (τ n + h n), HasDerivWithinAt (D k) (D (k + 1) s) (Set.Icc (τ n) (τ n + h n)) s :=
      fun k hk s hs => (hD k hk s (hsub hs)).mono hsub
    have hK' : ∀ s ∈ Set.Icc (τ n) (τ n + h n), ‖D (M + 1) s‖ ≤ K := fun s hs => hK s (hsub hs)
    have hin : ∀ j, τ n + h n * c.nodes j ∈ Set.Icc t0 T := fun j =>
      hsub ⟨by nlinarith [(hx j).1], by nlinarith [(hx j).2]⟩
    have hK0 : 0 ≤ K := (norm_nonneg _).trans (hK' (τ n) ⟨le_rfl, by linarith⟩)
    have hp0 : 0 ≤ K * h n ^ (M + 1) := by positivity
    have dq : ∀ i, _ := fun i => quad_defect hM hx (hx i) (hQ i) D hh hD' hK'
    have dw := quad_defect hM hx ⟨zero_le_one, le_rfl⟩ hW D hh hD' hK'
    simp only [mul_one, fun j => hsol _ (hin j)] at dq dw
    set δ : Fin M → E := fun i => D 0 (τ n + h n * c.nodes i) - D 0 (τ n) -
      h n • ∑ j, c.Q i j • f (τ n + h n * c.nodes j) (D 0 (τ n + h n * c.nodes j)) with hδ
    set δ1 : E := D 0 (τ n + h n) - D 0 (τ n) -
      h n • ∑ j, c.weights j • f (τ n + h n * c.nodes j) (D 0 (τ n + h n * c.nodes j)) with hδ1
    set G : Fin M → E := fun j => h n • (f (τ n + h n * c.nodes j) (Y n j) -
      f (τ n + h n * c.nodes j) (D 0 (τ n + h n * c.nodes j))) with hG
    set η := α * (K * h n ^ (M + 1)) + d with hη
    have hη0 : 0 ≤ η := by positivity
    have eY : ∀ i, Y n i - D 0 (τ n + h n * c.nodes i) = (u n - D 0 (τ n)) + ∑ j, c.Q i j • G j + (r n i - δ i) := fun i => by
      conv_lhs => rw [hY i]
      simp only [hG, hδ, smul_sub, Finset.sum_sub_distrib, Finset.smul_sum, smul_comm (h n)]
      abel
    have e1 : u (n + 1) - D 0 (τ (n + 1)) = (u n - D 0 (τ n)) + ∑ i, c.weights i • G i + (r1 n - δ1) := by
      rw [h1, hτn]
      simp only [hG, hδ1, smul_sub, Finset.sum_sub_distrib, Finset.smul_sum, smul_comm (h n)]
      abel
    have hdis : ∀ i, inner ℝ (G i) (Y n i - D 0 (τ n + h n * c.nodes i)) ≤ 0 := fun i => by
      simp only [hG]
      rw [inner_smul_left, conj_trivial]
      exact mul_nonpos_of_nonneg_of_nonpos hh (hf _ _ _)
    have hρ : ∀ i, ‖r n i - δ i‖ ≤ η := fun i => by
      refine (norm_sub_le _ _).trans ?_
      have := (dq i).trans (mul_le_mul_of_nonneg_right (hQα i) hp0)
      linarith [hr i]
    have hρ1 : ‖r1 n - δ1‖ ≤ η := by
      refine (norm_sub_le _ _).trans ?_
      have := dw.trans (mul_le_mul_of_nonneg_right hWα hp0)
      linarith
    have hb : ∀ i, _ := hκ G (fun i => (u n - D 0 (τ n)) + (r n i - δ i)) (‖u n - D 0 (τ n)‖ + η)
      (fun i hi => absurd hi (hx0 i)) (fun i => by
        have := hdis i
        rw [eY i] at this
        convert this using 2
        abel) (fun i => (norm_add_le _ _).trans (by linarith [hρ i]))
    have hfin := perturbed_step (fun i => (hw i).le) hsum hP hκ0 hη0 eY e1 hdis hρ hρ1 fun i => (hb i).2
    have hpow : K * h n ^ (M + 1) ≤ K * h n * H ^ M := by
      rw [pow_succ', mul_assoc]
      exact mul_le_mul_of_nonneg_left (mul_le_mul_of_nonneg_left (pow_le_pow_left₀ hh hH M) hh) hK0
    have hη' : η ≤ α * (K * h n * H ^ M + d) := by
      have := mul_le_mul_of_nonneg_left hpow (by linarith : (0:ℝ) ≤ α)
      have h2 : d ≤ α * d := le_mul_of_one_le_left hd hα1
      rw [hη, mul_add]
      linarith
    have h3 : (κ + 3) * η ≤ (κ + 3) * (α * (K * h n * H ^ M + d)) := mul_le_mul_of_nonneg_left hη' (by positivity)
    have h4 : (κ + 3) * α * (K * (τ (n + 1) - t0) * H ^ M + (n + 1 : ℕ) * d) =
        (κ + 3) * α * (K * (τ n - t0) * H ^ M + n * d) + (κ + 3) * (α * (K * h n * H ^ M + d)) := by
      rw [hτn]; push_cast; ring
    rw [h4]
    linarith

/-- Instance: two Gauss nodes, `u' = -λ (u - cos t) - sin t` with the solution `cos t`: the bound is the same for every `λ ≥ 0`. -/
example : ∃ c : Collocation 2, Collocation.new 2 "LEGENDRE" "GAUSS" 0 1 = .ok c ∧ ∃ C : ℝ, ∀ (l T h : ℝ), 0 ≤ l → 0 ≤ h →
    ∀ (N : ℕ), N * h ≤ T → ∀ (u : ℕ → ℝ) (Y : ℕ → Fin 2 → ℝ), u 0 = 1 → (∀ n < N, RKStep c.nodes c.Q c.weights
      (fun t u => -l * (u - Real.cos t) - Real.sin t) (n * h) h (u n) (Y n) (u (n + 1))) →
    ∀ n ≤ N, |u n - Real.cos (n * h)| ≤ C * (n * h) * h ^ 2 := by
  obtain ⟨c, hc⟩ := collocation_new_ok (M := 2) (nt := "LEGENDRE") (qt := "GAUSS") (by decide)
    (by decide) ⟨by norm_num, fun h => by simp at h⟩ 0 1
  obtain ⟨C, hC, H⟩ := C117_convergence (Or.inl rfl) c hc (unmoved_small (by norm_num) c hc)
  refine ⟨c, hc, C, fun l T h hl hh N hN u Y hu hs n hn => ?_⟩
  have := H (fun t u => -l * (u - Real.cos t) - Real.sin t) (fun t x y => by
      simp only [RCLike.inner_apply, conj_trivial]
      have : (x - y) * (-l * (x - Real.cos t) - Real.sin t - (-l * (y - Real.cos t) - Real.sin t)) = -(l * (x - y) ^ 2) := by ring
      rw [this]
      have := mul_nonneg hl (sq_nonneg (x - y))
      linarith) 0 T 1 (fun k t => Real.cos (t + k * (Real.pi / 2))) (fun k _ t _ => by
      have h1 := ((Real.hasDerivAt_cos (t + k * (Real.pi / 2))).comp t ((hasDerivAt_id t).add_const _)).hasDerivWithinAt
        (s := Set.Icc 0 T)
      refine h1.congr_deriv ?_
      rw [mul_one, ← Real.cos_add_pi_div_two]
      congr 1
      push_cast
      ring) (fun t _ => by
      simp [Real.cos_add_pi_div_two]) (fun t _ => by
      rw [Real.norm_eq_abs]; exact Real.abs_cos_le_one _) N h 0 (fun n => n * h) (fun _ => h) (by simp)
    (fun n _ => ⟨hh, le_rfl, by push_cast; ring⟩) hN le_rfl u Y (fun _ _ => 0) (fun _ => 0)
    (fun n hn => ⟨fun _ => by simp, by simp, fun i => by rw [add_zero]; exact (hs n hn).stages i, by
      rw [add_zero]; exact (hs n hn).result⟩) n hn
  simpa [hu, mul_assoc] using this

end QMat
