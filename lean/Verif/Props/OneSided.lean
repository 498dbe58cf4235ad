import Verif.Props.BConvergence

/-!
# C120: Legendre collocation on equations with a one-sided Lipschitz constant
-/

namespace QMat

open Polynomial Spec NodesGenerator Matrix

section lemmas

variable {M : ℕ} {x w : Fin M → ℝ} {A : Matrix (Fin M) (Fin M) ℝ} {E : Type*} [NormedAddCommGroup E] [InnerProductSpace ℝ E]

/-- A combination of small vectors. -/
theorem norm_sum_smul_le {a : Fin M → ℝ} {β ε : ℝ} (hβ : ∑ j, |a j| ≤ β) (hε : 0 ≤ ε) {v : Fin M → E} (hv : ∀ j, ‖v j‖ ≤ ε) :
    ‖∑ j, a j • v j‖ ≤ β * ε := by
  refine (norm_sum_le _ _).trans ?_
  calc ∑ j, ‖a j • v j‖ ≤ ∑ j, |a j| * ε := Finset.sum_le_sum fun j _ => by
        rw [norm_smul, Real.norm_eq_abs]; exact mul_le_mul_of_nonneg_left (hv j) (abs_nonneg _)
    _ = (∑ j, |a j|) * ε := by rw [Finset.sum_mul]
    _ ≤ β * ε := mul_le_mul_of_nonneg_right hβ hε

/-- The shifted slopes are dissipative, and the differences of the stages are bounded. -/
theorem shifted_stages {κ β m d : ℝ} (hκ0 : 0 ≤ κ)
    (hκ : ∀ (G η : Fin M → E) (d : ℝ), (∀ i, x i = 0 → G i = 0) → (∀ i, inner ℝ (G i) (∑ j, A i j • G j + η i) ≤ 0) →
      (∀ i, ‖η i‖ ≤ d) → ∀ i, ‖∑ j, A i j • G j‖ ≤ κ * d ∧ ‖G i‖ ≤ κ * d)
    (hβ : ∀ i, ∑ j, |A i j| ≤ β) (hm : 0 ≤ m) (hβ0 : 0 ≤ β) (hsmall : 2 * ((κ + 1) * (m * β)) ≤ 1) (hd : 0 ≤ d)
    {e G η : Fin M → E} (he : ∀ i, e i = ∑ j, A i j • G j + η i) (hz : ∀ i, x i = 0 → G i = 0 ∧ e i = 0)
    (hos : ∀ i, inner ℝ (G i) (e i) ≤ m * ‖e i‖ ^ 2) (hη : ∀ i, ‖η i‖ ≤ d) :
    (∀ i, inner ℝ (G i - m • e i) (e i) ≤ 0) ∧ (∀ i, e i = ∑ j, A i j • (G j - m • e j) + (η i + ∑ j, A i j • (m • e j))) ∧
    (∀ i, ‖e i‖ ≤ 2 * (κ + 1) * d) ∧ ∀ i, ‖G i - m • e i‖ ≤ κ * (d + m * β * (2 * (κ + 1) * d)) := by
  have h1 : ∀ i, inner ℝ (G i - m • e i) (e i) ≤ 0 := fun i => by
    rw [inner_sub_left, inner_smul_left, conj_trivial, real_inner_self_eq_norm_sq]
    linarith [hos i]
  have h2 : ∀ i, e i = ∑ j, A i j • (G j - m • e j) + (η i + ∑ j, A i j • (m • e j)) := fun i => by
    simp only [smul_sub, Finset.sum_sub_distrib]
    conv_lhs => rw [he i]
    abel
  -- the largest difference
  have hE : ∃ ε, 0 ≤ ε ∧ (∀ i, ‖e i‖ ≤ ε) ∧ ∀ b, 0 ≤ b → (∀ i, ‖e i‖ ≤ b) → ε ≤ b :=
    ⟨‖e‖, norm_nonneg _, fun i => norm_le_pi_norm e i, fun b hb h => (pi_norm_le_iff_of_nonneg hb).2 h⟩
  obtain ⟨ε, hε0, hε, hmin⟩ := hE
  have hη' : ∀ i, ‖η i + ∑ j, A i j • (m • e j)‖ ≤ d + m * β * ε := fun i => by
    refine (norm_add_le _ _).trans (add_le_add (hη i) ?_)
    refine (norm_sum_smul_le (hβ i) (mul_nonneg hm hε0) (v := fun j => m • e j) (fun j => ?_)).trans (le_of_eq (by ring))
    rw [norm_smul, Real.norm_eq_abs, abs_of_nonneg hm]
    exact mul_le_mul_of_nonneg_left (hε j) hm
  have hb := hκ (fun i => G i - m • e i) (fun i => η i + ∑ j, A i j • (m • e j)) (d + m * β * ε)
    (fun i hi => by rw [(hz i hi).1, (hz i hi).2, smul_zero, sub_zero]) (fun i => by rw [← h2 i]; exact h1 i) hη'
  have hmβ : 0 ≤ m * β := mul_nonneg hm hβ0
  have h3 : ε ≤ (κ + 1) * (d + m * β * ε) := by
    refine hmin _ (by positivity) fun i => ?_
    rw [h2 i]
    refine (norm_add_le _ _).trans ?_
    linarith [(hb i).1, hη' i]
  have h4 : ε ≤ 2 * (κ + 1) * d := by
    have : (κ + 1) * (m * β) * ε ≤ 1 / 2 * ε := mul_le_mul_of_nonneg_right (by linarith) hε0
    linarith
  refine ⟨h1, h2, fun i => (hε i).trans h4, fun i => (hb i).2.trans (mul_le_mul_of_nonneg_left ?_ hκ0)⟩
  linarith [mul_le_mul_of_nonneg_left h4 hmβ]

/-- Two perturbed steps of an algebraically stable method on an equation with one-sided Lipschitz constant. -/
theorem shifted_step (hw : ∀ i, 0 ≤ w i) (hsum : ∑ i, w i = 1)
    (hP : ∀ v : Fin M → ℝ, 0 ≤ ∑ i, ∑ j, stabMatrix A w i j * (v i * v j)) {κ β m d : ℝ} (hκ0 : 0 ≤ κ)
    (hκ : ∀ (G η : Fin M → E) (d : ℝ), (∀ i, x i = 0 → G i = 0) → (∀ i, inner ℝ (G i) (∑ j, A i j • G j + η i) ≤ 0) →
      (∀ i, ‖η i‖ ≤ d) → ∀ i, ‖∑ j, A i j • G j‖ ≤ κ * d ∧ ‖G i‖ ≤ κ * d)
    (hβ : ∀ i, ∑ j, |A i j| ≤ β) (hβ1 : 1 ≤ β) (hm : 0 ≤ m) (hsmall : 2 * ((κ + 1) * (m * β)) ≤ 1) (hd : 0 ≤ d) (hx : ∀ i, x i ≠ 0)
    {e0 e1 r : E} {e G ρ : Fin M → E} (he : ∀ i, e i = e0 + ∑ j, A i j • G j + ρ i) (h1 : e1 = e0 + ∑ i, w i • G i + r)
    (hos : ∀ i, inner ℝ (G i) (e i) ≤ m * ‖e i‖ ^ 2) (hρ : ∀ i, ‖ρ i‖ ≤ d) (hr : ‖r‖ ≤ d) :
    ‖e1‖ ≤ (1 + 2 * (κ + 3) * (κ + 1) * β * m) * ‖e0‖ + 2 * (κ + 3) * d ∧ ∀ i, ‖e i‖ ≤ 2 * (κ + 1) * (‖e0‖ + d) := by
  have n0 := norm_nonneg e0
  obtain ⟨k1, k2, k3, k4⟩ := shifted_stages (η := fun i => e0 + ρ i) (d := ‖e0‖ + d) hκ0 hκ hβ hm (by linarith) hsmall (by positivity)
    (fun i => by rw [he i]; abel) (fun i hi => absurd hi (hx i)) hos (fun i => (norm_add_le _ _).trans (by linarith [hρ i]))
  refine ⟨?_, k3⟩
  set ε := 2 * (κ + 1) * (‖e0‖ + d) with hε
  have hε0 : 0 ≤ ε := by positivity
  have hme : ∀ j, ‖m • e j‖ ≤ m * ε := fun j => by
    rw [norm_smul, Real.norm_eq_abs, abs_of_nonneg hm]; exact mul_le_mul_of_nonneg_left (k3 j) hm
  have hwβ : ∑ j, |w j| ≤ β := by
    simp only [fun j => abs_of_nonneg (hw j)]; rw [hsum]; exact hβ1
  have hfin := perturbed_step (A := A) (w := w) (d := d + m * β * ε) (ρ := fun i => ρ i + ∑ j, A i j • (m • e j))
    (r := r + ∑ j, w j • (m • e j)) (e0 := e0) (e1 := e1) (Y := e) (G := fun i => G i - m • e i) hw hsum hP hκ0
    (by have : 0 ≤ m * β := mul_nonneg hm (by linarith)
        positivity)
    (fun i => by rw [k2 i]; abel_nf) (by
      rw [h1]; simp only [smul_sub, Finset.sum_sub_distrib]; abel) k1
    (fun i => (norm_add_le _ _).trans (add_le_add (hρ i) ((norm_sum_smul_le (hβ i) (mul_nonneg hm hε0) hme).trans (le_of_eq (by ring)))))
    ((norm_add_le _ _).trans (add_le_add hr ((norm_sum_smul_le hwβ (mul_nonneg hm hε0) hme).trans (le_of_eq (by ring)))))
    (fun i => (k4 i).trans (le_of_eq (by ring)))
  refine hfin.trans ?_
  have h5 : 2 * ((κ + 1) * (m * β)) * ((κ + 3) * d) ≤ 1 * ((κ + 3) * d) := mul_le_mul_of_nonneg_right hsmall (by positivity)
  rw [hε]
  linarith

end lemmas

/-- C120 (residuals), `GAUSS` and `RADAU-RIGHT`: there is a number `C`, depending only on the coefficients, such that on every equation
with one-sided Lipschitz constant `μ`, in every inner product space, for steps with `C h μ ≤ 1`: residuals of size `d` change the result of
a step by at most `C d`, and different initial values are moved apart by at most the factor `1 + C h μ`. -/
theorem C120_residuals {M : ℕ} {qt : String} (hqt : qt = "GAUSS" ∨ qt = "RADAU-RIGHT") (c : Collocation M)
    (hc : Collocation.new M "LEGENDRE" qt 0 1 = .ok c) (hun : Unmoved "LEGENDRE" qt c) :
    ∃ C : ℝ, 1 ≤ C ∧ ∀ {E : Type*} [NormedAddCommGroup E] [InnerProductSpace ℝ E]
      (f : ℝ → E → E) (μ : ℝ), 0 ≤ μ → (∀ t x y, inner ℝ (f t x - f t y) (x - y) ≤ μ * ‖x - y‖ ^ 2) →
      ∀ (t h : ℝ), 0 ≤ h → C * (h * μ) ≤ 1 → ∀ (u v u1 v1 : E)
      (Y Z r s : Fin M → E) (r1 s1 : E) (d : ℝ), (∀ i, ‖r i - s i‖ ≤ d) → ‖r1 - s1‖ ≤ d →
      (∀ i, Y i = u + h • ∑ j, c.Q i j • f (t + h * c.nodes j) (Y j) + r i) →
      u1 = u + h • ∑ i, c.weights i • f (t + h * c.nodes i) (Y i) + r1 →
      (∀ i, Z i = v + h • ∑ j, c.Q i j • f (t + h * c.nodes j) (Z j) + s i) →
      v1 = v + h • ∑ i, c.weights i • f (t + h * c.nodes i) (Z i) + s1 →
      ‖u1 - v1‖ ≤ (1 + C * (h * μ)) * ‖u - v‖ + C * d ∧ ∀ i, ‖Y i - Z i‖ ≤ C * (‖u - v‖ + d) := by
  obtain ⟨κ, hκ0, hκ⟩ := legendre_stage_bound c hc hun
  obtain ⟨x', hM, hs⟩ := collocation_spec hc
  obtain ⟨hw, hP⟩ := C78_algebraic hqt c hc hun
  have hsum : ∑ i, c.weights i = 1 := by simpa using (coll_powers c hc).2 0 hM
  have hx0 := nodes_ne_zero hqt c hc hun
  set β := 1 + ∑ i, ∑ j, |c.Q i j| with hβ
  have hS0 : 0 ≤ ∑ i, ∑ j, |c.Q i j| := Finset.sum_nonneg fun i _ => Finset.sum_nonneg fun j _ => abs_nonneg _
  have hβ1 : 1 ≤ β := by linarith
  have hQβ : ∀ i, ∑ j, |c.Q i j| ≤ β := fun i => by
    have h1 := Finset.single_le_sum (f := fun i => ∑ j, |c.Q i j|)
      (fun i _ => Finset.sum_nonneg fun j _ => abs_nonneg _) (Finset.mem_univ i)
    change ∑ j, |c.Q i j| ≤ ∑ i, ∑ j, |c.Q i j| at h1
    linarith
  set C := 2 * (κ + 3) * (κ + 1) * β with hC
  have hC1 : 2 * (κ + 3) ≤ C := by
    have : 2 * (κ + 3) * 1 ≤ 2 * (κ + 3) * ((κ + 1) * β) := mul_le_mul_of_nonneg_left (by nlinarith) (by positivity)
    rw [hC]; linarith
  have hC2 : 2 * (κ + 1) ≤ C := by linarith
  refine ⟨C, by linarith, ?_⟩
  intro E _ _ f μ hμ hf t h hh hsm u v u1 v1 Y Z r s r1 s1 d hr hr1 hY h1 hZ h2
  have hd : 0 ≤ d := (norm_nonneg _).trans hr1
  have hm : 0 ≤ h * μ := mul_nonneg hh hμ
  have hsmall : 2 * ((κ + 1) * (h * μ * β)) ≤ 1 := by
    have h3 : 0 ≤ 2 * ((κ + 1) * (h * μ * β)) := by positivity
    have h4 : C * (h * μ) = (κ + 3) * (2 * ((κ + 1) * (h * μ * β))) := by rw [hC]; ring
    rw [h4] at hsm
    nlinarith
  obtain ⟨k1, k2⟩ := shifted_step (fun i => (hw i).le) hsum hP hκ0 hκ hQβ hβ1 hm hsmall hd hx0
    (e0 := u - v) (e1 := u1 - v1) (r := r1 - s1) (e := fun i => Y i - Z i) (ρ := fun i => r i - s i)
    (G := fun j => h • (f (t + h * c.nodes j) (Y j) - f (t + h * c.nodes j) (Z j)))
    (fun i => by
      conv_lhs => rw [hY i, hZ i]
      simp only [smul_sub, Finset.sum_sub_distrib, Finset.smul_sum, smul_comm h]
      abel)
    (by
      rw [h1, h2]
      simp only [smul_sub, Finset.sum_sub_distrib, Finset.smul_sum, smul_comm h]
      abel)
    (fun i => by
      rw [inner_smul_left, conj_trivial, mul_assoc]
      exact mul_le_mul_of_nonneg_left (hf _ _ _) hh) hr hr1
  have n0 := norm_nonneg (u - v)
  refine ⟨k1.trans ?_, fun i => (k2 i).trans (mul_le_mul_of_nonneg_right hC2 (by positivity))⟩
  have := mul_le_mul_of_nonneg_right hC1 hd
  linarith

/-- C120 (uniqueness and solvability), every quadrature type: there is a number `C` such that, on every equation with one-sided Lipschitz
constant `μ`, steps with `C h μ ≤ 1` have at most one result, and exactly one if the equation is Lipschitz continuous and the space
complete, however large the Lipschitz constant is. -/
theorem C120_solvable {M : ℕ} {qt : String} (c : Collocation M) (hc : Collocation.new M "LEGENDRE" qt 0 1 = .ok c)
    (hun : Unmoved "LEGENDRE" qt c) :
    ∃ C : ℝ, 1 ≤ C ∧ ∀ {E : Type*} [NormedAddCommGroup E] [InnerProductSpace ℝ E]
      (f : ℝ → E → E) (μ : ℝ), 0 ≤ μ → (∀ t x y, inner ℝ (f t x - f t y) (x - y) ≤ μ * ‖x - y‖ ^ 2) →
      ∀ (t h : ℝ), 0 ≤ h → C * (h * μ) ≤ 1 → ∀ u : E,
      (∀ v v' : (Fin M → E) × E, RKStep c.nodes c.Q c.weights f t h u v.1 v.2 → RKStep c.nodes c.Q c.weights f t h u v'.1 v'.2 → v = v') ∧
      ∀ [CompleteSpace E], (∀ t, ∃ L, ∀ x y, ‖f t x - f t y‖ ≤ L * ‖x - y‖) →
        ∃! v : (Fin M → E) × E, RKStep c.nodes c.Q c.weights f t h u v.1 v.2 := by
  classical
  obtain ⟨κ, hκ0, hκ⟩ := legendre_stage_bound c hc hun
  set β := 1 + ∑ i, ∑ j, |c.Q i j| with hβ
  have hS0 : 0 ≤ ∑ i, ∑ j, |c.Q i j| := Finset.sum_nonneg fun i _ => Finset.sum_nonneg fun j _ => abs_nonneg _
  have hβ1 : 1 ≤ β := by linarith
  have hQβ : ∀ i, ∑ j, |c.Q i j| ≤ β := fun i => by
    have h1 := Finset.single_le_sum (f := fun i => ∑ j, |c.Q i j|)
      (fun i _ => Finset.sum_nonneg fun j _ => abs_nonneg _) (Finset.mem_univ i)
    change ∑ j, |c.Q i j| ≤ ∑ i, ∑ j, |c.Q i j| at h1
    linarith
  refine ⟨2 * (κ + 1) * β, by nlinarith, ?_⟩
  intro E _ _ f μ hμ hf t h hh hsm u
  have hm : 0 ≤ h * μ := mul_nonneg hh hμ
  have hsmall : 2 * ((κ + 1) * (h * μ * β)) ≤ 1 := by
    have : 2 * (κ + 1) * β * (h * μ) = 2 * ((κ + 1) * (h * μ * β)) := by ring
    linarith
  have huniq : ∀ v v' : (Fin M → E) × E, RKStep c.nodes c.Q c.weights f t h u v.1 v.2 →
      RKStep c.nodes c.Q c.weights f t h u v'.1 v'.2 → v = v' := by
    rintro ⟨Y, u1⟩ ⟨Y', u1'⟩ hu hu'
    change RKStep c.nodes c.Q c.weights f t h u Y u1 at hu
    change RKStep c.nodes c.Q c.weights f t h u Y' u1' at hu'
    have hrow : ∀ i, c.nodes i = 0 → Y i = Y' i := fun i hi => by
      rw [hu.stages i, hu'.stages i]
      simp [zero_row c hc hi]
    obtain ⟨-, -, k3, -⟩ := shifted_stages (x := c.nodes) (A := c.Q) (d := 0) (m := h * μ) (e := fun i => Y i - Y' i) (η := fun _ => 0)
      (G := fun j => h • (f (t + h * c.nodes j) (Y j) - f (t + h * c.nodes j) (Y' j))) hκ0 hκ hQβ hm (by linarith) hsmall le_rfl
      (fun i => by
        conv_lhs => rw [hu.stages i, hu'.stages i]
        simp only [smul_sub, Finset.sum_sub_distrib, Finset.smul_sum, smul_comm h]
        abel)
      (fun i hi => by simp only [hrow i hi, sub_self, smul_zero, and_self])
      (fun i => by
        rw [inner_smul_left, conj_trivial, mul_assoc]
        exact mul_le_mul_of_nonneg_left (hf _ _ _) hh) (fun i => by simp)
    have hY : Y = Y' := by
      funext i
      have := k3 i
      rw [mul_zero] at this
      exact sub_eq_zero.1 (norm_le_zero_iff.1 this)
    have h1 : u1 = u1' := by
      rw [hu.result, hu'.result, hY]
    rw [hY, h1]
  refine ⟨huniq, ?_⟩
  intro _ hL
  choose L hL using hL
  let F : Fin M → E → E := fun i y =>
    h • (f (t + h * c.nodes i) (if c.nodes i = 0 then u else y) - μ • (if c.nodes i = 0 then u else y))
  set Λ := h * (∑ i, |L (t + h * c.nodes i)| + μ) with hΛ
  have hΛ0 : 0 ≤ Λ := mul_nonneg hh (add_nonneg (Finset.sum_nonneg fun i _ => abs_nonneg _) hμ)
  have hFd : ∀ i a b, inner ℝ (F i a - F i b) (a - b) ≤ 0 := fun i a b => by
    simp only [F]
    split
    · simp
    · rw [← smul_sub, inner_smul_left, conj_trivial, sub_sub_sub_comm, ← smul_sub, inner_sub_left, inner_smul_left, conj_trivial,
        real_inner_self_eq_norm_sq]
      exact mul_nonpos_of_nonneg_of_nonpos hh (by linarith [hf (t + h * c.nodes i) a b])
  have hF0 : ∀ i, c.nodes i = 0 → ∀ a b, F i a = F i b := fun i hi a b => by simp only [F, hi, if_true]
  have hex : ∀ W : Fin M → E, ∃ Y : Fin M → E, ∀ i, Y i = (u + ∑ j, c.Q i j • ((h * μ) • W j)) + ∑ j, c.Q i j • F j (Y j) := fun W =>
    stages_exist (x := c.nodes) (A := c.Q) hκ0 hκ (F := F) hFd hF0 hΛ0 (fun i a b => by
      simp only [F]
      split
      · simp only [sub_self, norm_zero]; positivity
      · rw [← smul_sub, norm_smul, Real.norm_eq_abs, abs_of_nonneg hh, hΛ, mul_assoc, sub_sub_sub_comm, ← smul_sub]
        refine mul_le_mul_of_nonneg_left ((norm_sub_le _ _).trans ?_) hh
        rw [norm_smul, Real.norm_eq_abs, abs_of_nonneg hμ, add_mul]
        refine add_le_add ((hL _ a b).trans (mul_le_mul_of_nonneg_right ?_ (norm_nonneg _))) le_rfl
        exact (le_abs_self _).trans (Finset.single_le_sum (f := fun i => |L (t + h * c.nodes i)|)
          (fun i _ => abs_nonneg _) (Finset.mem_univ i))) (fun i => u + ∑ j, c.Q i j • ((h * μ) • W j))
  choose T hT using hex
  have hlip : LipschitzWith (1 / 2) T := LipschitzWith.of_dist_le_mul fun W W' => by
    rw [dist_eq_norm, dist_eq_norm]
    have h1 : ∀ i, ‖T W i - T W' i‖ ≤ (κ + 1) * (β * (h * μ * ‖W - W'‖)) :=
      stages_lipschitz hκ hFd hF0 (hT W) (hT W') (fun i => by
        rw [add_sub_add_left_eq_sub, ← Finset.sum_sub_distrib]
        simp only [← smul_sub]
        refine norm_sum_smul_le (hQβ i) (by positivity) fun j => ?_
        rw [norm_smul, Real.norm_eq_abs, abs_of_nonneg hm]
        exact mul_le_mul_of_nonneg_left (norm_le_pi_norm (W - W') j) hm)
    refine (pi_norm_le_iff_of_nonneg (by positivity)).2 fun i => (h1 i).trans ?_
    have h2 : (κ + 1) * (β * (h * μ * ‖W - W'‖)) = (κ + 1) * (h * μ * β) * ‖W - W'‖ := by ring
    rw [h2]
    refine mul_le_mul_of_nonneg_right ?_ (norm_nonneg _)
    push_cast
    linarith
  have hcon : ContractingWith (1 / 2) T := ⟨by norm_num, hlip⟩
  obtain ⟨Y, hY⟩ : ∃ Y, T Y = Y := ⟨_, hcon.fixedPoint_isFixedPt⟩
  have hY1 : ∀ i, Y i = (u + ∑ j, c.Q i j • ((h * μ) • Y j)) + ∑ j, c.Q i j • F j (Y j) := fun i => by
    have := hT Y i
    rwa [hY] at this
  have hY0 : ∀ i, c.nodes i = 0 → Y i = u := fun i hi => by
    rw [hY1 i]; simp [zero_row c hc hi]
  have hFY : ∀ j, F j (Y j) = h • (f (t + h * c.nodes j) (Y j) - μ • Y j) := fun j => by
    simp only [F]
    split
    · next hj => rw [hY0 j hj]
    · rfl
  have hst : RKStep c.nodes c.Q c.weights f t h u Y (u + h • ∑ i, c.weights i • f (t + h * c.nodes i) (Y i)) := by
    refine ⟨fun i => ?_, rfl⟩
    conv_lhs => rw [hY1 i]
    simp only [hFY, Finset.smul_sum, smul_comm h, smul_sub, Finset.sum_sub_distrib, mul_smul]
    abel
  exact ⟨(Y, _), hst, fun v hv => huniq _ _ hv hst⟩

/-- C120 (convergence), `GAUSS` and `RADAU-RIGHT` with `M` nodes: there is a number `C` such that on every equation with one-sided Lipschitz
constant `μ`, in every inner product space, and for every solution whose derivative of order `M + 1` is bounded by `K`, steps of any sizes
at most `H`, with `C H μ ≤ 1`, miss the solution by at most `exp (C μ (t_n - t_0))` times the error of the initial value plus
`C K (t_n - t_0) H ^ M` plus `C d` per step if the stage equations are solved up to residuals of size `d`. -/
theorem C120_convergence {M : ℕ} {qt : String} (hqt : qt = "GAUSS" ∨ qt = "RADAU-RIGHT") (c : Collocation M)
    (hc : Collocation.new M "LEGENDRE" qt 0 1 = .ok c) (hun : Unmoved "LEGENDRE" qt c) :
    ∃ C : ℝ, 1 ≤ C ∧ ∀ {E : Type*} [NormedAddCommGroup E] [InnerProductSpace ℝ E]
      (f : ℝ → E → E) (μ : ℝ), 0 ≤ μ → (∀ t x y, inner ℝ (f t x - f t y) (x - y) ≤ μ * ‖x - y‖ ^ 2) → ∀ (t0 T K : ℝ) (D : ℕ → ℝ → E),
      (∀ k < M + 1, ∀ t ∈ Set.Icc t0 T, HasDerivWithinAt (D k) (D (k + 1) t) (Set.Icc t0 T) t) →
      (∀ t ∈ Set.Icc t0 T, D 1 t = f t (D 0 t)) → (∀ t ∈ Set.Icc t0 T, ‖D (M + 1) t‖ ≤ K) →
      ∀ (N : ℕ) (H d : ℝ) (τ h : ℕ → ℝ), C * (H * μ) ≤ 1 →
      τ 0 = t0 → (∀ n < N, 0 ≤ h n ∧ h n ≤ H ∧ τ (n + 1) = τ n + h n) → τ N ≤ T → 0 ≤ d →
      ∀ (u : ℕ → E) (Y r : ℕ → Fin M → E) (r1 : ℕ → E), (∀ n < N, (∀ i, ‖r n i‖ ≤ d) ∧ ‖r1 n‖ ≤ d ∧
        (∀ i, Y n i = u n + h n • ∑ j, c.Q i j • f (τ n + h n * c.nodes j) (Y n j) + r n i) ∧
        u (n + 1) = u n + h n • ∑ i, c.weights i • f (τ n + h n * c.nodes i) (Y n i) + r1 n) →
      ∀ n ≤ N, ‖u n - D 0 (τ n)‖ ≤ Real.exp (C * μ * (τ n - t0)) * (‖u 0 - D 0 t0‖ + C * (K * (τ n - t0) * H ^ M + n * d)) := by
  obtain ⟨C0, hC0, hres⟩ := C120_residuals hqt c hc hun
  obtain ⟨x', hM, hs⟩ := collocation_spec hc
  obtain ⟨-, hx, -, -⟩ := C24_collocation_nodes (by norm_num) c hc
  obtain ⟨hQ, hW⟩ := coll_powers c hc
  set α := 1 + ∑ i, ∑ j, |c.Q i j| + ∑ j, |c.weights j| with hα
  have hQα : ∀ i, 1 + ∑ j, |c.Q i j| ≤ α := fun i => by
    have h1 := Finset.single_le_sum (f := fun i => ∑ j, |c.Q i j|)
      (fun i _ => Finset.sum_nonneg fun j _ => abs_nonneg _) (Finset.mem_univ i)
    have h2 : 0 ≤ ∑ j, |c.weights j| := Finset.sum_nonneg fun j _ => abs_nonneg _
    change ∑ j, |c.Q i j| ≤ ∑ i, ∑ j, |c.Q i j| at h1
    linarith
  have hWα : 1 + ∑ j, |c.weights j| ≤ α := by
    have h2 : 0 ≤ ∑ i, ∑ j, |c.Q i j| := Finset.sum_nonneg fun i _ => Finset.sum_nonneg fun j _ => abs_nonneg _
    linarith
  have hα1 : 1 ≤ α := by
    have h2 : 0 ≤ ∑ j, |c.weights j| := Finset.sum_nonneg fun j _ => abs_nonneg _
    linarith
  have hCC : C0 ≤ C0 * α := le_mul_of_one_le_right (by linarith) hα1
  refine ⟨C0 * α, by linarith, ?_⟩
  intro E _ _ f μ hμ hf t0 T K D hD hsol hK N H d τ h hsm hτ0 hτ hτN hd u Y r r1 hstep
  have hτmono : ∀ n m, n ≤ m → m ≤ N → τ n ≤ τ m := by
    intro n m hnm
    induction m, hnm using Nat.le_induction with
    | base => intro _; exact le_rfl
    | succ m hnm ih =>
      intro hm
      have := hτ m (by omega)
      rw [this.2.2]
      linarith [ih (by omega)]
  intro n
  induction n with
  | zero => intro _; simp [hτ0]
  | succ n ih =>
    intro hn
    have ih' := ih (by omega)
    obtain ⟨hh, hH, hτn⟩ := hτ n (by omega)
    obtain ⟨hr, hr1, hY, h1⟩ := hstep n (by omega)
    have hlo : t0 ≤ τ n := by rw [← hτ0]; exact hτmono 0 n (by omega) (by omega)
    have hhi : τ n + h n ≤ T := by rw [← hτn]; exact (hτmono (n + 1) N hn le_rfl).trans hτN
    have hsub : Set.Icc (τ n) (τ n + h n) ⊆ Set.Icc t0 T := Set.Icc_subset_Icc hlo hhi
    have hD' : ∀ k < M + 1, ∀ s ∈ Set.Icc (τ n) (τ n + h n), HasDerivWithinAt (D k) (D (k + 1) s) (Set.Icc (τ n) (τ n + h n)) s :=
      fun k hk s hs => (hD k hk s (hsub hs)).mono hsub
    have hK' : ∀ s ∈ Set.Icc (τ n) (τ n + h n), ‖D (M + 1) s‖ ≤ K := fun s hs => hK s (hsub hs)
    have hin : ∀ j, τ n + h n * c.nodes j ∈ Set.Icc t0 T := fun j =>
      hsub ⟨by nlinarith [(hx j).1], by nlinarith [(hx j).2]⟩
    have hK0 : 0 ≤ K := (norm_nonneg _).trans (hK' (τ n) ⟨le_rfl, by linarith⟩)
    have hp0 : 0 ≤ K * h n ^ (M + 1) := by positivity
    have dq : ∀ i, _ := fun i => quad_defect hM hx (hx i) (hQ i) D hh hD' hK'
    have dw := quad_defect hM hx ⟨zero_le_one, le_rfl⟩ hW D hh hD' hK'
    simp only [mul_one, fun j => hsol _ (hin j)] at dq dw
    set δ : Fin M → E := fun i => D 0 (τ n + h n * c.nodes i) - D 0 (τ n) -
      h n • ∑ j, c.Q i j • f (τ n + h n * c.nodes j) (D 0 (τ n + h n * c.nodes j)) with hδ
    set δ1 : E := D 0 (τ n + h n) - D 0 (τ n) -
      h n • ∑ j, c.weights j • f (τ n + h n * c.nodes j) (D 0 (τ n + h n * c.nodes j)) with hδ1
    set η := α * (K * h n ^ (M + 1)) + d with hη
    have hη0 : 0 ≤ η := by positivity
    have hρ : ∀ i, ‖r n i - δ i‖ ≤ η := fun i => by
      refine (norm_sub_le _ _).trans ?_
      have := (dq i).trans (mul_le_mul_of_nonneg_right (hQα i) hp0)
      linarith [hr i]
    have hρ1 : ‖r1 n - δ1‖ ≤ η := by
      refine (norm_sub_le _ _).trans ?_
      have := dw.trans (mul_le_mul_of_nonneg_right hWα hp0)
      linarith
    have hhμ : h n * μ ≤ H * μ := mul_le_mul_of_nonneg_right hH hμ
    have hhμ0 : 0 ≤ h n * μ := mul_nonneg hh hμ
    have hsm' : C0 * (h n * μ) ≤ 1 := by
      have h2 : C0 * (h n * μ) ≤ C0 * α * (H * μ) := mul_le_mul hCC hhμ hhμ0 (by linarith)
      linarith
    obtain ⟨hfin, -⟩ := hres f μ hμ hf (τ n) (h n) hh hsm' (u n) (D 0 (τ n)) (u (n + 1)) (D 0 (τ (n + 1))) (Y n)
      (fun i => D 0 (τ n + h n * c.nodes i)) (r n) δ (r1 n) δ1 η hρ hρ1 hY h1
      (fun i => by simp only [hδ]; abel) (by rw [hτn]; simp only [hδ1]; abel)
    have hpow : K * h n ^ (M + 1) ≤ K * h n * H ^ M := by
      rw [pow_succ', mul_assoc]
      exact mul_le_mul_of_nonneg_left (mul_le_mul_of_nonneg_left (pow_le_pow_left₀ hh hH M) hh) hK0
    have hη' : η ≤ α * (K * h n * H ^ M + d) := by
      have := mul_le_mul_of_nonneg_left hpow (by linarith : (0:ℝ) ≤ α)
      have h2 : d ≤ α * d := le_mul_of_one_le_left hd hα1
      rw [hη, mul_add]
      linarith
    set B := ‖u 0 - D 0 t0‖ + C0 * α * (K * (τ n - t0) * H ^ M + n * d) with hB
    set ξ := C0 * (α * (K * h n * H ^ M + d)) with hξ
    have hH0 : 0 ≤ H := hh.trans hH
    have hξ0 : 0 ≤ ξ := by positivity
    have h3 : C0 * η ≤ ξ := mul_le_mul_of_nonneg_left hη' (by linarith)
    have h4 : ‖u 0 - D 0 t0‖ + C0 * α * (K * (τ (n + 1) - t0) * H ^ M + (n + 1 : ℕ) * d) = B + ξ := by
      rw [hτn, hB, hξ]; push_cast; ring
    rw [h4]
    have h5 : C0 * α * μ * (τ (n + 1) - t0) = C0 * α * (h n * μ) + C0 * α * μ * (τ n - t0) := by rw [hτn]; ring
    have h6 : 1 + C0 * (h n * μ) ≤ Real.exp (C0 * α * (h n * μ)) := by
      have := Real.add_one_le_exp (C0 * α * (h n * μ))
      have := mul_le_mul_of_nonneg_right hCC hhμ0
      linarith
    have h7 : 1 ≤ Real.exp (C0 * α * μ * (τ (n + 1) - t0)) := by
      refine Real.one_le_exp ?_
      have : 0 ≤ τ (n + 1) - t0 := by rw [hτn]; linarith
      positivity
    calc ‖u (n + 1) - D 0 (τ (n + 1))‖ ≤ (1 + C0 * (h n * μ)) * ‖u n - D 0 (τ n)‖ + C0 * η := hfin
      _ ≤ Real.exp (C0 * α * (h n * μ)) * (Real.exp (C0 * α * μ * (τ n - t0)) * B) + ξ :=
          add_le_add (mul_le_mul h6 ih' (norm_nonneg _) (Real.exp_pos _).le) h3
      _ = Real.exp (C0 * α * μ * (τ (n + 1) - t0)) * B + ξ := by rw [← mul_assoc, ← Real.exp_add, ← h5]
      _ ≤ Real.exp (C0 * α * μ * (τ (n + 1) - t0)) * (B + ξ) := by
          have := le_mul_of_one_le_left hξ0 h7
          rw [mul_add]; linarith

/-- The equation `u' = u - u³`, which has one-sided Lipschitz constant one and no Lipschitz constant. -/
theorem cubic_oneSided (x y : ℝ) : inner ℝ ((x - x ^ 3) - (y - y ^ 3)) (x - y) ≤ 1 * ‖x - y‖ ^ 2 := by
  simp only [RCLike.inner_apply, conj_trivial, Real.norm_eq_abs, sq_abs]
  nlinarith [mul_nonneg (sq_nonneg (x - y)) (add_nonneg (add_nonneg (sq_nonneg x) (sq_nonneg y)) (sq_nonneg (x + y)))]

/-- Instance: steps on `u' = u - u³` with three Radau nodes, from different values. -/
example : ∃ c : Collocation 3, Collocation.new 3 "LEGENDRE" "RADAU-RIGHT" 0 1 = .ok c ∧ ∃ C : ℝ, 1 ≤ C ∧
    ∀ (h u v u1 v1 : ℝ) (Y Z : Fin 3 → ℝ), 0 ≤ h → C * h ≤ 1 → RKStep c.nodes c.Q c.weights (fun _ u : ℝ => u - u ^ 3) 0 h u Y u1 →
      RKStep c.nodes c.Q c.weights (fun _ u : ℝ => u - u ^ 3) 0 h v Z v1 → |u1 - v1| ≤ (1 + C * h) * |u - v| := by
  obtain ⟨c, hc⟩ := collocation_new_ok (M := 3) (nt := "LEGENDRE") (qt := "RADAU-RIGHT") (by decide)
    (by decide) ⟨by norm_num, fun _ => by norm_num⟩ 0 1
  obtain ⟨C, hC, H⟩ := C120_residuals (Or.inr rfl) c hc (unmoved_small (by norm_num) c hc)
  refine ⟨c, hc, C, hC, fun h u v u1 v1 Y Z hh hs hu hv => ?_⟩
  have := (H (fun _ u : ℝ => u - u ^ 3) 1 zero_le_one (fun _ => cubic_oneSided) 0 h hh (by rwa [mul_one]) u v u1 v1 Y Z 0 0 0 0 0
    (fun i => by simp) (by simp) (fun i => by simpa using hu.stages i) (by simpa using hu.result) (fun i => by simpa using hv.stages i)
    (by simpa using hv.result)).1
  simpa using this

/-- Instance: growing stiff equations `u' = u - l max u 0` with five Lobatto nodes: the same bound of the steps for all `l ≥ 0`. -/
example : ∃ c : Collocation 5, Collocation.new 5 "LEGENDRE" "LOBATTO" 0 1 = .ok c ∧ ∃ C : ℝ, 1 ≤ C ∧
    ∀ l h u : ℝ, 0 ≤ l → 0 ≤ h → C * h ≤ 1 →
      ∃! v : (Fin 5 → ℝ) × ℝ, RKStep c.nodes c.Q c.weights (fun _ u : ℝ => u - l * max u 0) 0 h u v.1 v.2 := by
  obtain ⟨c, hc⟩ := collocation_new_ok (M := 5) (nt := "LEGENDRE") (qt := "LOBATTO") (by decide)
    (by decide) ⟨by norm_num, fun _ => by norm_num⟩ 0 1
  obtain ⟨C, hC, H⟩ := C120_solvable c hc (unmoved_small (by norm_num) c hc)
  refine ⟨c, hc, C, hC, fun l h u hl hh hs => ?_⟩
  refine (H (fun _ u : ℝ => u - l * max u 0) 1 zero_le_one (fun t x y => ?_) 0 h hh (by rwa [mul_one]) u).2
    (fun t => ⟨1 + l, fun x y => ?_⟩)
  · simp only [RCLike.inner_apply, conj_trivial, Real.norm_eq_abs, sq_abs]
    have h1 : 0 ≤ (x - y) * (max x 0 - max y 0) := by
      rcases le_total x y with h | h
      · exact mul_nonneg_of_nonpos_of_nonpos (by linarith) (by linarith [max_le_max_right 0 h])
      · exact mul_nonneg (by linarith) (by linarith [max_le_max_right 0 h])
    nlinarith [mul_nonneg hl h1]
  · have h1 : |max x 0 - max y 0| ≤ |x - y| := by simpa using abs_max_sub_max_le_max x 0 y 0
    have e : x - l * max x 0 - (y - l * max y 0) = (x - y) - l * (max x 0 - max y 0) := by ring
    simp only [Real.norm_eq_abs]
    rw [e]
    refine (abs_sub _ _).trans ?_
    rw [abs_mul, abs_of_nonneg hl]
    nlinarith [mul_le_mul_of_nonneg_left h1 hl]

/-- Instance: two Gauss nodes, `u' = u - l (u - exp t)` with the solution `exp t`: the same bound for every `l ≥ 0`. -/
example : ∃ c : Collocation 2, Collocation.new 2 "LEGENDRE" "GAUSS" 0 1 = .ok c ∧ ∃ C : ℝ, 1 ≤ C ∧ ∀ (l h : ℝ), 0 ≤ l → 0 ≤ h → C * h ≤ 1 →
    ∀ (N : ℕ), N * h ≤ 1 → ∀ (u : ℕ → ℝ) (Y : ℕ → Fin 2 → ℝ), u 0 = 1 → (∀ n < N, RKStep c.nodes c.Q c.weights
      (fun t u => u - l * (u - Real.exp t)) (n * h) h (u n) (Y n) (u (n + 1))) →
    ∀ n ≤ N, |u n - Real.exp (n * h)| ≤ Real.exp (C * (n * h)) * (C * (Real.exp 1 * (n * h) * h ^ 2)) := by
  obtain ⟨c, hc⟩ := collocation_new_ok (M := 2) (nt := "LEGENDRE") (qt := "GAUSS") (by decide)
    (by decide) ⟨by norm_num, fun h => by simp at h⟩ 0 1
  obtain ⟨C, hC, H⟩ := C120_convergence (Or.inl rfl) c hc (unmoved_small (by norm_num) c hc)
  refine ⟨c, hc, C, hC, fun l h hl hh hs N hN u Y hu hst n hn => ?_⟩
  have := H (fun t u => u - l * (u - Real.exp t)) 1 zero_le_one (fun t x y => by
      simp only [RCLike.inner_apply, conj_trivial, Real.norm_eq_abs, sq_abs]
      nlinarith [mul_nonneg hl (sq_nonneg (x - y))]) 0 1 (Real.exp 1) (fun _ => Real.exp)
    (fun k _ t _ => (Real.hasDerivAt_exp t).hasDerivWithinAt) (fun t _ => by simp)
    (fun t ht => by rw [Real.norm_eq_abs, abs_of_pos (Real.exp_pos _)]; exact Real.exp_le_exp.2 ht.2) N h 0 (fun n => n * h) (fun _ => h)
    (by rwa [mul_one]) (by simp) (fun n _ => ⟨hh, le_rfl, by push_cast; ring⟩) hN le_rfl u Y 0 0
    (fun n hn => ⟨fun i => by simp, by simp, fun i => by simpa using (hst n hn).stages i, by simpa using (hst n hn).result⟩) n hn
  simpa [hu] using this

end QMat
