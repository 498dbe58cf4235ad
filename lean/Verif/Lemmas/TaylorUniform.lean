import Verif.Lemmas.BSeries
import Mathlib.Analysis.Calculus.TaylorIntegral
import Mathlib.Analysis.Calculus.ContDiff.RCLike

/-!
# Taylor expansion, bounds and Lipschitz constants near a compact set
-/

namespace QMat.Spec

open Filter Topology Metric

variable {E : Type*} [NormedAddCommGroup E] [NormedSpace ℝ E]

/-- The Taylor polynomial of degree below `p`. -/
noncomputable def taylorP (p : ℕ) (f : E → E) (y : E) : FormalMultilinearSeries ℝ E E :=
  fun k => if k < p then (k.factorial : ℝ)⁻¹ • iteratedFDeriv ℝ k f y else 0

/-- A bound that is uniform near each point of a compact set is uniform. -/
theorem uniform_of_compact {K : Set E} (hK : IsCompact K) (q : ℝ → ℝ → E → Prop)
    (hmono : ∀ r C r' C' y, q r C y → r' ≤ r → C ≤ C' → q r' C' y)
    (hloc : ∀ y ∈ K, ∃ r > 0, ∃ C, 0 ≤ C ∧ ∀ y' ∈ ball y r, q r C y') :
    ∃ r > 0, ∃ C, 0 ≤ C ∧ ∀ y ∈ K, q r C y := by
  refine hK.induction_on (p := fun S => ∃ r > 0, ∃ C, 0 ≤ C ∧ ∀ y ∈ S, q r C y) ?_ ?_ ?_ ?_
  · exact ⟨1, one_pos, 0, le_rfl, fun y hy => hy.elim⟩
  · rintro s t hst ⟨r, hr, C, hC, H⟩
    exact ⟨r, hr, C, hC, fun y hy => H y (hst hy)⟩
  · rintro s t ⟨r, hr, C, hC, H⟩ ⟨r', hr', C', hC', H'⟩
    refine ⟨min r r', lt_min hr hr', max C C', le_max_of_le_left hC, fun y hy => ?_⟩
    rcases hy with hy | hy
    · exact hmono _ _ _ _ _ (H y hy) (min_le_left _ _) (le_max_left _ _)
    · exact hmono _ _ _ _ _ (H' y hy) (min_le_right _ _) (le_max_right _ _)
  · intro x hx
    obtain ⟨r, hr, C, hC, H⟩ := hloc x hx
    exact ⟨ball x r, mem_nhdsWithin_of_mem_nhds (ball_mem_nhds x hr), r, hr, C, hC, H⟩

theorem bound_local {F : Type*} [NormedAddCommGroup F] {g : E → F} {y : E}
    (hg : ContinuousAt g y) : ∃ r > 0, ∃ C, 0 ≤ C ∧ ∀ y' ∈ ball y r, ‖g y'‖ ≤ C := by
  have : ∀ᶠ y' in 𝓝 y, ‖g y'‖ < ‖g y‖ + 1 := hg.norm.eventually_lt_const (lt_add_one _)
  obtain ⟨r, hr, H⟩ := Metric.eventually_nhds_iff_ball.1 this
  exact ⟨r, hr, _, by positivity, fun y' hy' => (H y' hy').le⟩

/-- Near a compact set a continuous function is bounded. -/
theorem bound_uniform {K : Set E} (hK : IsCompact K) {f : E → E}
    (hf : ∀ y ∈ K, ContinuousAt f y) :
    ∃ r > 0, ∃ C, 0 ≤ C ∧ ∀ y ∈ K, ∀ y' ∈ ball y r, ‖f y'‖ ≤ C := by
  refine uniform_of_compact hK (fun r C y => ∀ y' ∈ ball y r, ‖f y'‖ ≤ C) ?_ ?_
  · intro r C r' C' y H hr hC y' hy'
    exact (H y' (ball_subset_ball hr hy')).trans hC
  · intro y hy
    obtain ⟨r, hr, C, hC, H⟩ := bound_local (hf y hy)
    refine ⟨r / 2, by positivity, C, hC, fun y' hy' y'' hy'' => H _ ?_⟩
    rw [mem_ball] at *
    linarith [dist_triangle y'' y' y]

/-- Near a compact set a continuously differentiable function is Lipschitz. -/
theorem lipschitz_uniform {K : Set E} (hK : IsCompact K) {f : E → E}
    (hf : ∀ y ∈ K, ContDiffAt ℝ 1 f y) :
    ∃ r > 0, ∃ C, 0 ≤ C ∧ ∀ y ∈ K, ∀ a ∈ ball y r, ∀ b ∈ ball y r, ‖f a - f b‖ ≤ C * ‖a - b‖ := by
  refine uniform_of_compact hK
    (fun r C y => ∀ a ∈ ball y r, ∀ b ∈ ball y r, ‖f a - f b‖ ≤ C * ‖a - b‖) ?_ ?_
  · intro r C r' C' y H hr hC a ha b hb
    exact (H a (ball_subset_ball hr ha) b (ball_subset_ball hr hb)).trans
      (mul_le_mul_of_nonneg_right hC (norm_nonneg _))
  · intro y hy
    obtain ⟨L, t, ht, hL⟩ := (hf y hy).exists_lipschitzOnWith
    obtain ⟨r, hr, hrt⟩ := Metric.mem_nhds_iff.1 ht
    refine ⟨r / 2, by positivity, L, L.2, fun y' hy' a ha b hb => ?_⟩
    rw [← dist_eq_norm, ← dist_eq_norm]
    rw [mem_ball] at *
    refine hL.dist_le_mul a (hrt ?_) b (hrt ?_) <;> rw [mem_ball]
    · linarith [dist_triangle a y' y]
    · linarith [dist_triangle b y' y]

variable [CompleteSpace E]

/-- Taylor expansion, uniformly near a point. -/
theorem taylor_local {p : ℕ} {f : E → E} {y : E} (hf : ContDiffAt ℝ p f y) :
    ∃ r > 0, ∃ C, 0 ≤ C ∧ ∀ y' ∈ ball y r, ∀ z ∈ ball (0 : E) r,
      ‖f (y' + z) - (taylorP p f y').partialSum p z‖ ≤ C * ‖z‖ ^ p := by
  obtain ⟨r, hr, H⟩ := Metric.eventually_nhds_iff_ball.1 (hf.eventually (by simp))
  obtain ⟨r', hr', C, hC, HC⟩ := bound_local (hf.continuousAt_iteratedFDeriv (k := p) le_rfl)
  have hball : ∀ y' ∈ ball y (min r r' / 2), ∀ z ∈ ball (0 : E) (min r r' / 2),
      ∀ t ∈ Set.Icc (0 : ℝ) 1, y' + t • z ∈ ball y r ∧ y' + t • z ∈ ball y r' := by
    intro y' hy' z hz t ht
    have h1 : dist (y' + t • z) y < min r r' := by
      have h2 : dist (y' + t • z) y' ≤ ‖z‖ := by
        rw [dist_eq_norm, add_sub_cancel_left, norm_smul, Real.norm_of_nonneg ht.1]
        exact mul_le_of_le_one_left (norm_nonneg _) ht.2
      rw [mem_ball] at hy'
      rw [mem_ball_zero_iff] at hz
      linarith [dist_triangle (y' + t • z) y' y]
    exact ⟨h1.trans_le (min_le_left _ _), h1.trans_le (min_le_right _ _)⟩
  refine ⟨min r r' / 2, by have := lt_min hr hr'; positivity, C, hC, fun y' hy' z hz => ?_⟩
  rcases p with _ | n
  · have := HC _ (hball y' hy' z hz 1 ⟨zero_le_one, le_rfl⟩).2
    rw [one_smul] at this
    simpa [FormalMultilinearSeries.partialSum] using this
  · have h1 := map_add_eq_sum_add_integral_iteratedFDeriv (f := f) (x := y') (y := z) (n := n)
      fun t ht => H _ (hball y' hy' z hz t ht).1
    have h2 : (taylorP (n + 1) f y').partialSum (n + 1) z
        = ∑ k ∈ Finset.range (n + 1), (k.factorial : ℝ)⁻¹ •
          (iteratedFDeriv ℝ k f y' (fun _ ↦ z)) := by
      refine Finset.sum_congr rfl fun k hk => ?_
      rw [taylorP, if_pos (Finset.mem_range.1 hk)]
      rfl
    rw [h1, h2, add_sub_cancel_left, norm_smul]
    have h3 : ‖∫ t in (0 : ℝ)..1, (1 - t) ^ n •
        iteratedFDeriv ℝ (n + 1) f (y' + t • z) (fun _ ↦ z)‖ ≤ C * ‖z‖ ^ (n + 1) * |1 - 0| := by
      refine intervalIntegral.norm_integral_le_of_norm_le_const fun t ht => ?_
      rw [Set.uIoc_of_le zero_le_one] at ht
      have ht' : t ∈ Set.Icc (0 : ℝ) 1 := ⟨ht.1.le, ht.2⟩
      rw [norm_smul, Real.norm_of_nonneg (pow_nonneg (by linarith [ht.2]) n)]
      have h4 : (1 - t) ^ n ≤ 1 := pow_le_one₀ (by linarith [ht.2]) (by linarith [ht.1])
      have h5 := (iteratedFDeriv ℝ (n + 1) f (y' + t • z)).le_opNorm fun _ => z
      rw [Finset.prod_const, Finset.card_univ, Fintype.card_fin] at h5
      have h6 : ‖iteratedFDeriv ℝ (n + 1) f (y' + t • z) (fun _ ↦ z)‖ ≤ C * ‖z‖ ^ (n + 1) :=
        h5.trans (mul_le_mul_of_nonneg_right (HC _ (hball y' hy' z hz t ht').2) (by positivity))
      calc _ ≤ 1 * (C * ‖z‖ ^ (n + 1)) := by gcongr
        _ = _ := one_mul _
    have h7 : ‖(n.factorial : ℝ)⁻¹‖ ≤ 1 := by
      rw [Real.norm_of_nonneg (by positivity)]
      exact inv_le_one_of_one_le₀ (by exact_mod_cast n.factorial_pos)
    calc _ ≤ 1 * (C * ‖z‖ ^ (n + 1) * |1 - 0|) := by gcongr
      _ = _ := by simp

/-- Taylor expansion, uniformly near a compact set. -/
theorem taylor_uniform {K : Set E} (hK : IsCompact K) {p : ℕ} {f : E → E}
    (hf : ∀ y ∈ K, ContDiffAt ℝ p f y) :
    ∃ r > 0, ∃ C, 0 ≤ C ∧ ∀ y ∈ K, ∀ z ∈ ball (0 : E) r,
      ‖f (y + z) - (taylorP p f y).partialSum p z‖ ≤ C * ‖z‖ ^ p := by
  refine uniform_of_compact hK (fun r C y => ∀ z ∈ ball (0 : E) r,
      ‖f (y + z) - (taylorP p f y).partialSum p z‖ ≤ C * ‖z‖ ^ p) ?_ ?_
  · intro r C r' C' y H hr hC z hz
    exact (H z (ball_subset_ball hr hz)).trans (mul_le_mul_of_nonneg_right hC (by positivity))
  · intro y hy
    exact taylor_local (hf y hy)

omit [CompleteSpace E] in
/-- The Taylor coefficients are bounded on a compact set. -/
theorem taylorP_bound {K : Set E} (hK : IsCompact K) {p : ℕ} {f : E → E}
    (hf : ∀ y ∈ K, ContDiffAt ℝ p f y) (k : ℕ) :
    ∃ C, 0 ≤ C ∧ ∀ y ∈ K, ‖taylorP p f y k‖ ≤ C := by
  by_cases hk : k < p
  · obtain ⟨r, _, C, hC, H⟩ := uniform_of_compact hK
      (fun _ C y => ‖taylorP p f y k‖ ≤ C) (fun r C r' C' y H _ hC => H.trans hC) (fun y hy => by
        refine bound_local ?_
        simp only [taylorP, if_pos hk]
        have h1 := (hf y hy).continuousAt_iteratedFDeriv (k := k) (by exact_mod_cast hk.le)
        exact h1.const_smul (k.factorial : ℝ)⁻¹)
    exact ⟨C, hC, H⟩
  · exact ⟨0, le_rfl, fun y _ => by simp [taylorP, hk]⟩

end QMat.Spec
