import Verif.Lemmas.LocalError
import Mathlib.Topology.MetricSpace.Contracting
import Mathlib.Analysis.SpecialFunctions.Exp

/-!
# Solvability of the stage equations, stability of a step, and the global error
-/

namespace QMat.Spec

open Filter Topology Metric Asymptotics RTree

variable {E : Type*} [NormedAddCommGroup E] [NormedSpace ℝ E]
variable {ι : Type*} [Fintype ι]

theorem norm_sum_smul_le {a : ι → ℝ} {v : ι → E} {α D : ℝ} (hα : ∑ j, |a j| ≤ α) (hD : 0 ≤ D)
    (hv : ∀ j, ‖v j‖ ≤ D) : ‖∑ j, a j • v j‖ ≤ α * D := by
  calc ‖∑ j, a j • v j‖ ≤ ∑ j, |a j| * D := norm_sum_le_of_le _ fun j _ => by
        rw [norm_smul, Real.norm_eq_abs]
        exact mul_le_mul_of_nonneg_left (hv j) (abs_nonneg _)
    _ = (∑ j, |a j|) * D := by rw [Finset.sum_mul]
    _ ≤ α * D := mul_le_mul_of_nonneg_right hα hD

theorem tube [CompleteSpace E] (A : ι → ι → ℝ) (b : ι → ℝ) {K : Set E} (hK : IsCompact K) {f : E → E}
    (hf : ∀ y ∈ K, ContDiffAt ℝ 1 f y) :
    ∃ R > 0, ∃ M, 0 ≤ M ∧ ∀ ρ, 0 < ρ → ρ < R → ∃ h0 > 0, ∀ y ∈ K, ∀ h ∈ Set.Ico (0 : ℝ) h0,
      (∀ u ∈ ball y R, ∃ Y, Stages A f u h Y ∧ ∀ i, ‖Y i - u‖ < ρ) ∧
      ∀ u ∈ ball y R, ∀ v ∈ ball y R, ∀ Y V, Stages A f u h Y → Stages A f v h V →
        (∀ i, ‖Y i - u‖ < R) → (∀ i, ‖V i - v‖ < R) →
        ‖Y - V‖ ≤ 2 * ‖u - v‖ ∧
        ‖(u + h • ∑ i, b i • f (Y i)) - (v + h • ∑ i, b i • f (V i))‖ ≤ (1 + M * h) * ‖u - v‖ := by
  obtain ⟨r2, hr2, B, hB, HB⟩ := bound_uniform hK fun u hu => (hf u hu).continuousAt
  obtain ⟨r3, hr3, L, hL, HL⟩ := lipschitz_uniform hK hf
  set R := min r2 r3 / 2 with hR
  have hRpos : 0 < R := by have := lt_min hr2 hr3; positivity
  set α := ∑ i, ∑ j, |A i j| with hα
  set β := ∑ i, |b i| with hβ
  have hα0 : 0 ≤ α := Finset.sum_nonneg fun i _ => Finset.sum_nonneg fun j _ => abs_nonneg _
  have hβ0 : 0 ≤ β := Finset.sum_nonneg fun i _ => abs_nonneg _
  have hrow : ∀ i, ∑ j, |A i j| ≤ α := fun i =>
    Finset.single_le_sum (f := fun i => ∑ j, |A i j|)
      (fun i _ => Finset.sum_nonneg fun j _ => abs_nonneg _) (Finset.mem_univ i)
  have hin : ∀ {y u w : E}, u ∈ ball y R → ‖w - u‖ < R → w ∈ ball y r2 ∧ w ∈ ball y r3 := by
    intro y u w hu hw
    rw [mem_ball] at hu
    rw [← dist_eq_norm] at hw
    have h1 : dist w y < min r2 r3 := by
      have := dist_triangle w u y
      linarith
    exact ⟨h1.trans_le (min_le_left _ _), h1.trans_le (min_le_right _ _)⟩
  refine ⟨R, hRpos, 2 * β * L, by positivity, fun ρ hρ hρR => ?_⟩
  refine ⟨min (ρ / (2 * (α * B + 1))) (1 / (2 * (α * L + 1))), lt_min (by positivity) (by positivity),
    fun y hy h hh => ?_⟩
  have hh1 : h * (α * B) ≤ ρ / 2 := by
    have h1 := (hh.2.trans_le (min_le_left _ _)).le
    rw [le_div_iff₀ (by positivity)] at h1
    nlinarith [hh.1]
  have hh2 : h * (α * L) ≤ 1 / 2 := by
    have h1 := (hh.2.trans_le (min_le_right _ _)).le
    rw [le_div_iff₀ (by positivity)] at h1
    nlinarith [hh.1]
  -- difference of two stage maps
  have hdiff : ∀ u ∈ ball y R, ∀ v ∈ ball y R, ∀ Y V : ι → E, (∀ i, ‖Y i - u‖ < R) →
      (∀ i, ‖V i - v‖ < R) → ∀ (a : ι → ℝ) (γ : ℝ), ∑ j, |a j| ≤ γ →
      ‖∑ j, a j • f (Y j) - ∑ j, a j • f (V j)‖ ≤ γ * (L * ‖Y - V‖) := by
    intro u hu v hv Y V hY hV a γ hγ
    rw [← Finset.sum_sub_distrib]
    simp only [← smul_sub]
    refine norm_sum_smul_le hγ (by positivity) fun j => ?_
    refine (HL y hy _ (hin hu (hY j)).2 _ (hin hv (hV j)).2).trans ?_
    gcongr
    exact norm_le_pi_norm (Y - V) j
  constructor
  · intro u hu
    set T : (ι → E) → ι → E := fun Y i => u + h • ∑ j, A i j • f (Y j) with hT
    let c0 : ι → E := fun _ => u
    set s : Set (ι → E) := closedBall c0 (ρ / 2) with hs
    have hmem : ∀ Y ∈ s, ∀ i, ‖Y i - u‖ < R := by
      intro Y hY i
      rw [hs, mem_closedBall, dist_eq_norm] at hY
      exact ((norm_le_pi_norm (Y - c0) i).trans hY).trans_lt (by linarith)
    have hmaps : Set.MapsTo T s s := by
      intro Y hY
      rw [hs, mem_closedBall, dist_eq_norm, pi_norm_le_iff_of_nonneg (by positivity)]
      intro i
      have h1 : (T Y - c0) i = h • ∑ j, A i j • f (Y j) := by
        simp [hT, c0]
      rw [h1, norm_smul, Real.norm_of_nonneg hh.1]
      refine le_trans (mul_le_mul_of_nonneg_left (norm_sum_smul_le (hrow i) hB fun j => ?_) hh.1) hh1
      exact HB y hy _ (hin hu (hmem Y hY j)).1
    have hcontr : ContractingWith (1 / 2) (hmaps.restrict T s s) := by
      refine ⟨by norm_num, LipschitzWith.of_dist_le_mul ?_⟩
      rintro ⟨Y, hY⟩ ⟨V, hV⟩
      rw [Subtype.dist_eq, Subtype.dist_eq, Set.MapsTo.val_restrict_apply,
        Set.MapsTo.val_restrict_apply, dist_eq_norm, dist_eq_norm,
        pi_norm_le_iff_of_nonneg (by positivity)]
      intro i
      have h1 : (T Y - T V) i = h • (∑ j, A i j • f (Y j) - ∑ j, A i j • f (V j)) := by
        simp [hT, smul_sub]
      change ‖(T Y - T V) i‖ ≤ _ * ‖Y - V‖
      rw [h1, norm_smul, Real.norm_of_nonneg hh.1]
      have h2 := hdiff u hu u hu Y V (hmem Y hY) (hmem V hV) (A i) α (hrow i)
      have h3 : ((1 / 2 : NNReal) : ℝ) = 1 / 2 := by simp
      rw [h3]
      calc _ ≤ h * (α * (L * ‖Y - V‖)) := mul_le_mul_of_nonneg_left h2 hh.1
        _ = h * (α * L) * ‖Y - V‖ := by ring
        _ ≤ _ := mul_le_mul_of_nonneg_right hh2 (norm_nonneg _)
    obtain ⟨Y, hY, hfix, _⟩ := hcontr.exists_fixedPoint' (isClosed_closedBall.isComplete)
      hmaps (x := c0) (mem_closedBall_self (by positivity)) (edist_ne_top _ _)
    refine ⟨Y, fun i => (congrFun hfix i).symm, fun i => ?_⟩
    rw [hs, mem_closedBall, dist_eq_norm] at hY
    exact ((norm_le_pi_norm (Y - c0) i).trans hY).trans_lt (by linarith)
  · intro u hu v hv Y V hY hV hYR hVR
    have h1 : ‖Y - V‖ ≤ 2 * ‖u - v‖ := by
      have h2 : ‖Y - V‖ ≤ ‖u - v‖ + 1 / 2 * ‖Y - V‖ := by
        rw [pi_norm_le_iff_of_nonneg (by positivity)]
        intro i
        have h3 : (Y - V) i = (u - v) + h • (∑ j, A i j • f (Y j) - ∑ j, A i j • f (V j)) := by
          rw [Pi.sub_apply, hY i, hV i, smul_sub]
          abel
        rw [h3]
        refine (norm_add_le _ _).trans (add_le_add le_rfl ?_)
        rw [norm_smul, Real.norm_of_nonneg hh.1]
        calc _ ≤ h * (α * (L * ‖Y - V‖)) :=
              mul_le_mul_of_nonneg_left (hdiff u hu v hv Y V hYR hVR (A i) α (hrow i)) hh.1
          _ = h * (α * L) * ‖Y - V‖ := by ring
          _ ≤ _ := mul_le_mul_of_nonneg_right hh2 (norm_nonneg _)
      linarith
    refine ⟨h1, ?_⟩
    have h3 : (u + h • ∑ i, b i • f (Y i)) - (v + h • ∑ i, b i • f (V i))
        = (u - v) + h • (∑ j, b j • f (Y j) - ∑ j, b j • f (V j)) := by
      rw [smul_sub]
      abel
    rw [h3]
    refine (norm_add_le _ _).trans ?_
    rw [norm_smul, Real.norm_of_nonneg hh.1]
    have h4 := hdiff u hu v hv Y V hYR hVR b β le_rfl
    have h5 : β * (L * ‖Y - V‖) ≤ β * (L * (2 * ‖u - v‖)) := by gcongr
    have h6 := mul_le_mul_of_nonneg_left (h4.trans h5) hh.1
    linarith

/-- `N` steps of size `h` of a Runge-Kutta method for `u' = f(u)`, with stages at distance less than
`ρ` of the start of the step. -/
structure Run (A : ι → ι → ℝ) (b : ι → ℝ) (f : E → E) (u0 : E) (h ρ : ℝ) (N : ℕ) (u : ℕ → E)
    (Y : ℕ → ι → E) : Prop where
  start : u 0 = u0
  stages : ∀ n < N, Stages A f (u n) h (Y n)
  near : ∀ n < N, ∀ i, ‖Y n i - u n‖ < ρ
  result : ∀ n < N, u (n + 1) = u n + h • ∑ i, b i • f (Y n i)

theorem Run.mono {A : ι → ι → ℝ} {b : ι → ℝ} {f : E → E} {u0 : E} {h ρ : ℝ} {N N' : ℕ} {u : ℕ → E}
    {Y : ℕ → ι → E} (H : Run A b f u0 h ρ N u Y) (hN : N' ≤ N) : Run A b f u0 h ρ N' u Y :=
  ⟨H.start, fun n hn => H.stages n (hn.trans_le hN), fun n hn => H.near n (hn.trans_le hN),
    fun n hn => H.result n (hn.trans_le hN)⟩

/-- The global error of a Runge-Kutta method that satisfies the tree conditions up to `p`. -/
theorem global_uniform [CompleteSpace E] {A : ι → ι → ℝ} {W : RTree → ι → ℝ} {b : ι → ℝ}
    (hW : ∀ k (v : Fin k → RTree) i, W (node k v) i = ∏ j, ∑ l, A i l * W (v j) l)
    {p : ℕ} (hp : 1 ≤ p) (hb : ∀ t : RTree, t.order ≤ p → ∑ i, b i * W t i = 1 / t.density)
    {f : E → E} {y : ℝ → E} {T : ℝ}
    (hy : ∀ s ∈ Set.Icc (0 : ℝ) T, HasDerivWithinAt y (f (y s)) (Set.Icc 0 T) s)
    (hf : ∀ s ∈ Set.Icc (0 : ℝ) T, ContDiffAt ℝ p f (y s)) :
    ∃ ρ > 0, ∃ h0 > 0, ∃ C, 0 ≤ C ∧ ∀ h ∈ Set.Ico (0 : ℝ) h0, ∀ N : ℕ, N * h ≤ T →
      (∃ u Y, Run A b f (y 0) h ρ N u Y) ∧
      (∀ u Y, Run A b f (y 0) h ρ N u Y → ∀ n ≤ N, ‖u n - y (n * h)‖ ≤ C * h ^ p) ∧
      ∀ u Y u' Y', Run A b f (y 0) h ρ N u Y → Run A b f (y 0) h ρ N u' Y' →
        (∀ n ≤ N, u n = u' n) ∧ ∀ n < N, Y n = Y' n := by
  set K : Set E := y '' Set.Icc 0 T with hKdef
  have hK : IsCompact K := isCompact_Icc.image_of_continuousOn fun s hs =>
    (hy s hs).continuousWithinAt
  have hfK : ∀ u ∈ K, ContDiffAt ℝ p f u := by
    rintro _ ⟨s, hs, rfl⟩
    exact hf s hs
  obtain ⟨R, hR, M, hM, HM⟩ := tube A b hK fun u hu => (hfK u hu).of_le (by exact_mod_cast hp)
  obtain ⟨r, hr, h1, hh1, C, hC, HL⟩ := local_uniform (X := Set.Icc (0 : ℝ) T)
    (y := fun x s => y (x + s)) (τ := fun x => T - x) b hW hK hfK
    (fun x => sub_nonneg.2 x.2.2)
    (fun x s hs => ⟨x + s, ⟨add_nonneg x.2.1 hs.1, by linarith [hs.2]⟩, rfl⟩)
    (fun x s hs => by
      have h1 := hy (x + s) ⟨add_nonneg x.2.1 hs.1, by linarith [hs.2]⟩
      have h2 : HasDerivWithinAt (fun s : ℝ => (x : ℝ) + s) 1 (Set.Icc 0 (T - x)) s :=
        ((hasDerivAt_id s).const_add (x : ℝ)).hasDerivWithinAt
      have h3 := h1.scomp s h2 (fun q hq => ⟨add_nonneg x.2.1 hq.1, by linarith [hq.2]⟩)
      rw [one_smul] at h3
      exact h3)
  set ρ := min r R / 2 with hρ
  have hm := lt_min hr hR
  have hρ0 : 0 < ρ := by positivity
  have hρr : ρ < r := by linarith [min_le_left r R]
  have hρR : ρ < R := by linarith [min_le_right r R]
  obtain ⟨h2, hh2, HT⟩ := HM ρ hρ0 hρR
  set G := |T| * C * Real.exp (M * |T|) with hG
  have hG0 : 0 ≤ G := by positivity
  -- one step from the exact solution
  have hstep : ∀ t ∈ Set.Icc (0 : ℝ) T, ∀ h ∈ Set.Ico (0 : ℝ) h1, t + h ≤ T → ∀ V,
      Stages A f (y t) h V → (∀ i, ‖V i - y t‖ < ρ) →
      ‖y t + h • ∑ i, b i • f (V i) - y (t + h)‖ ≤ C * h ^ (p + 1) := by
    intro t ht h hh hth V hV hVρ
    have := HL ⟨t, ht⟩ h hh (by change h ≤ T - t; linarith) V (by simpa using hV) (fun i => by
      rw [add_zero, mem_ball, dist_eq_norm]
      exact (hVρ i).trans hρr)
    simp only [add_zero] at this
    have h0 : ∑ x ∈ upTo p, (h ^ x.order * (∑ i, b i * W x i - 1 / x.density)) •
        elemDiff (taylorP p f (y t)) x = 0 := by
      refine Finset.sum_eq_zero fun t ht => ?_
      rw [hb t ((mem_upTo p t).1 ht), sub_self, mul_zero, zero_smul]
    rwa [h0, sub_zero] at this
  refine ⟨ρ, hρ0, min (min h1 h2) (min 1 (R / (G + 1))),
    lt_min (lt_min hh1 hh2) (lt_min one_pos (by positivity)), G, hG0, fun h hh => ?_⟩
  have hhh1 : h ∈ Set.Ico (0 : ℝ) h1 :=
    ⟨hh.1, hh.2.trans_le ((min_le_left _ _).trans (min_le_left _ _))⟩
  have hhh2 : h ∈ Set.Ico (0 : ℝ) h2 :=
    ⟨hh.1, hh.2.trans_le ((min_le_left _ _).trans (min_le_right _ _))⟩
  have hle1 : h ≤ 1 := (hh.2.trans_le ((min_le_right _ _).trans (min_le_left _ _))).le
  have hGR : G * h ^ p < R := by
    have h3 := hh.2.trans_le ((min_le_right _ _).trans (min_le_right _ _))
    rw [lt_div_iff₀ (by positivity)] at h3
    have h4 : h ^ p ≤ h := by
      calc h ^ p ≤ h ^ 1 := pow_le_pow_of_le_one hh.1 hle1 hp
        _ = h := pow_one h
    nlinarith [hh.1]
  -- the error of a run
  have herr : ∀ N : ℕ, N * h ≤ T → ∀ u Y, Run A b f (y 0) h ρ N u Y →
      ∀ n ≤ N, ‖u n - y (n * h)‖ ≤ n * h * (C * h ^ p) * (1 + M * h) ^ n ∧
        ‖u n - y (n * h)‖ ≤ G * h ^ p := by
    intro N hN u Y H n
    induction n with
    | zero =>
      intro _
      simp only [CharP.cast_eq_zero, zero_mul, H.start, sub_self, norm_zero, le_refl, true_and]
      have := hh.1
      positivity
    | succ n ih =>
      intro hn
      obtain ⟨ih1, ih2⟩ := ih (by omega)
      have hhn : ((n : ℝ) + 1) * h ≤ T := by
        have : ((n : ℝ) + 1) ≤ N := by exact_mod_cast hn
        exact (mul_le_mul_of_nonneg_right this hh.1).trans hN
      have htn : (n : ℝ) * h ∈ Set.Icc (0 : ℝ) T :=
        ⟨mul_nonneg n.cast_nonneg hh.1, by linarith [hh.1]⟩
      have hyn : y (n * h) ∈ K := ⟨_, htn, rfl⟩
      have hun : u n ∈ ball (y (n * h)) R := by
        rw [mem_ball, dist_eq_norm]
        exact ih2.trans_lt hGR
      obtain ⟨V, hV, hVρ⟩ := (HT _ hyn h hhh2).1 _ (mem_ball_self hR)
      have hl := hstep _ htn h hhh1 (by linarith) V hV hVρ
      have hs := ((HT _ hyn h hhh2).2 _ hun _ (mem_ball_self hR) (Y n) V (H.stages n (by omega)) hV
        (fun i => (H.near n (by omega) i).trans hρR) fun i => (hVρ i).trans hρR).2
      rw [← H.result n (by omega)] at hs
      have hnh : ((n + 1 : ℕ) : ℝ) * h = n * h + h := by push_cast; ring
      have h5 : ‖u (n + 1) - y ((n + 1 : ℕ) * h)‖
          ≤ (1 + M * h) * ‖u n - y (n * h)‖ + C * h ^ (p + 1) := by
        rw [hnh]
        have := norm_add_le (u (n + 1) - (y (n * h) + h • ∑ i, b i • f (V i)))
          (y (n * h) + h • ∑ i, b i • f (V i) - y (n * h + h))
        rw [sub_add_sub_cancel] at this
        linarith
      have hMh : 0 ≤ M * h := mul_nonneg hM hh.1
      have h6 : ‖u (n + 1) - y ((n + 1 : ℕ) * h)‖
          ≤ (n + 1 : ℕ) * h * (C * h ^ p) * (1 + M * h) ^ (n + 1) := by
        refine h5.trans ?_
        have h7 : (1 : ℝ) ≤ (1 + M * h) ^ (n + 1) := one_le_pow₀ (by linarith)
        have h8 : 0 ≤ C * h ^ (p + 1) := mul_nonneg hC (pow_nonneg hh.1 _)
        calc _ ≤ (1 + M * h) * (n * h * (C * h ^ p) * (1 + M * h) ^ n)
              + C * h ^ (p + 1) * (1 + M * h) ^ (n + 1) := by
              refine add_le_add (mul_le_mul_of_nonneg_left ih1 (by linarith)) ?_
              exact le_mul_of_one_le_right h8 h7
          _ = _ := by push_cast; ring
      refine ⟨h6, h6.trans ?_⟩
      have h9 : ((n + 1 : ℕ) : ℝ) * h ≤ |T| := by
        push_cast
        exact hhn.trans (le_abs_self T)
      have h10 : (1 + M * h) ^ (n + 1) ≤ Real.exp (M * |T|) := by
        calc (1 + M * h) ^ (n + 1) ≤ Real.exp (M * h) ^ (n + 1) := by
              refine pow_le_pow_left₀ (by linarith) ?_ _
              linarith [Real.add_one_le_exp (M * h)]
          _ = Real.exp (M * (((n + 1 : ℕ) : ℝ) * h)) := by
              rw [← Real.exp_nat_mul]
              ring_nf
          _ ≤ _ := Real.exp_le_exp.2 (mul_le_mul_of_nonneg_left h9 hM)
      have h11 : 0 ≤ C * h ^ p := mul_nonneg hC (pow_nonneg hh.1 _)
      calc _ ≤ |T| * (C * h ^ p) * Real.exp (M * |T|) := by gcongr
        _ = G * h ^ p := by rw [hG]; ring
  intro N hN
  refine ⟨?_, fun u Y H n hn => (herr N hN u Y H n hn).2, ?_⟩
  · clear hK hfK
    induction N with
    | zero => exact ⟨fun _ => y 0, fun _ _ => y 0, rfl, by simp, by simp, by simp⟩
    | succ N ih =>
      have hN1 : (N : ℝ) * h ≤ T := by
        push_cast at hN
        linarith [hh.1]
      obtain ⟨u, Y, H⟩ := ih hN1
      have h3 := (herr N hN1 u Y H N le_rfl).2
      have hyn : y (N * h) ∈ K := ⟨_, ⟨mul_nonneg N.cast_nonneg hh.1, hN1⟩, rfl⟩
      obtain ⟨V, hV, hVρ⟩ := (HT _ hyn h hhh2).1 (u N) (by
        rw [mem_ball, dist_eq_norm]
        exact h3.trans_lt hGR)
      refine ⟨Function.update u (N + 1) (u N + h • ∑ i, b i • f (V i)), Function.update Y N V,
        ?_, ?_, ?_, ?_⟩
      · rw [Function.update_of_ne (by omega), H.start]
      · intro n hn
        rw [Function.update_of_ne (by omega)]
        rcases Nat.lt_succ_iff_lt_or_eq.1 hn with h4 | rfl
        · rw [Function.update_of_ne h4.ne]
          exact H.stages n h4
        · rw [Function.update_self]
          exact hV
      · intro n hn
        rw [Function.update_of_ne (by omega : n ≠ N + 1)]
        rcases Nat.lt_succ_iff_lt_or_eq.1 hn with h4 | rfl
        · rw [Function.update_of_ne h4.ne]
          exact H.near n h4
        · rw [Function.update_self]
          exact hVρ
      · intro n hn
        rw [Function.update_of_ne (by omega : n ≠ N + 1)]
        rcases Nat.lt_succ_iff_lt_or_eq.1 hn with h4 | rfl
        · rw [Function.update_of_ne (by omega : n + 1 ≠ N + 1), Function.update_of_ne h4.ne]
          exact H.result n h4
        · rw [Function.update_self, Function.update_self]
  · intro u Y u' Y' H H'
    have hstage : ∀ n < N, u n = u' n → Y n = Y' n := by
      intro n hn hu
      have h3 := (herr N hN u Y H n hn.le).2
      have hnN : (n : ℝ) ≤ N := by exact_mod_cast hn.le
      have hyn : y (n * h) ∈ K :=
        ⟨_, ⟨mul_nonneg n.cast_nonneg hh.1, (mul_le_mul_of_nonneg_right hnN hh.1).trans hN⟩, rfl⟩
      have hun : u n ∈ ball (y (n * h)) R := by
        rw [mem_ball, dist_eq_norm]
        exact h3.trans_lt hGR
      have h4 := ((HT _ hyn h hhh2).2 _ hun _ (hu ▸ hun) (Y n) (Y' n) (H.stages n hn)
        (H'.stages n hn) (fun i => (H.near n hn i).trans hρR)
        fun i => (H'.near n hn i).trans hρR).1
      rw [hu, sub_self, norm_zero, mul_zero] at h4
      exact sub_eq_zero.1 (norm_le_zero_iff.1 h4)
    have huu : ∀ n ≤ N, u n = u' n := by
      intro n
      induction n with
      | zero => intro _; rw [H.start, H'.start]
      | succ n ih =>
        intro hn
        have h5 := ih (by omega)
        rw [H.result n (by omega), H'.result n (by omega), h5, hstage n (by omega) h5]
    exact ⟨huu, fun n hn => hstage n hn (huu n hn.le)⟩

end QMat.Spec
