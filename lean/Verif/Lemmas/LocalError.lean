import Verif.Lemmas.TaylorUniform

/-!
# Local error of a Runge-Kutta step, uniformly along a trajectory
-/

namespace QMat.Spec

open Filter Topology Metric Asymptotics RTree

variable {E : Type*} [NormedAddCommGroup E] [NormedSpace ℝ E]

/-- The stage equations of a Runge-Kutta method for `u' = f(u)`. -/
def Stages {ι : Type*} [Fintype ι] (A : ι → ι → ℝ) (f : E → E) (u : E) (h : ℝ) (Y : ι → E) : Prop :=
  ∀ i, Y i = u + h • ∑ j, A i j • f (Y j)

variable [CompleteSpace E]

omit [CompleteSpace E] in
theorem taylorP_bigO {K : Set E} (hK : IsCompact K) {f : E → E} {p : ℕ}
    (hf : ∀ u ∈ K, ContDiffAt ℝ p f u) {X Λ : Type*} {l : Filter Λ} {y0 : X → E}
    (hy0 : ∀ x, y0 x ∈ K) (π : Λ → X) (k : ℕ) :
    (fun x => taylorP p f (y0 (π x)) k) =O[l] (1 : Λ → ℝ) := by
  obtain ⟨C, hC, H⟩ := taylorP_bound hK hf k
  refine IsBigO.of_bound C (Eventually.of_forall fun x => ?_)
  simpa using H _ (hy0 (π x))

theorem local_uniform {ι : Type*} [Fintype ι] {A : ι → ι → ℝ} {W : RTree → ι → ℝ} (b : ι → ℝ)
    (hW : ∀ k (v : Fin k → RTree) i, W (node k v) i = ∏ j, ∑ l, A i l * W (v j) l)
    {K : Set E} (hK : IsCompact K) {f : E → E} {p : ℕ} (hf : ∀ u ∈ K, ContDiffAt ℝ p f u)
    {X : Type*} {y : X → ℝ → E} {τ : X → ℝ} (hτ : ∀ x, 0 ≤ τ x)
    (hyK : ∀ x, ∀ s ∈ Set.Icc (0 : ℝ) (τ x), y x s ∈ K)
    (hy : ∀ x, ∀ s ∈ Set.Icc (0 : ℝ) (τ x),
      HasDerivWithinAt (y x) (f (y x s)) (Set.Icc 0 (τ x)) s) :
    ∃ r > 0, ∃ h0 > 0, ∃ C, 0 ≤ C ∧ ∀ x, ∀ h ∈ Set.Ico (0 : ℝ) h0, h ≤ τ x → ∀ Y,
      Stages A f (y x 0) h Y → (∀ i, Y i ∈ ball (y x 0) r) →
      ‖y x 0 + h • ∑ i, b i • f (Y i) - y x h - ∑ t ∈ upTo p,
        (h ^ t.order * (∑ i, b i * W t i - 1 / t.density)) • elemDiff (taylorP p f (y x 0)) t‖
        ≤ C * h ^ (p + 1) := by
  obtain ⟨r1, hr1, C1, hC1, HT⟩ := taylor_uniform hK hf
  obtain ⟨r2, hr2, C2, hC2, HB⟩ := bound_uniform hK fun u hu => (hf u hu).continuousAt
  have hy0 : ∀ x, y x 0 ∈ K := fun x => hyK x 0 ⟨le_rfl, hτ x⟩
  -- the exact solution
  have hz0 : ∀ x : X, (fun q : X × ℝ => y q.1 q.2 - y q.1 0) (x, 0) = 0 := fun x => sub_self _
  have hz : ∀ x, ∀ s ∈ Set.Icc (0 : ℝ) (τ x),
      HasDerivWithinAt (fun s => (fun q : X × ℝ => y q.1 q.2 - y q.1 0) (x, s))
        ((fun q : X × ℝ => f (y q.1 q.2)) (x, s)) (Set.Icc 0 (τ x)) s := by
    intro x s hs
    simpa using (hy x s hs).sub_const (y x 0)
  have hg1 : (fun q : X × ℝ => f (y q.1 q.2)) =O[small τ] (1 : X × ℝ → ℝ) := by
    refine IsBigO.of_bound C2 (eventually_small.2 ⟨1, one_pos, fun x s hs hsτ => ?_⟩)
    simpa using HB _ (hyK x s ⟨hs.1, hsτ⟩) _ (mem_ball_self hr2)
  have hzO : (fun q : X × ℝ => y q.1 q.2 - y q.1 0) =O[small τ] fun q => q.2 ^ 1 :=
    bigO_integrate (m := 0) hz0 hz (hg1.congr_right fun x => (pow_zero _).symm)
  have hg : (fun q : X × ℝ => f (y q.1 q.2)
      - (taylorP p f (y q.1 0)).partialSum p (y q.1 q.2 - y q.1 0))
      =O[small τ] fun q => q.2 ^ p := by
    obtain ⟨C, hC, δ', hδ', H⟩ := bigO_small.1 hzO
    refine bigO_small.2 ⟨C1 * C ^ p, by positivity, min δ' (r1 / (C + 1)), ?_, ?_⟩
    · exact lt_min hδ' (by positivity)
    · intro x s hs hsτ
      have hs2 : s ∈ Set.Ico (0 : ℝ) δ' :=
        ⟨hs.1, hs.2.trans_le (min_le_left _ _)⟩
      have hs3 : s < r1 / (C + 1) := hs.2.trans_le (min_le_right _ _)
      have h1 := H x s hs2 hsτ
      rw [pow_one] at h1
      rw [lt_div_iff₀ (by positivity)] at hs3
      have h2 : y x s - y x 0 ∈ ball (0 : E) r1 := by
        rw [mem_ball_zero_iff]
        have := hs.1
        change ‖y x s - y x 0‖ ≤ _ at h1
        linarith
      have h3 := HT _ (hyK x 0 ⟨le_rfl, hτ x⟩) _ h2
      rw [add_sub_cancel] at h3
      refine h3.trans ?_
      rw [mul_assoc, ← mul_pow]
      gcongr
  have hex := exact_expansion (P := fun x => taylorP p f (y x 0)) (fun k => taylorP_bigO hK hf hy0 Prod.fst k)
    hz0 hz hg1 hg p le_rfl
  -- the numerical step
  set r := min r1 r2 with hr
  have hrpos : 0 < r := lt_min hr1 hr2
  let S : Set ((X × (ι → E)) × ℝ) := {q | Stages A f (y q.1.1 0) q.2 q.1.2 ∧
    ∀ i, q.1.2 i ∈ ball (y q.1.1 0) r}
  let l : Filter ((X × (ι → E)) × ℝ) := small (fun x : X × (ι → E) => τ x.1) ⊓ 𝓟 S
  have hS : ∀ᶠ q in l, q ∈ S := mem_inf_of_right (mem_principal_self S)
  have hh : (fun q : (X × (ι → E)) × ℝ => q.2) =O[l] (1 : (X × (ι → E)) × ℝ → ℝ) :=
    small_snd.mono inf_le_left
  have hK1 : ∀ i, (fun q : (X × (ι → E)) × ℝ => f (q.1.2 i)) =O[l]
      (1 : (X × (ι → E)) × ℝ → ℝ) := by
    intro i
    refine IsBigO.of_bound C2 (hS.mono fun q hq => ?_)
    simpa using HB _ (hy0 q.1.1) _ (ball_subset_ball (min_le_right _ _) (hq.2 i))
  have hst := step_expansion (P := fun q : (X × (ι → E)) × ℝ => taylorP p f (y q.1.1 0))
    (K := fun i q => f (q.1.2 i)) (p := p) b hW hh (fun k => taylorP_bigO hK hf hy0
      (fun q : (X × (ι → E)) × ℝ => q.1.1) k) hK1 (by
      intro i
      have h1 : (fun q : (X × (ι → E)) × ℝ => q.2 • ∑ j, A i j • f (q.1.2 j)) =O[l] fun q => q.2 := by
        have := (isBigO_refl (fun q : (X × (ι → E)) × ℝ => q.2) l).smul
          (bigO_sum (S := Finset.univ) fun j _ => (hK1 j).const_smul_left (A i j))
        simpa using this
      refine IsBigO.trans (IsBigO.of_bound C1 (hS.mono fun q hq => ?_)) (h1.norm_left.pow p)
      have h2 : q.2 • ∑ j, A i j • f (q.1.2 j) = q.1.2 i - y q.1.1 0 := by
        have := hq.1 i
        exact (sub_eq_of_eq_add' this).symm
      have h3 := HT _ (hy0 q.1.1) (q.1.2 i - y q.1.1 0) (by
        rw [mem_ball_zero_iff, ← dist_eq_norm]
        exact (hq.2 i).trans_le (min_le_left _ _))
      rw [add_sub_cancel] at h3
      rw [h2, norm_pow, norm_norm]
      exact h3)
  -- conclusion
  obtain ⟨Ce, hCe, δe, hδe, He⟩ := bigO_small.1 hex
  obtain ⟨Cs, hCs, hs⟩ := hst.exists_nonneg
  have hs' := isBigOWith_iff.1 hs
  rw [eventually_inf_principal] at hs'
  obtain ⟨δs, hδs, Hs⟩ := eventually_small.1 hs'
  refine ⟨r, hrpos, min δe δs, lt_min hδe hδs, Cs + Ce, by positivity, fun x h hh hhτ Y hY hYr => ?_⟩
  have e1 := He x h ⟨hh.1, hh.2.trans_le (min_le_left _ _)⟩ hhτ
  have e2 := Hs (x, Y) h ⟨hh.1, hh.2.trans_le (min_le_right _ _)⟩ hhτ ⟨hY, hYr⟩
  rw [Real.norm_of_nonneg (pow_nonneg hh.1 _)] at e2
  have e3 : y x 0 + h • ∑ i, b i • f (Y i) - y x h - ∑ t ∈ upTo p,
        (h ^ t.order * (∑ i, b i * W t i - 1 / t.density)) • elemDiff (taylorP p f (y x 0)) t
      = (h • ∑ i, b i • f (Y i)
        - ∑ t ∈ upTo p, (h ^ t.order * ∑ i, b i * W t i) • elemDiff (taylorP p f (y x 0)) t)
        - (y x h - y x 0 - ∑ t ∈ upTo p, (h ^ t.order * (1 / t.density : ℝ)) •
          elemDiff (taylorP p f (y x 0)) t) := by
    simp only [mul_sub, sub_smul, Finset.sum_sub_distrib]
    abel
  rw [e3, add_mul]
  exact (norm_sub_le _ _).trans (add_le_add e2 e1)

end QMat.Spec
