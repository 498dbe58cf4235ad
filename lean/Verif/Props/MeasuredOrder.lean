import Verif.Lemmas.MeasuredOrder
import Verif.Props.OrderSDCAll
import Verif.Props.AStable
import Verif.Props.Butcher

/-!
# C108: the order measured with `numericalOrder` is the order of the method
-/

namespace QMat

open Spec Matrix Filter Topology NodesGenerator

variable {M : ℕ}

/-- The errors `err n` for `n` steps, as returned, have the leading term `C n^{-p}`, and the measurement with any fixed pattern of numbers of
steps `s k_0, s k_1, ...` gives an order that tends to `p` with a residual of the regression that tends to zero, as `s` grows. -/
def MeasuredOrder (err : ℕ → PyResult ℝ) (p : ℕ) (C : ℝ) : Prop :=
  ∃ e : ℕ → ℝ, (∀ᶠ n in atTop, err n = .ok (e n)) ∧ Tendsto (fun n : ℕ => (n:ℝ) ^ p * e n) atTop (𝓝 C) ∧
    ∀ (m : ℕ) (k : Fin m → ℕ), (∀ i, 0 < k i) → (∃ i j, k i ≠ k j) →
      Tendsto (fun s : ℕ => numericalOrder (fun i => ((s * k i : ℕ) : ℝ)) fun i => e (s * k i)) atTop (𝓝 ((p:ℝ), 0))

theorem measured_of_local {R : ℂ → ℂ} {C δ : ℝ} {p : ℕ} (hp : 0 < p) (hC : 0 ≤ C) (hδ : 0 < δ) (hδ1 : δ ≤ 1) {a : ℝ} (ha : a ≠ 0)
    (hloc : ∀ z : ℂ, ‖z‖ ≤ δ → ‖R z - Complex.exp z - z ^ (p + 1) * (a : ℂ)‖ ≤ C * ‖z‖ ^ (p + 1 + 1))
    (lam u0 : ℂ) (tEnd : ℝ) (hlam : lam ≠ 0) (hu0 : u0 ≠ 0) (htEnd : tEnd ≠ 0) (err : ℕ → PyResult ℝ)
    (herr : ∀ n : ℕ, 0 < n → ‖lam * (tEnd / n : ℝ)‖ ≤ δ → ∃ e, err n = .ok e ∧
      (∀ k ≤ n, ‖R (lam * (tEnd / n : ℝ)) ^ k * u0 - u0 * Complex.exp (lam * (k * (tEnd / n) : ℝ))‖ ≤ e) ∧
      ∀ B, 0 ≤ B → (∀ k ≤ n, ‖R (lam * (tEnd / n : ℝ)) ^ k * u0 - u0 * Complex.exp (lam * (k * (tEnd / n) : ℝ))‖ ≤ B) → e ≤ B) :
    MeasuredOrder err p (‖u0‖ * (|a| * (‖lam‖ * |tEnd|) ^ (p + 1)) * growthMax (lam.re * tEnd)) := by
  obtain ⟨N, hN⟩ := exists_nat_gt (‖lam‖ * |tEnd| / δ)
  have hsmall : ∀ n ≥ N + 1, 0 < n ∧ ‖lam * (tEnd / n : ℝ)‖ ≤ δ := fun n hn => by
    have hn0 : (0:ℝ) < n := by exact_mod_cast (by omega : 0 < n)
    refine ⟨by omega, ?_⟩
    rw [norm_mul, Complex.norm_real, Real.norm_eq_abs, abs_div, abs_of_pos hn0, ← mul_div_assoc, div_le_iff₀ hn0]
    rw [div_lt_iff₀ hδ] at hN
    have : (N:ℝ) ≤ n := by exact_mod_cast (by omega : N ≤ n)
    nlinarith
  choose! e he hlow hup using fun (n : ℕ) (hn : n ≥ N + 1) => herr n (hsmall n hn).1 (hsmall n hn).2
  have hlim := error_limit hp hC hδ hδ1 hloc lam u0 tEnd e (N + 1) hlow hup
  refine ⟨e, eventually_atTop.2 ⟨N + 1, he⟩, hlim, fun m k hk hdiff => numericalOrder_limit k hk hdiff ?_ e hlim⟩
  have h1 : 0 < ‖u0‖ := norm_pos_iff.2 hu0
  have h2 : 0 < |a| := abs_pos.2 ha
  have h3 : 0 < ‖lam‖ * |tEnd| := mul_pos (norm_pos_iff.2 hlam) (abs_pos.2 htEnd)
  have h4 := growthMax_pos (lam.re * tEnd)
  positivity

/-- C108, any numbers of steps: errors between `c n^{-p}` and `K n^{-p}` are measured with an order that differs from `p` by at most
`√(m/2) log10(K/c) / |log10(n_i/n_j)|`, for the `m` numbers of steps and any two of them. -/
theorem C108_between {m : ℕ} (nSteps err : Fin m → ℝ) (hpos : ∀ i, 0 < nSteps i) (p c K : ℝ) (hc : 0 < c)
    (herr : ∀ i, c * nSteps i ^ (-p) ≤ err i ∧ err i ≤ K * nSteps i ^ (-p)) (i j : Fin m) :
    (((numericalOrder nSteps err).1 - p) * Real.logb 10 (nSteps i / nSteps j)) ^ 2 ≤ m / 2 * Real.logb 10 (K / c) ^ 2 := by
  have hm : 0 < m := i.pos
  have hm' : (0:ℝ) < m := by exact_mod_cast hm
  have hnp : ∀ i, 0 < nSteps i ^ (-p) := fun i => Real.rpow_pos_of_pos (hpos i) _
  have hK : c ≤ K := le_of_mul_le_mul_right ((herr i).1.trans (herr i).2) (hnp i)
  have hK0 : 0 < K := hc.trans_le hK
  set x := orderX nSteps with hx
  set y : Fin m → ℝ := fun i => Real.logb 10 (err i) with hy
  set sX := ∑ i, (x i - npMean x) ^ 2 with hsX
  have hxi : ∀ i, x i = -Real.logb 10 (nSteps i) := fun i => by
    rw [hx]
    unfold orderX
    rw [one_div, Real.logb_inv]
  have hbeta : (numericalOrder nSteps err).1 = (∑ i, (x i - npMean x) * (y i - npMean y)) / sX := rfl
  have hsum0 : ∑ i, (x i - npMean x) = 0 := by
    rw [Finset.sum_sub_distrib, Finset.sum_const, Finset.card_univ, Fintype.card_fin, nsmul_eq_mul]
    unfold npMean
    field_simp
    ring
  have hr : ∀ i, Real.logb 10 c ≤ y i - p * x i ∧ y i - p * x i ≤ Real.logb 10 K := fun i => by
    have h1 : ∀ a, 0 < a → Real.logb 10 (a * nSteps i ^ (-p)) = Real.logb 10 a + p * x i := fun a ha => by
      rw [Real.logb_mul ha.ne' (hnp i).ne', Real.logb_rpow_eq_mul_logb_of_pos (hpos i), hxi]
      ring
    have h2 := Real.logb_le_logb_of_le (by norm_num : (1:ℝ) < 10) (mul_pos hc (hnp i)) (herr i).1
    have h3 := Real.logb_le_logb_of_le (by norm_num : (1:ℝ) < 10) ((mul_pos hc (hnp i)).trans_le (herr i).1) (herr i).2
    rw [h1 c hc] at h2
    rw [h1 K hK0] at h3
    exact ⟨by linarith, by linarith⟩
  have hlog : Real.logb 10 (K / c) = Real.logb 10 K - Real.logb 10 c := Real.logb_div hK0.ne' hc.ne'
  have hspread : Real.logb 10 (nSteps i / nSteps j) ^ 2 ≤ 2 * sX := by
    rw [Real.logb_div (hpos i).ne' (hpos j).ne']
    by_cases hij : i = j
    · rw [hij, sub_self]
      have : 0 ≤ sX := Finset.sum_nonneg fun i _ => sq_nonneg _
      linarith [this]
    · have h1 : ∑ l ∈ ({i, j} : Finset (Fin m)), (x l - npMean x) ^ 2 ≤ sX :=
        Finset.sum_le_sum_of_subset_of_nonneg (Finset.subset_univ _) fun l _ _ => sq_nonneg _
      rw [Finset.sum_pair hij, hxi i, hxi j] at h1
      nlinarith [sq_nonneg ((-Real.logb 10 (nSteps i) - npMean x) + (-Real.logb 10 (nSteps j) - npMean x))]
  have hsX0 : 0 ≤ sX := Finset.sum_nonneg fun i _ => sq_nonneg _
  have key : ((numericalOrder nSteps err).1 - p) ^ 2 * sX ≤ m / 4 * Real.logb 10 (K / c) ^ 2 := by
    rcases hsX0.eq_or_lt with h0 | h0
    · rw [← h0, mul_zero]
      positivity
    set mid := (Real.logb 10 c + Real.logb 10 K) / 2 with hmid
    have h1 : ((numericalOrder nSteps err).1 - p) * sX = ∑ i, (x i - npMean x) * (y i - p * x i - mid) := by
      have e : ∑ i, (x i - npMean x) * (y i - p * x i - mid) = ∑ i, (x i - npMean x) * (y i - npMean y) - p * sX +
          (npMean y - p * npMean x - mid) * ∑ i, (x i - npMean x) := by
        rw [hsX, Finset.mul_sum, Finset.mul_sum, ← Finset.sum_sub_distrib, ← Finset.sum_add_distrib]
        exact Finset.sum_congr rfl fun i _ => by ring
      rw [e, hsum0, hbeta]
      field_simp
      ring
    have h2 := Finset.sum_mul_sq_le_sq_mul_sq Finset.univ (fun i => x i - npMean x) (fun i => y i - p * x i - mid)
    rw [← h1, ← hsX] at h2
    have h3 : ∑ i, (y i - p * x i - mid) ^ 2 ≤ m / 4 * Real.logb 10 (K / c) ^ 2 := by
      refine (Finset.sum_le_card_nsmul _ _ (Real.logb 10 (K / c) ^ 2 / 4) fun i _ => ?_).trans (le_of_eq ?_)
      · obtain ⟨a1, a2⟩ := hr i
        rw [hlog]
        have : |y i - p * x i - mid| ≤ (Real.logb 10 K - Real.logb 10 c) / 2 := abs_le.2 ⟨by rw [hmid]; linarith, by rw [hmid]; linarith⟩
        have := pow_le_pow_left₀ (abs_nonneg _) this 2
        rw [sq_abs] at this
        linarith
      · rw [Finset.card_univ, Fintype.card_fin, nsmul_eq_mul]
        ring
    have h4 : sX * (((numericalOrder nSteps err).1 - p) ^ 2 * sX) ≤ sX * (m / 4 * Real.logb 10 (K / c) ^ 2) := by
      calc _ = (((numericalOrder nSteps err).1 - p) * sX) ^ 2 := by ring
        _ ≤ _ := h2.trans (mul_le_mul_of_nonneg_left h3 h0.le)
    exact le_of_mul_le_mul_left h4 h0
  rw [mul_pow]
  have h5 := mul_le_mul_of_nonneg_left hspread (sq_nonneg ((numericalOrder nSteps err).1 - p))
  linarith

-- errors between `n⁻⁴` and `2 n⁻⁴` for 10 and 1000 steps: the measured order is 4 up to `0.16`
example (e : Fin 2 → ℝ) (h : ∀ i, 1 * (![10, 1000] : Fin 2 → ℝ) i ^ (-(4:ℝ)) ≤ e i ∧ e i ≤ 2 * (![10, 1000] : Fin 2 → ℝ) i ^ (-(4:ℝ))) :
    (((numericalOrder ![10, 1000] e).1 - 4) * 2) ^ 2 ≤ Real.logb 10 2 ^ 2 := by
  have := C108_between ![10, 1000] e (fun i => by fin_cases i <;> norm_num) 4 1 2 one_pos h 1 0
  have e1 : Real.logb 10 ((1000:ℝ) / 10) = 2 := by
    rw [show (1000:ℝ) / 10 = 10 ^ (2:ℝ) by norm_num]
    exact Real.logb_rpow (by norm_num) (by norm_num)
  simpa [e1] using this

/-- C108, criterion: a method with the linear order conditions up to `p > 0` and not `p + 1` is measured with order `p`, and its largest error
is `n^{-p}` times `|u0| |bᵀ Q^p 1 - 1/(p+1)!| |λ tEnd|^{p+1} max_{0 ≤ t ≤ 1} t exp(Re λ tEnd t)` up to terms of higher order. -/
theorem C108_generator (g : QGenerator M) (p : ℕ) (hp : 0 < p) (h : LinearOrder g.Q g.weights p)
    (hne : g.weights ⬝ᵥ ((g.Q ^ p) *ᵥ fun _ => 1) ≠ 1 / (p + 1).factorial)
    (lam u0 : ℂ) (tEnd : ℝ) (hlam : lam ≠ 0) (hu0 : u0 ≠ 0) (htEnd : tEnd ≠ 0) :
    MeasuredOrder (fun n => g.errorDahlquist lam u0 tEnd n) p
      (‖u0‖ * (|g.weights ⬝ᵥ ((g.Q ^ p) *ᵥ fun _ => 1) - 1 / (p + 1).factorial| * (‖lam‖ * |tEnd|) ^ (p + 1)) * growthMax (lam.re * tEnd)) := by
  obtain ⟨C, δ, hC, hδ, hδ1, hloc⟩ := local_expansion g.Q g.weights (p + 1)
  refine measured_of_local (R := fun z => stabilityFunction g.Q g.weights z) hp hC hδ hδ1 (sub_ne_zero.2 hne) (fun z hz => ?_)
    lam u0 tEnd hlam hu0 htEnd _ fun n hn hz => ?_
  · have hsum : ∑ k ∈ Finset.range (p + 1), z ^ (k + 1) * (linResidual g.Q g.weights k : ℂ) =
        z ^ (p + 1) * (linResidual g.Q g.weights p : ℂ) := by
      rw [Finset.sum_range_succ, Finset.sum_eq_zero, zero_add]
      intro k hk
      have : linResidual g.Q g.weights k = 0 := by
        rw [linResidual, h k (Finset.mem_range.mp hk)]; ring
      rw [this]; simp
    have := (hloc z hz).2
    rw [hsum] at this
    exact this
  · exact errorDahlquist_of_solve g lam u0 tEnd n false _ (C30_solveDahlquist g lam u0 tEnd n hn (hloc _ hz).1)

/-- C108: the registered Runge-Kutta classes whose coefficients are exact are measured with their declared order, for every problem. -/
theorem C108_rk (T : RKTable) (hT : T ∈ Tables.rkSchemes) (hx : tableAccuracy T.name = 0) (lam u0 : ℂ) (tEnd : ℝ) (hlam : lam ≠ 0)
    (hu0 : u0 ≠ 0) (htEnd : tEnd ≠ 0) :
    ∃ C > 0, MeasuredOrder (fun n => T.toRK.toQGenerator.errorDahlquist lam u0 tEnd n) T.order C := by
  obtain ⟨-, -, -, hp, -⟩ := tables_shape T hT
  have hne := C32_order_is_exact T hT
  refine ⟨_, ?_, C108_generator T.toRK.toQGenerator T.order hp (fun k hk => ?_) (fun h => ?_) lam u0 tEnd hlam hu0 htEnd⟩
  · have h1 : 0 < ‖u0‖ := norm_pos_iff.2 hu0
    have h3 : 0 < ‖lam‖ * |tEnd| := mul_pos (norm_pos_iff.2 hlam) (abs_pos.2 htEnd)
    have h4 := growthMax_pos (lam.re * tEnd)
    have h5 : 0 < |T.toRK.toQGenerator.weights ⬝ᵥ ((T.toRK.toQGenerator.Q ^ T.order) *ᵥ fun _ => 1) - 1 / (T.order + 1).factorial| :=
      lt_of_lt_of_le (by norm_num) hne
    positivity
  · have := C32_linear_conditions T hT k hk
    rw [hx, Rat.cast_zero] at this
    exact sub_eq_zero.mp (abs_nonpos_iff.mp this)
  · change T.toRK.b ⬝ᵥ ((T.toRK.A ^ T.order) *ᵥ fun _ => 1) = _ at h
    rw [h, sub_self, abs_zero] at hne
    norm_num at hne

/-- C108: collocation methods are measured with the order of their quadrature rule. -/
theorem C108_collocation {nt qt : String} (c : Collocation M) (hc : Collocation.new M nt qt 0 1 = .ok c) (p : ℕ) (hp : 0 < p)
    (hex : ∀ q : Polynomial ℝ, q.degree < p → ∑ j, c.weights j * q.eval (c.nodes j) = ∫ t in (0:ℝ)..1, q.eval t)
    (hnot : ¬ ∀ q : Polynomial ℝ, q.degree < (p + 1 : ℕ) → ∑ j, c.weights j * q.eval (c.nodes j) = ∫ t in (0:ℝ)..1, q.eval t)
    (lam u0 : ℂ) (tEnd : ℝ) (hlam : lam ≠ 0) (hu0 : u0 ≠ 0) (htEnd : tEnd ≠ 0) :
    ∃ C > 0, MeasuredOrder (fun n => c.toQGenerator.errorDahlquist lam u0 tEnd n) p C := by
  obtain ⟨x, hM, h⟩ := collocation_spec hc
  have hlin := collocation_order_conditions c hc hex
  have hne : c.weights ⬝ᵥ ((c.Q ^ p) *ᵥ fun _ => 1) ≠ 1 / (p + 1).factorial := fun he => by
    refine hnot (collocation_quad_of_linearOrder (h.strictMono (by norm_num)).injective (h.Q_exact (by norm_num))
      (h.weights_exact (by norm_num)) (p := p + 1) fun k hk => ?_)
    rcases Nat.lt_succ_iff_lt_or_eq.1 hk with hk | rfl
    · exact hlin k hk
    · exact he
  refine ⟨_, ?_, C108_generator c.toQGenerator p hp hlin hne lam u0 tEnd hlam hu0 htEnd⟩
  have h1 : 0 < ‖u0‖ := norm_pos_iff.2 hu0
  have h3 : 0 < ‖lam‖ * |tEnd| := mul_pos (norm_pos_iff.2 hlam) (abs_pos.2 htEnd)
  have h4 := growthMax_pos (lam.re * tEnd)
  have h5 : 0 < |c.toQGenerator.weights ⬝ᵥ ((c.toQGenerator.Q ^ p) *ᵥ fun _ => 1) - 1 / (p + 1).factorial| := abs_pos.2 (sub_ne_zero.2 hne)
  positivity

/-- C108 for `LEGENDRE` nodes: the measured order is the one that `Collocation.order` returns. -/
theorem C108_legendre {qt : String} (c : Collocation M) (hc : Collocation.new M "LEGENDRE" qt 0 1 = .ok c) (hun : Unmoved "LEGENDRE" qt c)
    (lam u0 : ℂ) (tEnd : ℝ) (hlam : lam ≠ 0) (hu0 : u0 ≠ 0) (htEnd : tEnd ≠ 0) :
    ∃ order, c.order = some order ∧ ∃ C > 0, MeasuredOrder (fun n => c.toQGenerator.errorDahlquist lam u0 tEnd n) order C := by
  classical
  obtain ⟨x, hx, hun⟩ := hun
  obtain ⟨x', hM, h⟩ := collocation_spec hc
  obtain ⟨order, ho, hMo, hex⟩ := C28_quadrature_order_unmoved (by norm_num) c hc x hx (fun i => by rw [hun]; ring)
  obtain ⟨-, hr, hl, hrr⟩ := C24_collocation_nodes (by norm_num) c hc
  refine ⟨order, ho, C108_collocation c hc order (by omega) hex (fun hno => ?_) lam u0 tEnd hlam hu0 htEnd⟩
  have hcard := order_le_of_ends (p := order + 1) (by norm_num) hno
  rcases legendre_order c hc with ⟨hq, ho'⟩ | ⟨hq, ho'⟩ | ⟨hq, hM2, ho'⟩
  · rw [ho] at ho'; cases ho'
    omega
  · rw [ho] at ho'; cases ho'
    have : 0 < (Finset.univ.filter fun i => c.nodes i = 0 ∨ c.nodes i = 1).card := by
      rcases hq with hq | hq
      · obtain ⟨i, hi⟩ := hl (Or.inl hq)
        exact Finset.card_pos.mpr ⟨i, Finset.mem_filter.mpr ⟨Finset.mem_univ _, Or.inl hi⟩⟩
      · obtain ⟨i, hi⟩ := hrr (Or.inl hq) (Or.inr (by norm_num))
        exact Finset.card_pos.mpr ⟨i, Finset.mem_filter.mpr ⟨Finset.mem_univ _, Or.inr hi⟩⟩
    omega
  · rw [ho] at ho'; cases ho'
    obtain ⟨i, hi⟩ := hrr (Or.inr hq) (Or.inr (by norm_num))
    obtain ⟨k, hk⟩ := hl (Or.inr hq)
    have hik : i ≠ k := fun he => by rw [he, hk] at hi; norm_num at hi
    have : ({i, k} : Finset (Fin M)).card ≤ (Finset.univ.filter fun i => c.nodes i = 0 ∨ c.nodes i = 1).card := by
      refine Finset.card_le_card fun l hl => ?_
      simp only [Finset.mem_insert, Finset.mem_singleton] at hl
      simp only [Finset.mem_filter, Finset.mem_univ, true_and]
      rcases hl with rfl | rfl
      · exact Or.inr hi
      · exact Or.inl hk
    rw [Finset.card_pair hik] at this
    omega

/-- C108, criterion for SDC: the measured order of `K` sweeps is the number of correct Taylor coefficients of the factor of one step. -/
theorem C108_sdc (Q : Matrix (Fin M) (Fin M) ℝ) (QD : SDCQDelta) (K : ℕ) (f : ℕ → Matrix (Fin M) (Fin M) ℝ) (hQD : SweepMatrices M K QD f)
    (w : Option (Fin M → ℝ)) (hw : w = none → 0 < M) (p : ℕ) (hp : 0 < p) (h : SDCLinearOrder Q f K w p)
    (hne : sdcFactorTaylor Q f K w (p + 1) ≠ 1 / (p + 1).factorial)
    (lam u0 : ℂ) (tEnd : ℝ) (hlam : lam ≠ 0) (hu0 : u0 ≠ 0) (htEnd : tEnd ≠ 0) :
    MeasuredOrder (fun n => errorDahlquistSDC lam u0 tEnd n K Q QD (sigmaWeights w)) p
      (‖u0‖ * (|sdcFactorTaylor Q f K w (p + 1) - 1 / (p + 1).factorial| * (‖lam‖ * |tEnd|) ^ (p + 1)) * growthMax (lam.re * tEnd)) := by
  have hz : ∀ z : ℂ, ∑ j ∈ Finset.range (p + 1),
      z ^ j * ((sdcFactorTaylor Q f K w j - 1 / j.factorial : ℝ) : ℂ) = 0 := fun z => by
    refine Finset.sum_eq_zero fun j hj => ?_
    rw [h j (by simpa [Nat.lt_succ_iff] using hj), sub_self]
    simp
  obtain ⟨C, δ, hC, hδ, hδ1, hloc⟩ := sdcFactor_error Q f K w (p + 1)
  refine measured_of_local (R := fun z => sdcFactor z Q f K (sigmaWeights w)) hp hC hδ hδ1 (sub_ne_zero.mpr hne)
    (fun z hzz => by
      have := (hloc z hzz).2
      rwa [Finset.sum_range_succ, hz z, zero_add] at this) lam u0 tEnd hlam hu0 htEnd _ fun n hn hzn => ?_
  exact errorDahlquistSDC_of_solve lam u0 tEnd n K hn Q QD f hQD w hw (hloc _ hzn).1

/-- The order conditions behind an order of convergence of SDC. -/
theorem sdcLinear_of_converges {Q : Matrix (Fin M) (Fin M) ℝ} {QD : SDCQDelta} {K : ℕ} {f : ℕ → Matrix (Fin M) (Fin M) ℝ}
    (hQD : SweepMatrices M K QD f) {w : Option (Fin M → ℝ)} (hw : w = none → 0 < M) (h1 : SDCLinearOrder Q f K w 1) {p : ℕ}
    (hc : SDCConverges Q QD K w p) (hn : SDCNotFaster Q QD K w p) :
    0 < p ∧ SDCLinearOrder Q f K w p ∧ sdcFactorTaylor Q f K w (p + 1) ≠ 1 / (p + 1).factorial := by
  classical
  have hp : 0 < p := by
    by_contra h0
    obtain rfl : p = 0 := by omega
    exact hn.not_converges one_pos ((C60_criterion Q QD K f hQD w hw 1 h1).1)
  have hlin : SDCLinearOrder Q f K w p := by
    by_contra hno
    have hex : ∃ j, j ≤ p ∧ sdcFactorTaylor Q f K w j ≠ 1 / j.factorial := by
      unfold SDCLinearOrder at hno
      push Not at hno
      exact hno
    obtain ⟨hjp, hj⟩ := Nat.find_spec hex
    have hmin : ∀ i < Nat.find hex, sdcFactorTaylor Q f K w i = 1 / i.factorial := fun i hi => by
      by_contra h
      exact Nat.find_min hex hi ⟨by omega, h⟩
    generalize Nat.find hex = j at *
    have hj2 : 2 ≤ j := by
      by_contra h
      exact hj (h1 j (by omega))
    obtain ⟨i, rfl⟩ : ∃ i, j = i + 1 := ⟨j - 1, by omega⟩
    exact ((C60_criterion Q QD K f hQD w hw i fun l hl => hmin l (by omega)).2 (by omega) hj).not_converges (by omega) hc
  refine ⟨hp, hlin, fun he => hn.not_converges (Nat.lt_succ_self p) ((C60_criterion Q QD K f hQD w hw (p + 1) fun j hj => ?_).1)⟩
  rcases Nat.le_succ_iff.1 hj with hj | rfl
  · exact hlin j hj
  · exact he

/-- C108 for SDC on up to four nodes of any type, any number of sweeps: the measured order is the one of C61, which is what `getOrderSDC` returns
up to the entries listed there. -/
theorem C108_sdc_exact {nt qt : String} (ext : ExternalNum) (hM : M ≤ 4) (c : Collocation M) (hc : Collocation.new M nt qt 0 1 = .ok c)
    {name : String} (hname : name ∈ ["BE", "FE", "TRAP", "BEPAR", "TRAPAR", "SOE"]) (A : Matrix (Fin M) (Fin M) ℝ)
    (hA : getQD ext name (kwColl c) none = .ok ⟨M, A⟩) (K : ℕ) (lam u0 : ℂ) (tEnd : ℝ) (hlam : lam ≠ 0) (hu0 : u0 ≠ 0) (htEnd : tEnd ≠ 0) :
    ∃ order, c.order = some order ∧
    ∀ upd w, (upd = "QUADRATURE" ∧ w = some c.weights ∨
        upd = "LASTNODE" ∧ w = none ∧ 0 < K ∧ (qt = "RADAU-RIGHT" ∨ qt = "LOBATTO")) →
      ∃ p : ℕ, (p : ℤ) = getOrderSDC M nt qt order K name upd - announcedExcess M nt qt K name upd ∧
        (5 ≤ K → announcedExcess M nt qt K name upd = 0) ∧
        ∃ C > 0, MeasuredOrder (fun n => errorDahlquistSDC lam u0 tEnd n K c.Q (.mat M M A) (sigmaWeights w)) p C := by
  obtain ⟨order, ho, hall⟩ := C61_announced ext hM c hc hname A hA K
  refine ⟨order, ho, fun upd w hw => ?_⟩
  obtain ⟨p, hp, h5, hconv, hnot⟩ := hall upd w hw
  refine ⟨p, hp, h5, ?_⟩
  obtain ⟨x, hM0, h⟩ := collocation_spec hc
  have hQD : SweepMatrices M (K:ℤ) (.mat M M A) (fun _ => A) := .same K A
  have hlin1 : LinearOrder c.Q c.weights 1 := collocation_order_conditions c hc fun q hq =>
    h.weights_exact (by norm_num) q (hq.trans_le (by exact_mod_cast hM0))
  have h1 : SDCLinearOrder c.Q (fun _ => A) K w 1 := by
    rcases hw with ⟨-, rfl⟩ | ⟨-, rfl, hK, hq⟩
    · have := sdcLinearOrder_quadrature hlin1 (fun _ => A) K
      rwa [min_eq_left (by omega)] at this
    · obtain ⟨-, hr, -, hrr⟩ := C24_collocation_nodes (by norm_num) c hc
      obtain ⟨i, hi⟩ := hrr hq (Or.inr (by norm_num))
      have hlast : c.nodes ⟨M - 1, by omega⟩ = 1 :=
        le_antisymm (hr _).2 (hi ▸ (h.strictMono (by norm_num)).monotone (Fin.le_def.2 (by simp only; omega)))
      rw [C26_weights_last_row (by norm_num) c hc _ hlast] at hlin1
      have := sdcLinearOrder_lastNode hM0 hlin1 (fun _ => A) K
      rwa [min_eq_left (by omega)] at this
  obtain ⟨hp0, hlin, hne⟩ := sdcLinear_of_converges hQD (fun _ => hM0) h1 hconv hnot
  refine ⟨_, ?_, C108_sdc c.Q (.mat M M A) K (fun _ => A) hQD w (fun _ => hM0) p hp0 hlin hne lam u0 tEnd hlam hu0 htEnd⟩
  have h1 : 0 < ‖u0‖ := norm_pos_iff.2 hu0
  have h3 : 0 < ‖lam‖ * |tEnd| := mul_pos (norm_pos_iff.2 hlam) (abs_pos.2 htEnd)
  have h4 := growthMax_pos (lam.re * tEnd)
  have h6 : 0 < |sdcFactorTaylor c.Q (fun _ => A) K w (p + 1) - 1 / (p + 1).factorial| := abs_pos.2 (sub_ne_zero.2 hne)
  positivity

-- `RK4` on `u' = i u` until `2 π`, with 10, 20, 50 (times `s`) steps
example : ∃ C > 0, MeasuredOrder (fun n => Tables.tRK4.toRK.toQGenerator.errorDahlquist Complex.I 1 (2 * Real.pi) n) 4 C :=
  C108_rk Tables.tRK4 (by simp [Tables.rkSchemes]) (by decide) Complex.I 1 (2 * Real.pi) Complex.I_ne_zero one_ne_zero (by positivity)

-- five Radau nodes: order nine
example : ∃ c : Collocation 5, Collocation.new 5 "LEGENDRE" "RADAU-RIGHT" 0 1 = .ok c ∧
    ∃ C > 0, MeasuredOrder (fun n => c.toQGenerator.errorDahlquist (-1) 1 1 n) 9 C := by
  obtain ⟨c, hc⟩ := collocation_new_ok (M := 5) (nt := "LEGENDRE") (qt := "RADAU-RIGHT") (by decide)
    (by decide) ⟨by norm_num, fun _ => by norm_num⟩ 0 1
  obtain ⟨order, ho, C, hC, h⟩ := C108_legendre c hc (unmoved_small (by norm_num) c hc) (-1) 1 1 (by norm_num) one_ne_zero one_ne_zero
  obtain rfl : order = 9 := by
    rcases legendre_order c hc with ⟨hq, -⟩ | ⟨-, ho'⟩ | ⟨hq, -⟩
    · simp at hq
    · rw [ho] at ho'; simpa using ho'
    · simp at hq
  exact ⟨c, hc, C, hC, h⟩

-- `BE` with any number of sweeps on three Lobatto nodes
example (ext : ExternalNum) (K : ℕ) : ∃ (c : Collocation 3) (A : Matrix (Fin 3) (Fin 3) ℝ),
    Collocation.new 3 "LEGENDRE" "LOBATTO" 0 1 = .ok c ∧ getQD ext "BE" (kwColl c) none = .ok ⟨3, A⟩ ∧
    ∃ p : ℕ, ∃ C > 0, MeasuredOrder (fun n => errorDahlquistSDC (-1) 1 1 n K c.Q (.mat 3 3 A) (sigmaWeights (some c.weights))) p C := by
  obtain ⟨c, hc⟩ := collocation_new_ok (M := 3) (nt := "LEGENDRE") (qt := "LOBATTO") (by decide)
    (by decide) ⟨by norm_num, fun _ => by norm_num⟩ 0 1
  obtain ⟨A, hA⟩ := getQD_time_ok ext c hc (name := "BE") (by decide)
  obtain ⟨order, -, h⟩ := C108_sdc_exact ext (by norm_num) c hc (by decide) A hA K (-1) 1 1 (by norm_num) one_ne_zero one_ne_zero
  obtain ⟨p, -, -, C, hC, hm⟩ := h "QUADRATURE" _ (Or.inl ⟨rfl, rfl⟩)
  exact ⟨c, A, hc, hA, p, C, hC, hm⟩

end QMat
