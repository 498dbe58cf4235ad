import Verif.Lemmas.SDCOrder
import Verif.Props.Num
import Mathlib.Analysis.SpecialFunctions.Log.Base
import Mathlib.Algebra.Order.Field.GeomSum

/-!
# Leading term of the error on Dahlquist's equation, and regression on errors with a leading term
-/

namespace QMat

open Filter Topology

/-! ## Powers of nearby numbers -/

theorem pow_sub_le {R E : ℂ} {G : ℝ} {n : ℕ} (hR : ∀ k ≤ n, ‖R‖ ^ k ≤ G) (hE : ∀ k ≤ n, ‖E‖ ^ k ≤ G) {k : ℕ} (hk : k ≤ n) :
    ‖R ^ k - E ^ k‖ ≤ k * (G * G * ‖R - E‖) := by
  have hG : 0 ≤ G := le_trans (by simp) (hR 0 (Nat.zero_le _))
  rw [← (Commute.all R E).geom_sum₂_mul, norm_mul, ← mul_assoc]
  refine mul_le_mul_of_nonneg_right ((norm_sum_le _ _).trans ?_) (norm_nonneg _)
  refine (Finset.sum_le_card_nsmul _ _ (G * G) fun i hi => ?_).trans ?_
  · rw [Finset.mem_range] at hi
    rw [norm_mul, norm_pow, norm_pow]
    exact mul_le_mul (hR _ (by omega)) (hE _ (by omega)) (by positivity) hG
  · rw [Finset.card_range, nsmul_eq_mul]

theorem pow_sub_linear {R E : ℂ} {G : ℝ} {n : ℕ} (hR : ∀ k ≤ n, ‖R‖ ^ k ≤ G) (hE : ∀ k ≤ n, ‖E‖ ^ k ≤ G) {k : ℕ} (hk : k ≤ n) :
    ‖R ^ k - E ^ k - k * (R - E) * E ^ (k - 1)‖ ≤ (k:ℝ) ^ 2 * (G ^ 3 * ‖R - E‖ ^ 2) := by
  have hG : 0 ≤ G := le_trans (by simp) (hR 0 (Nat.zero_le _))
  have e : R ^ k - E ^ k - k * (R - E) * E ^ (k - 1) = (∑ i ∈ Finset.range k, (R ^ i - E ^ i) * E ^ (k - 1 - i)) * (R - E) := by
    have h1 : ∑ i ∈ Finset.range k, (R ^ i - E ^ i) * E ^ (k - 1 - i) =
        ∑ i ∈ Finset.range k, R ^ i * E ^ (k - 1 - i) - k * E ^ (k - 1) := by
      simp only [sub_mul]
      rw [Finset.sum_sub_distrib]
      congr 1
      rw [Finset.sum_congr rfl fun i hi => ?_, Finset.sum_const, Finset.card_range, nsmul_eq_mul]
      rw [Finset.mem_range] at hi
      rw [← pow_add]
      congr 1
      omega
    rw [h1, sub_mul, (Commute.all R E).geom_sum₂_mul]
    ring
  rw [e, norm_mul]
  have h2 : ‖∑ i ∈ Finset.range k, (R ^ i - E ^ i) * E ^ (k - 1 - i)‖ ≤ k * (k * (G * G * ‖R - E‖) * G) := by
    refine (norm_sum_le _ _).trans ((Finset.sum_le_card_nsmul _ _ (k * (G * G * ‖R - E‖) * G) fun i hi => ?_).trans ?_)
    · rw [Finset.mem_range] at hi
      rw [norm_mul, norm_pow]
      refine mul_le_mul ((pow_sub_le hR hE (by omega : i ≤ n)).trans ?_) (hE _ (by omega)) (by positivity) (by positivity)
      refine mul_le_mul_of_nonneg_right ?_ (by positivity)
      exact_mod_cast hi.le
    · rw [Finset.card_range, nsmul_eq_mul]
  calc _ ≤ k * (k * (G * G * ‖R - E‖) * G) * ‖R - E‖ := mul_le_mul_of_nonneg_right h2 (norm_nonneg _)
    _ = _ := by ring

/-! ## The largest value of `t exp (ρ t)` -/

/-- Largest value of `t exp (ρ t)` for `t` in `[0, 1]`. -/
noncomputable def growthMax (ρ : ℝ) : ℝ := if -1 ≤ ρ then Real.exp ρ else 1 / (-ρ * Real.exp 1)

theorem growthMax_spec (ρ : ℝ) : ∃ t : ℝ, 0 ≤ t ∧ t ≤ 1 ∧ t * Real.exp (ρ * t) = growthMax ρ ∧
    ∀ s : ℝ, 0 ≤ s → s ≤ 1 → s * Real.exp (ρ * s) ≤ growthMax ρ := by
  unfold growthMax
  split_ifs with h
  · refine ⟨1, by norm_num, le_rfl, by simp, fun s h0 h1 => ?_⟩
    have h2 : s ≤ Real.exp (s - 1) := by have := Real.add_one_le_exp (s - 1); linarith
    have h3 : Real.exp (s - 1) * Real.exp (ρ * s) ≤ Real.exp ρ := by
      rw [← Real.exp_add]
      refine Real.exp_le_exp.2 ?_
      nlinarith
    exact (mul_le_mul_of_nonneg_right h2 (Real.exp_pos _).le).trans h3
  · push Not at h
    have hρ : 0 < -ρ := by linarith
    refine ⟨1 / -ρ, by positivity, by rw [div_le_one hρ]; linarith, ?_, fun s h0 h1 => ?_⟩
    · have : ρ * (1 / -ρ) = -1 := by
        have : ρ ≠ 0 := by linarith
        field_simp
      rw [this, Real.exp_neg]
      field_simp
    · rw [le_div_iff₀ (by positivity)]
      have h2 : -ρ * s ≤ Real.exp (-ρ * s - 1) := by have := Real.add_one_le_exp (-ρ * s - 1); linarith
      have h3 : Real.exp (-ρ * s - 1) * (Real.exp (ρ * s) * Real.exp 1) = 1 := by
        rw [← Real.exp_add, ← Real.exp_add, ← Real.exp_zero]
        congr 1
        ring
      have h4 := mul_le_mul_of_nonneg_right h2 (show 0 ≤ Real.exp (ρ * s) * Real.exp 1 by positivity)
      rw [h3] at h4
      linarith

theorem growthMax_pos (ρ : ℝ) : 0 < growthMax ρ := by
  unfold growthMax
  split_ifs with h
  · exact Real.exp_pos _
  · push Not at h
    have hρ : 0 < -ρ := by linarith
    positivity

/-! ## Leading term of the largest error -/

theorem error_limit {R : ℂ → ℂ} {C δ : ℝ} {p : ℕ} (hp : 0 < p) (hC : 0 ≤ C) (hδ : 0 < δ) (hδ1 : δ ≤ 1) {a : ℝ}
    (hloc : ∀ z : ℂ, ‖z‖ ≤ δ → ‖R z - Complex.exp z - z ^ (p + 1) * (a : ℂ)‖ ≤ C * ‖z‖ ^ (p + 1 + 1))
    (lam u0 : ℂ) (tEnd : ℝ) (e : ℕ → ℝ) (N : ℕ)
    (hlow : ∀ n ≥ N, ∀ k ≤ n, ‖R (lam * (tEnd / n : ℝ)) ^ k * u0 - u0 * Complex.exp (lam * (k * (tEnd / n) : ℝ))‖ ≤ e n)
    (hup : ∀ n ≥ N, ∀ B, 0 ≤ B → (∀ k ≤ n, ‖R (lam * (tEnd / n : ℝ)) ^ k * u0 - u0 * Complex.exp (lam * (k * (tEnd / n) : ℝ))‖ ≤ B) → e n ≤ B) :
    Tendsto (fun n : ℕ => (n:ℝ) ^ p * e n) atTop
      (𝓝 (‖u0‖ * (|a| * (‖lam‖ * |tEnd|) ^ (p + 1)) * growthMax (lam.re * tEnd))) := by
  set W := ‖lam‖ * |tEnd| with hW
  have hW0 : 0 ≤ W := by positivity
  set ρ := lam.re * tEnd with hρ
  set C' := |a| + C with hC'
  have hC'0 : 0 ≤ C' := by positivity
  set G := Real.exp ((1 + C') * W) with hG
  set B := ‖u0‖ * (G ^ 3 * (C' * W ^ (p + 1)) ^ 2) with hB
  have hB0 : 0 ≤ B := by positivity
  set D : ℕ → ℂ := fun n => R (lam * (tEnd / n : ℝ)) - Complex.exp (lam * (tEnd / n : ℝ)) with hD
  set q : ℕ → ℝ := fun n => ‖u0‖ * (Real.exp (-ρ / n) * ((n:ℝ) ^ (p + 1) * ‖D n‖)) with hq
  obtain ⟨N0, hN0⟩ := exists_nat_gt (W / δ)
  -- bounds for one number of steps
  have key : ∀ n ≥ N0 + 1, 0 < n ∧ |(n:ℝ) ^ (p + 1) * ‖D n‖ - (W ^ (p + 1) * |a|)| ≤ C * W ^ (p + 2) / n ∧
      ∀ k ≤ n, |(n:ℝ) ^ p * ‖R (lam * (tEnd / n : ℝ)) ^ k * u0 - u0 * Complex.exp (lam * (k * (tEnd / n) : ℝ))‖ -
        q n * (k / n * Real.exp (ρ * (k / n)))| ≤ B / n := fun n hn => by
    have hn1 : 0 < n := by omega
    have hn0 : (0:ℝ) < n := by exact_mod_cast hn1
    have hn1' : (1:ℝ) ≤ n := by exact_mod_cast hn1
    set z : ℂ := lam * (tEnd / n : ℝ) with hz
    have hzn : ‖z‖ = W / n := by
      rw [hz, norm_mul, Complex.norm_real, Real.norm_eq_abs, abs_div, abs_of_pos hn0, hW]; ring
    have hzδ : ‖z‖ ≤ δ := by
      rw [hzn, div_le_iff₀ hn0]
      rw [div_lt_iff₀ hδ] at hN0
      have : (N0:ℝ) ≤ n := by exact_mod_cast (by omega : N0 ≤ n)
      nlinarith
    have hz1 : ‖z‖ ≤ 1 := hzδ.trans hδ1
    have hDn : D n = R z - Complex.exp z := rfl
    have hl := hloc z hzδ
    rw [← hDn] at hl
    have hnm : ‖z ^ (p + 1) * (a : ℂ)‖ = ‖z‖ ^ (p + 1) * |a| := by
      rw [norm_mul, norm_pow, Complex.norm_real, Real.norm_eq_abs]
    have hdiff : |‖D n‖ - (‖z‖ ^ (p + 1) * |a|)| ≤ C * ‖z‖ ^ (p + 1 + 1) := by
      rw [← hnm]
      exact (abs_norm_sub_norm_le _ _).trans hl
    have hDu : ‖D n‖ ≤ C' * ‖z‖ ^ (p + 1) := by
      have h1 := (abs_le.1 hdiff).2
      have h2 : C * ‖z‖ ^ (p + 1 + 1) ≤ C * ‖z‖ ^ (p + 1) :=
        mul_le_mul_of_nonneg_left (pow_le_pow_of_le_one (norm_nonneg _) hz1 (by omega)) hC
      rw [hC', add_mul]
      linarith
    have hnz : (n:ℝ) * ‖z‖ = W := by rw [hzn]; field_simp
    have hDz : ‖D n‖ ≤ C' * ‖z‖ := hDu.trans (mul_le_mul_of_nonneg_left
      (by simpa using pow_le_pow_of_le_one (norm_nonneg z) hz1 (by omega : 1 ≤ p + 1)) hC'0)
    have hEn : ‖Complex.exp z‖ ≤ Real.exp ‖z‖ := by
      rw [Complex.norm_exp]
      exact Real.exp_le_exp.2 (Complex.re_le_norm z)
    have hexp : ∀ x : ℝ, 0 ≤ x → x ≤ Real.exp ((1 + C') * ‖z‖) → ∀ k ≤ n, x ^ k ≤ G := fun x hx h k hk => by
      refine (pow_le_pow_left₀ hx h k).trans ?_
      rw [← Real.exp_nat_mul, hG]
      refine Real.exp_le_exp.2 ?_
      have h1 : (k:ℝ) * ‖z‖ ≤ W := by
        rw [← hnz]
        exact mul_le_mul_of_nonneg_right (by exact_mod_cast hk) (norm_nonneg _)
      have h2 := mul_le_mul_of_nonneg_left h1 (show 0 ≤ 1 + C' by linarith)
      linarith
    have hE : ∀ k ≤ n, ‖Complex.exp z‖ ^ k ≤ G := hexp _ (norm_nonneg _) (hEn.trans (Real.exp_le_exp.2 (by nlinarith [norm_nonneg z])))
    have hR : ∀ k ≤ n, ‖R z‖ ^ k ≤ G := by
      refine hexp _ (norm_nonneg _) ?_
      have h1 : ‖R z‖ ≤ ‖Complex.exp z‖ + ‖D n‖ := by
        have : R z = Complex.exp z + D n := by rw [hDn]; ring
        rw [this]
        exact norm_add_le _ _
      have h2 : 1 + C' * ‖z‖ ≤ Real.exp (C' * ‖z‖) := by have := Real.add_one_le_exp (C' * ‖z‖); linarith
      have h3 : 1 ≤ Real.exp ‖z‖ := Real.one_le_exp (norm_nonneg _)
      have h4 : Real.exp ((1 + C') * ‖z‖) = Real.exp ‖z‖ * Real.exp (C' * ‖z‖) := by rw [← Real.exp_add]; ring_nf
      rw [h4]
      have h5 := mul_le_mul_of_nonneg_left h2 (Real.exp_pos ‖z‖).le
      have h6 : C' * ‖z‖ ≤ Real.exp ‖z‖ * (C' * ‖z‖) := le_mul_of_one_le_left (by positivity) h3
      linarith
    refine ⟨hn1, ?_, fun k hk => ?_⟩
    · have e1 : (n:ℝ) ^ (p + 1) * ‖D n‖ - W ^ (p + 1) * |a| = (n:ℝ) ^ (p + 1) * (‖D n‖ - ‖z‖ ^ (p + 1) * |a|) := by
        rw [← hnz, mul_pow]; ring
      rw [e1, abs_mul, abs_of_nonneg (by positivity)]
      refine (mul_le_mul_of_nonneg_left hdiff (by positivity)).trans (le_of_eq ?_)
      rw [hzn, div_pow, pow_succ (n:ℝ) (p + 1)]
      field_simp
      try ring
    · have e1 : lam * ((k * (tEnd / n) : ℝ) : ℂ) = k * z := by rw [hz]; push_cast; ring
      have e2 : R z ^ k * u0 - u0 * Complex.exp (k * z) = u0 * (R z ^ k - Complex.exp z ^ k) := by
        rw [← Complex.exp_nat_mul]; ring
      rw [e1, e2, norm_mul]
      have hk' : (k:ℝ) ≤ n := by exact_mod_cast hk
      have hmain : q n * (k / n * Real.exp (ρ * (k / n))) = (n:ℝ) ^ p * (‖u0‖ * ‖(k:ℂ) * D n * Complex.exp z ^ (k - 1)‖) := by
        rcases Nat.eq_zero_or_pos k with rfl | hk0
        · simp
        · have h1 : ‖Complex.exp z ^ (k - 1)‖ = Real.exp (ρ * (k / n)) * Real.exp (-ρ / n) := by
            rw [norm_pow, Complex.norm_exp, ← Real.exp_nat_mul, ← Real.exp_add]
            congr 1
            have : z.re = ρ / n := by
              rw [hz, Complex.re_mul_ofReal, hρ]; ring
            rw [this, Nat.cast_sub hk0]
            push_cast
            field_simp
            ring
          rw [norm_mul, norm_mul, h1, Complex.norm_natCast, hq]
          simp only
          rw [pow_succ]
          field_simp
      rw [hmain, ← mul_sub, ← mul_sub, abs_mul, abs_of_nonneg (by positivity), abs_mul, abs_of_nonneg (norm_nonneg _)]
      have h3 : |‖R z ^ k - Complex.exp z ^ k‖ - ‖(k:ℂ) * D n * Complex.exp z ^ (k - 1)‖| ≤ (n:ℝ) ^ 2 * (G ^ 3 * (C' * ‖z‖ ^ (p + 1)) ^ 2) := by
        refine (abs_norm_sub_norm_le _ _).trans ((pow_sub_linear hR hE hk).trans ?_)
        rw [← hDn]
        refine mul_le_mul (pow_le_pow_left₀ (by positivity) hk' 2) ?_ (by positivity) (by positivity)
        exact mul_le_mul_of_nonneg_left (pow_le_pow_left₀ (norm_nonneg _) hDu 2) (by positivity)
      refine (mul_le_mul_of_nonneg_left (mul_le_mul_of_nonneg_left h3 (norm_nonneg _)) (by positivity)).trans ?_
      have h4 : (n:ℝ) ^ p * (‖u0‖ * ((n:ℝ) ^ 2 * (G ^ 3 * (C' * ‖z‖ ^ (p + 1)) ^ 2))) = B / n ^ p := by
        rw [hB, hzn, div_pow, pow_succ (n:ℝ) p]
        field_simp
        try ring
      rw [h4]
      exact div_le_div_of_nonneg_left hB0 hn0 (by simpa using pow_le_pow_right₀ hn1' hp)
  -- limits
  have hinv : Tendsto (fun n : ℕ => (1:ℝ) / n) atTop (𝓝 0) := tendsto_const_div_atTop_nhds_zero_nat 1
  have hconst : ∀ c : ℝ, Tendsto (fun n : ℕ => c / (n:ℝ)) atTop (𝓝 0) := fun c => tendsto_const_div_atTop_nhds_zero_nat c
  have hqlim : Tendsto q atTop (𝓝 (‖u0‖ * (|a| * W ^ (p + 1)))) := by
    have h1 : Tendsto (fun n : ℕ => (n:ℝ) ^ (p + 1) * ‖D n‖) atTop (𝓝 (W ^ (p + 1) * |a|)) := by
      rw [tendsto_iff_dist_tendsto_zero]
      refine squeeze_zero' (Eventually.of_forall fun n => dist_nonneg) ?_ (hconst (C * W ^ (p + 2)))
      filter_upwards [eventually_ge_atTop (N0 + 1)] with n hn
      exact (key n hn).2.1
    have h2 : Tendsto (fun n : ℕ => Real.exp (-ρ / n)) atTop (𝓝 1) := by
      have := (Real.continuous_exp.tendsto 0).comp (hconst (-ρ))
      rwa [Real.exp_zero] at this
    have h3 := (h2.mul h1).const_mul ‖u0‖
    rw [one_mul, mul_comm (W ^ (p + 1))] at h3
    exact h3
  obtain ⟨t, ht0, ht1, htm, hmax⟩ := growthMax_spec ρ
  have hgrid : Tendsto (fun n : ℕ => (⌊t * n⌋₊ : ℝ) / n * Real.exp (ρ * ((⌊t * n⌋₊ : ℝ) / n))) atTop (𝓝 (growthMax ρ)) := by
    have h1 : Tendsto (fun n : ℕ => (⌊t * n⌋₊ : ℝ) / n) atTop (𝓝 t) := (tendsto_nat_floor_mul_div_atTop ht0).comp tendsto_natCast_atTop_atTop
    rw [← htm]
    exact h1.mul ((Real.continuous_exp.tendsto _).comp (h1.const_mul ρ))
  have hl := (hqlim.mul hgrid).sub (hconst B)
  have hu := (hqlim.mul_const (growthMax ρ)).add (hconst B)
  rw [sub_zero] at hl
  rw [add_zero] at hu
  refine tendsto_of_tendsto_of_tendsto_of_le_of_le' hl hu ?_ ?_
  · filter_upwards [eventually_ge_atTop (max N (N0 + 1))] with n hn
    obtain ⟨hn1, -, hk⟩ := key n (le_trans (le_max_right _ _) hn)
    have hn0 : (0:ℝ) < n := by exact_mod_cast hn1
    have hfl : ⌊t * n⌋₊ ≤ n := by
      refine Nat.floor_le_of_le ?_
      exact mul_le_of_le_one_left hn0.le ht1
    have h1 := (abs_le.1 (hk _ hfl)).1
    have h2 := mul_le_mul_of_nonneg_left (hlow n (le_trans (le_max_left _ _) hn) _ hfl) (pow_nonneg hn0.le p)
    linarith
  · filter_upwards [eventually_ge_atTop (max N (N0 + 1))] with n hn
    obtain ⟨hn1, -, hk⟩ := key n (le_trans (le_max_right _ _) hn)
    have hn0 : (0:ℝ) < n := by exact_mod_cast hn1
    have hq0 : 0 ≤ q n := by positivity
    have hpn : (0:ℝ) < (n:ℝ) ^ p := pow_pos hn0 p
    have h1 : e n ≤ (q n * growthMax ρ + B / n) / n ^ p := by
      refine hup n (le_trans (le_max_left _ _) hn) _ ?_ fun k hkn => ?_
      · have := growthMax_pos ρ
        positivity
      · rw [le_div_iff₀ hpn, mul_comm]
        have h2 := (abs_le.1 (hk k hkn)).2
        have h3 := mul_le_mul_of_nonneg_left (hmax (k / n) (by positivity) (by
          rw [div_le_one hn0]; exact_mod_cast hkn)) hq0
        linarith
    rw [le_div_iff₀ hpn] at h1
    linarith

/-! ## Regression -/

theorem numericalOrder_continuousAt {n : ℕ} (nSteps err : Fin n → ℝ) (herr : ∀ i, 0 < err i) :
    ContinuousAt (numericalOrder nSteps) err := by
  have hlog : ∀ i, ContinuousAt (fun e : Fin n → ℝ => Real.logb 10 (e i)) err := fun i =>
    ContinuousAt.comp (g := Real.logb 10) (f := fun e : Fin n → ℝ => e i) (Real.continuousAt_logb (herr i).ne') (continuous_apply i).continuousAt
  have hmean : ContinuousAt (fun e : Fin n → ℝ => npMean fun i => Real.logb 10 (e i)) err := by
    unfold npMean
    exact (tendsto_finsetSum _ fun i _ => hlog i).div_const _
  have hbeta : ContinuousAt (fun e : Fin n → ℝ => (numericalOrder nSteps e).1) err := by
    unfold numericalOrder
    exact (tendsto_finsetSum _ fun i _ => ((hlog i).sub hmean).const_mul _).div_const _
  refine hbeta.prodMk ?_
  have halpha := hmean.sub (hbeta.mul_const (npMean (orderX nSteps)))
  refine ((Real.continuous_sqrt.continuousAt).comp ?_).div_const _
  exact tendsto_finsetSum _ fun i _ => ((hlog i).sub (halpha.add (hbeta.mul_const _))).pow 2

/-- Errors with a leading term `C n^{-p}`: the slope tends to `p` and the residual to zero. -/
theorem numericalOrder_limit {m : ℕ} (k : Fin m → ℕ) (hk : ∀ i, 0 < k i) (hdiff : ∃ i j, k i ≠ k j) {p : ℕ} {C : ℝ} (hC : 0 < C)
    (e : ℕ → ℝ) (he : Tendsto (fun n : ℕ => (n:ℝ) ^ p * e n) atTop (𝓝 C)) :
    Tendsto (fun s : ℕ => numericalOrder (fun i => ((s * k i : ℕ) : ℝ)) fun i => e (s * k i)) atTop (𝓝 ((p:ℝ), 0)) := by
  obtain ⟨i0, j0, h0⟩ := hdiff
  have hm : 0 < m := i0.pos
  have hkr : ∀ i, (0:ℝ) < k i := fun i => by exact_mod_cast hk i
  have hlim : ∀ i, Tendsto (fun s : ℕ => (s:ℝ) ^ p * e (s * k i)) atTop (𝓝 (C * (k i : ℝ) ^ (-(p:ℝ)))) := fun i => by
    have h1 : Tendsto (fun s : ℕ => s * k i) atTop atTop := tendsto_id.atTop_mul_const' (hk i)
    have h2 := (he.comp h1).mul_const ((k i : ℝ) ^ (-(p:ℝ)))
    refine h2.congr fun s => ?_
    simp only [Function.comp]
    rw [Real.rpow_neg (hkr i).le, Real.rpow_natCast]
    have := (pow_pos (hkr i) p).ne'
    push_cast
    rw [mul_pow]
    field_simp
  have hval : numericalOrder (fun i => (k i : ℝ)) (fun i => C * (k i : ℝ) ^ (-(p:ℝ))) = ((p:ℝ), 0) := by
    obtain ⟨h1, h2⟩ := (C64_power_law (fun i => (k i : ℝ)) (fun i => C * (k i : ℝ) ^ (-(p:ℝ))) hkr
      (fun i => mul_pos hC (Real.rpow_pos_of_pos (hkr i) _)) ⟨i0, j0, by exact_mod_cast h0⟩ p).1 ⟨C, hC, fun i => rfl⟩
    exact Prod.ext h1 h2
  have hcont := (numericalOrder_continuousAt (fun i => (k i : ℝ)) (fun i => C * (k i : ℝ) ^ (-(p:ℝ)))
    (fun i => mul_pos hC (Real.rpow_pos_of_pos (hkr i) _))).tendsto.comp (tendsto_pi_nhds.2 hlim)
  rw [hval] at hcont
  refine hcont.congr' ?_
  have hpos : ∀ᶠ s : ℕ in atTop, ∀ i, 0 < (s:ℝ) ^ p * e (s * k i) := by
    rw [eventually_all]
    exact fun i => (hlim i).eventually_const_lt (mul_pos hC (Real.rpow_pos_of_pos (hkr i) _))
  filter_upwards [hpos, eventually_gt_atTop 0] with s hs hs0
  have hsr : (0:ℝ) < s := by exact_mod_cast hs0
  have hsp : (0:ℝ) < (s:ℝ) ^ p := pow_pos hsr p
  have := C64_scaling (fun i => (k i : ℝ)) (fun i => e (s * k i)) hkr (fun i => (mul_pos_iff_of_pos_left hsp).1 (hs i)) hm s ((s:ℝ) ^ p) hsr hsp
  have h3 := C64_scaling (fun i => (k i : ℝ)) (fun i => (s:ℝ) ^ p * e (s * k i)) hkr hs hm s 1 hsr one_pos
  have h4 := C64_scaling (fun i => ((s:ℝ) * k i : ℝ)) (fun i => e (s * k i)) (fun i => mul_pos hsr (hkr i))
    (fun i => (mul_pos_iff_of_pos_left hsp).1 (hs i)) hm 1 ((s:ℝ) ^ p) one_pos hsp
  simp only [Function.comp]
  simp only [one_mul] at h3 h4
  rw [← h3, h4]
  congr 1
  funext i
  push_cast
  ring

end QMat
