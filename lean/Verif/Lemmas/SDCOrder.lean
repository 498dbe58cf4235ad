import Verif.Lemmas.SDC
import Verif.Lemmas.Dahlquist

/-!
# Order of SDC on Dahlquist's equation
-/

namespace QMat

open Matrix Spec

variable {M : ℕ}

/-! ## From local to global error, for any one-step factor -/

theorem global_of_local {R : ℂ → ℂ} {C δ : ℝ} {p : ℕ} (hC : 0 ≤ C) (hδ : 0 < δ) (hδ1 : δ ≤ 1)
    (hloc : ∀ z : ℂ, ‖z‖ ≤ δ → ‖R z - Complex.exp z‖ ≤ C * ‖z‖ ^ (p + 1)) (lam u0 : ℂ) (tEnd : ℝ) :
    ∃ (K : ℝ) (N : ℕ), 0 ≤ K ∧ ∀ n : ℕ, N ≤ n → 0 < n ∧ ‖lam * (tEnd / n : ℝ)‖ ≤ δ ∧ ∀ k ≤ n,
      ‖R (lam * (tEnd / n : ℝ)) ^ k * u0 - u0 * Complex.exp (lam * (k * (tEnd / n) : ℝ))‖ ≤ K / n ^ p := by
  set W := ‖lam‖ * |tEnd| with hW
  have hW0 : 0 ≤ W := by positivity
  obtain ⟨N, hN⟩ := exists_nat_gt (W / δ)
  refine ⟨‖u0‖ * (C * W ^ (p + 1) * Real.exp ((1 + C) * W)), N + 1, by positivity, fun n hn => ?_⟩
  have hn0 : (0:ℝ) < n := by exact_mod_cast (by omega : 0 < n)
  set z : ℂ := lam * (tEnd / n : ℝ) with hz
  have hzn : ‖z‖ = W / n := by
    rw [hz, norm_mul, Complex.norm_real, Real.norm_eq_abs, abs_div, abs_of_pos hn0, hW]; ring
  have hzδ : ‖z‖ ≤ δ := by
    rw [hzn, div_le_iff₀ hn0]
    rw [div_lt_iff₀ hδ] at hN
    have : (N:ℝ) ≤ n := by exact_mod_cast (by omega : N ≤ n)
    nlinarith
  refine ⟨by omega, hzδ, fun k hk => ?_⟩
  have herr := hloc z hzδ
  have hpe := power_error hC (hzδ.trans hδ1) herr k
  have e1 : lam * ((k * (tEnd / n) : ℝ) : ℂ) = k * z := by rw [hz]; push_cast; ring
  rw [e1, mul_comm (_ ^ k) u0, ← mul_sub, norm_mul]
  rw [mul_div_assoc]
  refine mul_le_mul_of_nonneg_left (hpe.trans ?_) (norm_nonneg _)
  have hk' : (k:ℝ) ≤ n := by exact_mod_cast hk
  have h1 : (k:ℝ) * ‖z‖ ≤ W := by
    rw [hzn]
    calc (k:ℝ) * (W / n) ≤ n * (W / n) := mul_le_mul_of_nonneg_right hk' (by positivity)
      _ = W := by field_simp
  calc (k:ℝ) * (C * ‖z‖ ^ (p + 1)) * Real.exp ((1 + C) * (k * ‖z‖))
      ≤ n * (C * ‖z‖ ^ (p + 1)) * Real.exp ((1 + C) * W) := by
        refine mul_le_mul (mul_le_mul_of_nonneg_right hk' (by positivity)) ?_ (Real.exp_pos _).le
          (by positivity)
        exact Real.exp_le_exp.mpr (mul_le_mul_of_nonneg_left h1 (by linarith))
    _ = C * W ^ (p + 1) * Real.exp ((1 + C) * W) / n ^ p := by
        rw [hzn, div_pow, pow_succ (n:ℝ) p]
        field_simp

theorem global_of_local_sharp {R : ℂ → ℂ} {C δ : ℝ} {p : ℕ} (hp : 0 < p) (hC : 0 ≤ C) (hδ : 0 < δ)
    (hδ1 : δ ≤ 1) {a : ℝ} (ha : a ≠ 0)
    (hloc : ∀ z : ℂ, ‖z‖ ≤ δ → ‖R z - Complex.exp z - z ^ (p + 1) * (a : ℂ)‖ ≤ C * ‖z‖ ^ (p + 1 + 1))
    (lam u0 : ℂ) (tEnd : ℝ) (hlam : lam ≠ 0) (hu0 : u0 ≠ 0) (htEnd : tEnd ≠ 0) :
    ∃ (c : ℝ) (N : ℕ), 0 < c ∧ ∀ n : ℕ, N ≤ n → 0 < n ∧ ‖lam * (tEnd / n : ℝ)‖ ≤ δ ∧
      c / n ^ p ≤ ‖R (lam * (tEnd / n : ℝ)) ^ n * u0 - u0 * Complex.exp (lam * (n * (tEnd / n) : ℝ))‖ := by
  set m := |a| with hm
  have hm0 : 0 < m := abs_pos.mpr ha
  set W := ‖lam‖ * |tEnd| with hW
  have hW0 : 0 < W := mul_pos (norm_pos_iff.mpr hlam) (abs_pos.mpr htEnd)
  have hu : 0 < ‖u0‖ := norm_pos_iff.mpr hu0
  set G := (m + C) * W * Real.exp 1 with hG
  have hG0 : 0 < G := by positivity
  set δ' := min δ (min (m / (2 * (C + 1))) (1 / (2 * G))) with hδ'
  have hδ'0 : 0 < δ' := lt_min hδ (lt_min (by positivity) (by positivity))
  obtain ⟨N, hN⟩ := exists_nat_gt (W / δ')
  refine ⟨‖u0‖ * (Real.exp (-W) * (W ^ (p + 1) * (m / 2 * Real.exp (-1)) / 2)), N + 1,
    by positivity, fun n hn => ?_⟩
  have hn0 : (0:ℝ) < n := by exact_mod_cast (by omega : 0 < n)
  set z : ℂ := lam * (tEnd / n : ℝ) with hz
  have hzn : ‖z‖ = W / n := by
    rw [hz, norm_mul, Complex.norm_real, Real.norm_eq_abs, abs_div, abs_of_pos hn0, hW]; ring
  have hzδ' : ‖z‖ ≤ δ' := by
    rw [hzn, div_le_iff₀ hn0]
    rw [div_lt_iff₀ hδ'0] at hN
    have : (N:ℝ) ≤ n := by exact_mod_cast (by omega : N ≤ n)
    nlinarith
  have hzδ : ‖z‖ ≤ δ := hzδ'.trans (min_le_left _ _)
  have hz1 : ‖z‖ ≤ 1 := hzδ.trans hδ1
  have hzC : C * ‖z‖ ≤ m / 2 := by
    have h1 : ‖z‖ ≤ m / (2 * (C + 1)) := hzδ'.trans ((min_le_right _ _).trans (min_le_left _ _))
    rw [le_div_iff₀ (by positivity)] at h1
    nlinarith [norm_nonneg z]
  have hzG : G * ‖z‖ ≤ 1 / 2 := by
    have h1 : ‖z‖ ≤ 1 / (2 * G) := hzδ'.trans ((min_le_right _ _).trans (min_le_right _ _))
    rw [le_div_iff₀ (by positivity)] at h1
    linarith
  have herr := hloc z hzδ
  have hnm : ‖z ^ (p + 1) * (a : ℂ)‖ = ‖z‖ ^ (p + 1) * m := by
    rw [norm_mul, norm_pow, Complex.norm_real, Real.norm_eq_abs]
  refine ⟨by omega, hzδ, ?_⟩
  set D := R z - Complex.exp z with hD
  have hpz : C * ‖z‖ ^ (p + 1 + 1) = C * ‖z‖ * ‖z‖ ^ (p + 1) := by ring
  have hDu : ‖D‖ ≤ (m + C) * ‖z‖ ^ (p + 1) := by
    have h1 := norm_sub_norm_le D (z ^ (p + 1) * (a : ℂ))
    have h2 : C * ‖z‖ * ‖z‖ ^ (p + 1) ≤ C * ‖z‖ ^ (p + 1) :=
      mul_le_mul_of_nonneg_right (mul_le_of_le_one_right hC hz1) (by positivity)
    rw [hnm] at h1
    linarith
  have hDl : m / 2 * ‖z‖ ^ (p + 1) ≤ ‖D‖ := by
    have h1 := norm_sub_norm_le (z ^ (p + 1) * (a : ℂ)) D
    rw [norm_sub_rev (z ^ (p + 1) * (a : ℂ)) D] at h1
    have h2 : C * ‖z‖ * ‖z‖ ^ (p + 1) ≤ m / 2 * ‖z‖ ^ (p + 1) :=
      mul_le_mul_of_nonneg_right hzC (by positivity)
    rw [hnm] at h1
    linarith
  have hnz : n * ‖z‖ = W := by rw [hzn]; field_simp
  have hsmall : n * ((m + C) * ‖z‖ ^ (p + 1) * Real.exp ‖z‖) ≤ 1 / 2 := by
    have h1 : ‖z‖ ^ p ≤ ‖z‖ := by
      obtain ⟨q, rfl⟩ : ∃ q, p = q + 1 := ⟨p - 1, by omega⟩
      rw [pow_succ]
      exact mul_le_of_le_one_left (norm_nonneg _) (pow_le_one₀ (norm_nonneg _) hz1)
    have h2 : Real.exp ‖z‖ ≤ Real.exp 1 := Real.exp_le_exp.mpr hz1
    calc n * ((m + C) * ‖z‖ ^ (p + 1) * Real.exp ‖z‖)
        = (m + C) * (n * ‖z‖) * (‖z‖ ^ p * Real.exp ‖z‖) := by ring
      _ ≤ (m + C) * (n * ‖z‖) * (‖z‖ * Real.exp 1) := by
          refine mul_le_mul_of_nonneg_left ?_ (by positivity)
          exact mul_le_mul h1 h2 (Real.exp_pos _).le (norm_nonneg _)
      _ = G * ‖z‖ := by rw [hnz, hG]; ring
      _ ≤ _ := hzG
  have hpe := power_error_ge n (by positivity) hDu hsmall
  have e1 : lam * ((n * (tEnd / n) : ℝ) : ℂ) = n * z := by rw [hz]; push_cast; ring
  rw [e1, mul_comm (_ ^ n) u0, ← mul_sub, norm_mul, mul_div_assoc]
  refine mul_le_mul_of_nonneg_left (le_trans ?_ hpe) hu.le
  rw [hnz, mul_div_assoc]
  refine mul_le_mul_of_nonneg_left ?_ (Real.exp_pos _).le
  have h3 : Real.exp (-1) ≤ Real.exp (-‖z‖) := Real.exp_le_exp.mpr (by linarith)
  have e2 : W ^ (p + 1) * (m / 2 * Real.exp (-1)) / 2 / n ^ p =
      n * (m / 2 * ‖z‖ ^ (p + 1) * Real.exp (-1)) / 2 := by
    rw [hzn, div_pow, pow_succ (n:ℝ) p]
    field_simp
  rw [e2]
  have h4 : m / 2 * ‖z‖ ^ (p + 1) * Real.exp (-1) ≤ ‖D‖ * Real.exp (-‖z‖) :=
    mul_le_mul hDl h3 (Real.exp_pos _).le (norm_nonneg _)
  have := mul_le_mul_of_nonneg_left h4 hn0.le
  linarith

/-! ## Expansion of the iterates -/

/-- `I - z A` is bounded below by one half for small `z`. -/
theorem norm_le_of_small (A : Matrix (Fin M) (Fin M) ℝ) (z : ℂ) (hz : ‖z‖ * rowBound A ≤ 1 / 2)
    (v : Fin M → ℂ) : ‖v‖ ≤ 2 * ‖(1 - z • cmat A) *ᵥ v‖ := by
  have h1 : v = (1 - z • cmat A) *ᵥ v + z • (cmat A *ᵥ v) := by
    rw [Matrix.sub_mulVec, Matrix.one_mulVec, Matrix.smul_mulVec]
    abel
  have h2 : ‖z • (cmat A *ᵥ v)‖ ≤ 1 / 2 * ‖v‖ := by
    rw [norm_smul]
    calc ‖z‖ * ‖cmat A *ᵥ v‖ ≤ ‖z‖ * (rowBound A * ‖v‖) :=
          mul_le_mul_of_nonneg_left (norm_mulVec_le A v) (norm_nonneg _)
      _ = ‖z‖ * rowBound A * ‖v‖ := by ring
      _ ≤ _ := mul_le_mul_of_nonneg_right hz (norm_nonneg _)
  have h3 : ‖v‖ ≤ ‖(1 - z • cmat A) *ᵥ v‖ + ‖z • (cmat A *ᵥ v)‖ := by
    conv_lhs => rw [h1]
    exact norm_add_le _ _
  linarith

/-- A real vector as a complex one. -/
noncomputable def cvec (v : Fin M → ℝ) : Fin M → ℂ := fun i => (v i : ℂ)

theorem cmat_mulVec_cvec (A : Matrix (Fin M) (Fin M) ℝ) (v : Fin M → ℝ) :
    cmat A *ᵥ cvec v = cvec (A *ᵥ v) := by
  funext i
  change ∑ j, (A i j : ℂ) * (v j : ℂ) = ((∑ j, A i j * v j : ℝ) : ℂ)
  push_cast
  rfl

theorem cvec_add (v w : Fin M → ℝ) : cvec (v + w) = cvec v + cvec w := by
  funext i
  simp [cvec]

theorem sdcIter_expansion (Q : Matrix (Fin M) (Fin M) ℝ) (f : ℕ → Matrix (Fin M) (Fin M) ℝ) (k p : ℕ) :
    ∃ C δ : ℝ, 0 ≤ C ∧ 0 < δ ∧ δ ≤ 1 ∧ ∀ z : ℂ, ‖z‖ ≤ δ → (∀ i < k, (1 - z • cmat (f i)).det ≠ 0) ∧
      ‖sdcIter z Q f 1 k - ∑ j ∈ Finset.range p, z ^ j • cvec (sdcTaylor Q f k j)‖ ≤ C * ‖z‖ ^ p := by
  induction k generalizing p with
  | zero =>
    refine ⟨1, 1, by norm_num, by norm_num, le_rfl, fun z hz => ⟨by simp, ?_⟩⟩
    cases p with
    | zero =>
      simp only [Finset.range_zero, Finset.sum_empty, sub_zero, pow_zero, mul_one, sdcIter]
      exact (pi_norm_const_le (1:ℂ)).trans (by simp)
    | succ p =>
      have : sdcIter z Q f 1 0 - ∑ j ∈ Finset.range (p + 1), z ^ j • cvec (sdcTaylor Q f 0 j) = 0 := by
        rw [Finset.sum_range_succ', Finset.sum_eq_zero]
        · funext i
          simp [sdcIter, sdcTaylor, cvec]
        · intro j _
          funext i
          simp [sdcTaylor, cvec]
      rw [this, norm_zero]
      positivity
  | succ k ih =>
    have hb := rowBound_pos (f k)
    have hb2 := rowBound_pos (Q - f k)
    have key : ∀ {C δ : ℝ}, 0 < δ → ∃ δ' : ℝ, 0 < δ' ∧ δ' ≤ δ ∧ ∀ z : ℂ, ‖z‖ ≤ δ' →
        ‖z‖ * rowBound (f k) ≤ 1 / 2 := by
      intro C δ hδ
      refine ⟨min δ (1 / (2 * rowBound (f k))), lt_min hδ (by positivity), min_le_left _ _,
        fun z hz => ?_⟩
      calc ‖z‖ * rowBound (f k) ≤ 1 / (2 * rowBound (f k)) * rowBound (f k) :=
            mul_le_mul_of_nonneg_right (hz.trans (min_le_right _ _)) (by linarith)
        _ = 1 / 2 := by field_simp
    have hU : ∀ z : ℂ, (1 - z • cmat (f k)).det ≠ 0 →
        (1 - z • cmat (f k)) *ᵥ sdcIter z Q f 1 (k + 1) =
          (fun _ => 1) + z • (cmat (Q - f k) *ᵥ sdcIter z Q f 1 k) := by
      intro z hd
      simp only [sdcIter]
      rw [Matrix.mulVec_mulVec, Matrix.mul_nonsing_inv _ (isUnit_iff_ne_zero.mpr hd),
        Matrix.one_mulVec, Matrix.smul_mulVec]
      rfl
    have hdetall : ∀ z : ℂ, (∀ i < k, (1 - z • cmat (f i)).det ≠ 0) →
        ‖z‖ * rowBound (f k) ≤ 1 / 2 → ∀ i < k + 1, (1 - z • cmat (f i)).det ≠ 0 := by
      intro z h1 h2 i hi
      by_cases hik : i = k
      · subst hik
        exact det_ne_zero_of_small _ z h2
      · exact h1 i (by omega)
    cases p with
    | zero =>
      obtain ⟨C, δ, hC, hδ, hδ1, hloc⟩ := ih 0
      obtain ⟨δ', hδ', hle, hsm⟩ := key (C := C) hδ
      refine ⟨2 * (1 + rowBound (Q - f k) * C), δ', by positivity, hδ', hle.trans hδ1, fun z hz => ?_⟩
      obtain ⟨h1, h2⟩ := hloc z (hz.trans hle)
      have hd := hdetall z h1 (hsm z hz)
      refine ⟨hd, ?_⟩
      simp only [Finset.range_zero, Finset.sum_empty, sub_zero, pow_zero, mul_one] at h2 ⊢
      refine (norm_le_of_small (f k) z (hsm z hz) _).trans ?_
      rw [hU z (hd k (by omega))]
      have h3 : ‖z • (cmat (Q - f k) *ᵥ sdcIter z Q f 1 k)‖ ≤ rowBound (Q - f k) * C := by
        rw [norm_smul]
        calc _ ≤ 1 * (rowBound (Q - f k) * C) := by
              refine mul_le_mul (hz.trans (hle.trans hδ1)) ?_ (norm_nonneg _) (by norm_num)
              exact (norm_mulVec_le _ _).trans (mul_le_mul_of_nonneg_left h2 (by linarith))
          _ = _ := one_mul _
      have h4 : ‖(fun _ : Fin M => (1:ℂ))‖ ≤ 1 := (pi_norm_const_le (1:ℂ)).trans (by simp)
      have := norm_add_le (fun _ : Fin M => (1:ℂ)) (z • (cmat (Q - f k) *ᵥ sdcIter z Q f 1 k))
      linarith
    | succ p =>
      obtain ⟨C, δ, hC, hδ, hδ1, hloc⟩ := ih p
      obtain ⟨δ', hδ', hle, hsm⟩ := key (C := C) hδ
      set B : ℝ := ‖cvec (f k *ᵥ sdcTaylor Q f (k + 1) p)‖ with hB
      refine ⟨2 * (rowBound (Q - f k) * C + B), δ', by positivity, hδ', hle.trans hδ1, fun z hz => ?_⟩
      obtain ⟨h1, h2⟩ := hloc z (hz.trans hle)
      have hd := hdetall z h1 (hsm z hz)
      refine ⟨hd, (norm_le_of_small (f k) z (hsm z hz) _).trans ?_⟩
      have hV : (1 - z • cmat (f k)) *ᵥ
          (∑ j ∈ Finset.range (p + 1), z ^ j • cvec (sdcTaylor Q f (k + 1) j)) =
          (fun _ => 1) + z • (cmat (Q - f k) *ᵥ
            ∑ j ∈ Finset.range p, z ^ j • cvec (sdcTaylor Q f k j)) -
          z ^ (p + 1) • cvec (f k *ᵥ sdcTaylor Q f (k + 1) p) := by
        have e0 : cvec (sdcTaylor Q f (k + 1) 0) = fun _ => 1 := by
          funext i; simp [cvec, sdcTaylor]
        have e1 : ∑ j ∈ Finset.range (p + 1), z ^ j • cvec (sdcTaylor Q f (k + 1) j) =
            (fun _ => 1) + (z • (cmat (f k) *ᵥ
              ∑ j ∈ Finset.range p, z ^ j • cvec (sdcTaylor Q f (k + 1) j)) +
            z • (cmat (Q - f k) *ᵥ ∑ j ∈ Finset.range p, z ^ j • cvec (sdcTaylor Q f k j))) := by
          rw [Finset.sum_range_succ', pow_zero, one_smul, e0, add_comm]
          congr 1
          simp only [Matrix.mulVec_sum, Finset.smul_sum, ← Finset.sum_add_distrib]
          refine Finset.sum_congr rfl fun j _ => ?_
          rw [Matrix.mulVec_smul, Matrix.mulVec_smul, cmat_mulVec_cvec, cmat_mulVec_cvec, smul_smul,
            smul_smul, ← pow_succ', ← smul_add, ← cvec_add]
          rfl
        rw [Matrix.sub_mulVec, Matrix.one_mulVec, Matrix.smul_mulVec]
        conv_lhs => rw [e1]
        rw [← e1, Finset.sum_range_succ (n := p) (f := fun j => z ^ j • cvec (sdcTaylor Q f (k + 1) j)),
          Matrix.mulVec_add, Matrix.mulVec_smul, cmat_mulVec_cvec, smul_add, smul_smul, ← pow_succ']
        rw [← Finset.sum_range_succ (n := p) (f := fun j => z ^ j • cvec (sdcTaylor Q f (k + 1) j)), e1]
        abel
      rw [Matrix.mulVec_sub, hU z (hd k (by omega)), hV]
      have e : ((fun _ => (1:ℂ)) + z • (cmat (Q - f k) *ᵥ sdcIter z Q f 1 k)) -
          ((fun _ => 1) + z • (cmat (Q - f k) *ᵥ
            ∑ j ∈ Finset.range p, z ^ j • cvec (sdcTaylor Q f k j)) -
          z ^ (p + 1) • cvec (f k *ᵥ sdcTaylor Q f (k + 1) p)) =
          z • (cmat (Q - f k) *ᵥ (sdcIter z Q f 1 k -
            ∑ j ∈ Finset.range p, z ^ j • cvec (sdcTaylor Q f k j))) +
          z ^ (p + 1) • cvec (f k *ᵥ sdcTaylor Q f (k + 1) p) := by
        rw [Matrix.mulVec_sub, smul_sub]
        abel
      rw [e]
      have h3 : ‖z • (cmat (Q - f k) *ᵥ (sdcIter z Q f 1 k -
            ∑ j ∈ Finset.range p, z ^ j • cvec (sdcTaylor Q f k j)))‖ ≤
          ‖z‖ ^ (p + 1) * (rowBound (Q - f k) * C) := by
        rw [norm_smul]
        calc _ ≤ ‖z‖ * (rowBound (Q - f k) * (C * ‖z‖ ^ p)) := by
              refine mul_le_mul_of_nonneg_left ?_ (norm_nonneg _)
              exact (norm_mulVec_le _ _).trans (mul_le_mul_of_nonneg_left h2 (by linarith))
          _ = _ := by ring
      have h4 : ‖z ^ (p + 1) • cvec (f k *ᵥ sdcTaylor Q f (k + 1) p)‖ = ‖z‖ ^ (p + 1) * B := by
        rw [norm_smul, norm_pow]
      have := norm_add_le (z • (cmat (Q - f k) *ᵥ (sdcIter z Q f 1 k -
            ∑ j ∈ Finset.range p, z ^ j • cvec (sdcTaylor Q f k j))))
          (z ^ (p + 1) • cvec (f k *ᵥ sdcTaylor Q f (k + 1) p))
      calc _ ≤ 2 * (‖z‖ ^ (p + 1) * (rowBound (Q - f k) * C) + ‖z‖ ^ (p + 1) * B) := by linarith
        _ = _ := by ring

/-- Weights as the argument of `solveDahlquistSDC`. -/
abbrev sigmaWeights (w : Option (Fin M → ℝ)) : Option (Σ k, Fin k → ℝ) := w.map (Sigma.mk M)

theorem sdcFactor_expansion (Q : Matrix (Fin M) (Fin M) ℝ) (f : ℕ → Matrix (Fin M) (Fin M) ℝ) (K : ℕ)
    (w : Option (Fin M → ℝ)) (p : ℕ) :
    ∃ C δ : ℝ, 0 ≤ C ∧ 0 < δ ∧ δ ≤ 1 ∧ ∀ z : ℂ, ‖z‖ ≤ δ → (∀ i < K, (1 - z • cmat (f i)).det ≠ 0) ∧
      ‖sdcFactor z Q f K (sigmaWeights w) - ∑ j ∈ Finset.range (p + 1),
        z ^ j * ((sdcFactorTaylor Q f K w j : ℝ) : ℂ)‖ ≤ C * ‖z‖ ^ (p + 1) := by
  cases w with
  | none =>
    obtain ⟨C, δ, hC, hδ, hδ1, hloc⟩ := sdcIter_expansion Q f K (p + 1)
    refine ⟨C, δ, hC, hδ, hδ1, fun z hz => ⟨(hloc z hz).1, ?_⟩⟩
    simp only [sdcFactor, sdcUpdate, sigmaWeights, Option.map_none, sdcFactorTaylor]
    by_cases hM : 0 < M
    · simp only [hM, dif_pos]
      have := (norm_le_pi_norm _ (⟨M - 1, by omega⟩ : Fin M)).trans (hloc z hz).2
      simpa [cvec] using this
    · simp only [hM, dif_neg, not_false_eq_true]
      simp
      positivity
  | some w =>
    obtain ⟨C, δ, hC, hδ, hδ1, hloc⟩ := sdcIter_expansion Q f K p
    set B : ℝ := ∑ i, |w i| with hB
    have hB0 : 0 ≤ B := Finset.sum_nonneg fun i _ => abs_nonneg _
    refine ⟨B * C, δ, by positivity, hδ, hδ1, fun z hz => ⟨(hloc z hz).1, ?_⟩⟩
    have e : sdcFactor z Q f K (sigmaWeights (some w)) - ∑ j ∈ Finset.range (p + 1),
        z ^ j * ((sdcFactorTaylor Q f K (some w) j : ℝ) : ℂ) =
        z * ∑ i, (w i : ℂ) * (sdcIter z Q f 1 K -
          ∑ j ∈ Finset.range p, z ^ j • cvec (sdcTaylor Q f K j)) i := by
      simp only [sdcFactor, sdcUpdate, sigmaWeights, Option.map_some, dif_pos, Fin.cast_eq_self,
        sdcFactorTaylor, Finset.sum_range_succ', pow_zero, Complex.ofReal_one, mul_one]
      have e2 : ∀ i, (w i : ℂ) * (sdcIter z Q f 1 K -
          ∑ j ∈ Finset.range p, z ^ j • cvec (sdcTaylor Q f K j)) i =
          (w i : ℂ) * sdcIter z Q f 1 K i -
          ∑ j ∈ Finset.range p, z ^ j * ((w i * sdcTaylor Q f K j i : ℝ) : ℂ) := by
        intro i
        simp only [Pi.sub_apply, Finset.sum_apply, Pi.smul_apply, cvec, smul_eq_mul, mul_sub,
          Finset.mul_sum]
        congr 1
        refine Finset.sum_congr rfl fun j _ => ?_
        push_cast
        ring
      rw [Finset.sum_congr rfl fun i _ => e2 i, Finset.sum_sub_distrib, Finset.sum_comm, mul_sub]
      have e3 : z * ∑ j ∈ Finset.range p, ∑ i, z ^ j * ((w i * sdcTaylor Q f K j i : ℝ) : ℂ) =
          ∑ j ∈ Finset.range p, z ^ (j + 1) * ((w ⬝ᵥ sdcTaylor Q f K j : ℝ) : ℂ) := by
        rw [Finset.mul_sum]
        refine Finset.sum_congr rfl fun j _ => ?_
        rw [dotProduct, ← Finset.mul_sum, ← mul_assoc, ← pow_succ']
        push_cast
        rfl
      rw [e3]
      ring
    rw [e, norm_mul]
    have h1 : ‖∑ i, (w i : ℂ) * (sdcIter z Q f 1 K -
          ∑ j ∈ Finset.range p, z ^ j • cvec (sdcTaylor Q f K j)) i‖ ≤ B * (C * ‖z‖ ^ p) := by
      refine (norm_sum_le _ _).trans ?_
      rw [hB, Finset.sum_mul]
      refine Finset.sum_le_sum fun i _ => ?_
      rw [norm_mul, Complex.norm_real, Real.norm_eq_abs]
      exact mul_le_mul_of_nonneg_left ((norm_le_pi_norm _ i).trans (hloc z hz).2) (abs_nonneg _)
    calc _ ≤ ‖z‖ * (B * (C * ‖z‖ ^ p)) := mul_le_mul_of_nonneg_left h1 (norm_nonneg _)
      _ = _ := by ring

/-- Difference of the factor of one step and `exp z`. -/
theorem sdcFactor_error (Q : Matrix (Fin M) (Fin M) ℝ) (f : ℕ → Matrix (Fin M) (Fin M) ℝ) (K : ℕ)
    (w : Option (Fin M → ℝ)) (p : ℕ) :
    ∃ C δ : ℝ, 0 ≤ C ∧ 0 < δ ∧ δ ≤ 1 ∧ ∀ z : ℂ, ‖z‖ ≤ δ → (∀ i < K, (1 - z • cmat (f i)).det ≠ 0) ∧
      ‖sdcFactor z Q f K (sigmaWeights w) - Complex.exp z - ∑ j ∈ Finset.range (p + 1),
        z ^ j * ((sdcFactorTaylor Q f K w j - 1 / j.factorial : ℝ) : ℂ)‖ ≤ C * ‖z‖ ^ (p + 1) := by
  obtain ⟨C, δ, hC, hδ, hδ1, hloc⟩ := sdcFactor_expansion Q f K w p
  set E : ℝ := ((p + 1).succ : ℝ) * (((p + 1).factorial : ℝ) * (p + 1 : ℕ))⁻¹ with hE
  have hE0 : 0 ≤ E := by positivity
  refine ⟨C + E, δ, by positivity, hδ, hδ1, fun z hz => ⟨(hloc z hz).1, ?_⟩⟩
  have hexpb := Complex.exp_bound (hz.trans hδ1) (n := p + 1) (by omega)
  have e : sdcFactor z Q f K (sigmaWeights w) - Complex.exp z - ∑ j ∈ Finset.range (p + 1),
        z ^ j * ((sdcFactorTaylor Q f K w j - 1 / j.factorial : ℝ) : ℂ) =
      (sdcFactor z Q f K (sigmaWeights w) - ∑ j ∈ Finset.range (p + 1),
        z ^ j * ((sdcFactorTaylor Q f K w j : ℝ) : ℂ)) -
      (Complex.exp z - ∑ j ∈ Finset.range (p + 1), z ^ j / (j.factorial : ℂ)) := by
    have : ∑ j ∈ Finset.range (p + 1), z ^ j * ((sdcFactorTaylor Q f K w j - 1 / j.factorial : ℝ) : ℂ) =
        ∑ j ∈ Finset.range (p + 1), z ^ j * ((sdcFactorTaylor Q f K w j : ℝ) : ℂ) -
        ∑ j ∈ Finset.range (p + 1), z ^ j / (j.factorial : ℂ) := by
      rw [← Finset.sum_sub_distrib]
      refine Finset.sum_congr rfl fun j _ => ?_
      push_cast
      ring
    rw [this]
    ring
  rw [e]
  refine (norm_sub_le _ _).trans ?_
  calc _ ≤ C * ‖z‖ ^ (p + 1) + ‖z‖ ^ (p + 1) * E := add_le_add (hloc z hz).2 hexpb
    _ = _ := by ring

/-! ## Coefficients -/

/-- The defect of the first coefficient that differs from the one of the collocation solution:
`(Q - QΔ_{k-1}) ⋯ (Q - QΔ_0) Q 1`. -/
def sdcDefect {R : Type*} [CommRing R] (Q : Matrix (Fin M) (Fin M) R)
    (f : ℕ → Matrix (Fin M) (Fin M) R) : ℕ → Fin M → R
  | 0 => Q *ᵥ fun _ => 1
  | k + 1 => (Q - f k) *ᵥ sdcDefect Q f k

theorem sdcTaylor_eq {R : Type*} [CommRing R] (Q : Matrix (Fin M) (Fin M) R)
    (f : ℕ → Matrix (Fin M) (Fin M) R) (k j : ℕ) (h : j ≤ k) :
    sdcTaylor Q f k j = (Q ^ j) *ᵥ fun _ => 1 := by
  induction k generalizing j with
  | zero =>
    obtain rfl : j = 0 := by omega
    simp [sdcTaylor]
  | succ k ih =>
    induction j with
    | zero => simp [sdcTaylor]
    | succ j ihj =>
      rw [sdcTaylor, ihj (by omega), ih j (by omega), ← Matrix.add_mulVec, add_sub_cancel,
        Matrix.mulVec_mulVec, pow_succ']

theorem sdcTaylor_defect {R : Type*} [CommRing R] (Q : Matrix (Fin M) (Fin M) R)
    (f : ℕ → Matrix (Fin M) (Fin M) R) (k : ℕ) :
    sdcTaylor Q f k (k + 1) = ((Q ^ (k + 1)) *ᵥ fun _ => 1) - sdcDefect Q f k := by
  induction k with
  | zero =>
    funext i
    simp [sdcTaylor, sdcDefect]
  | succ k ih =>
    rw [sdcTaylor, sdcTaylor_eq Q f (k + 1) (k + 1) le_rfl, ih, Matrix.mulVec_sub, sdcDefect,
      pow_succ' Q (k + 1), ← Matrix.mulVec_mulVec, Matrix.sub_mulVec]
    abel

end QMat
