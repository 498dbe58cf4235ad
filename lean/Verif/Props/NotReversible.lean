import Verif.Props.ExactErrorTables
import Verif.Props.TimeReversal

/-!
# C112: the other registered Runge-Kutta tables do not undo their steps
-/

namespace QMat

open Spec Matrix Filter Topology

/-- Coefficients of the stability function at 0. -/
noncomputable def stabCoeff {M : ℕ} (A : Matrix (Fin M) (Fin M) ℝ) (b : Fin M → ℝ) : ℕ → ℝ
  | 0 => 1
  | k + 1 => b ⬝ᵥ ((A ^ k) *ᵥ fun _ => 1)

theorem stab_expand {M : ℕ} (A : Matrix (Fin M) (Fin M) ℝ) (b : Fin M → ℝ) (p : ℕ) (q : ℝ)
    (hq : ∀ i, ∑ j, |A i j| ≤ q) (hqb : ∑ j, |b j| ≤ q) (z : ℂ) (hz : ‖z‖ * q ≤ 1 / 2) :
    (1 - z • A.map Complex.ofReal).det ≠ 0 ∧
    ‖stabilityFunction A b z - ∑ k ∈ Finset.range (p + 1), (stabCoeff A b k : ℂ) * z ^ k‖ ≤ 2 * (‖z‖ * q) ^ (p + 1) := by
  have hq0 : 0 ≤ q := (Finset.sum_nonneg fun _ _ => abs_nonneg _).trans hqb
  have hV := C97_small z A q hq0 hq (by linarith)
  have hdet : (1 - z • A.map Complex.ofReal).det ≠ 0 := Rounding.det_ne_zero_of_bounded hV
  refine ⟨hdet, ?_⟩
  set X : Fin M → ℂ := (1 - z • A.map Complex.ofReal)⁻¹ *ᵥ fun _ => 1 with hXd
  have hX : (1 - z • cmat A) *ᵥ X = fun _ => 1 := by
    change (1 - z • A.map Complex.ofReal) *ᵥ X = _
    rw [hXd, Matrix.mulVec_mulVec, Matrix.mul_nonsing_inv _ (isUnit_iff_ne_zero.2 hdet), Matrix.one_mulVec]
  have hXn : ‖X‖ ≤ 2 := by
    have h1 := hV X
    rw [hX] at h1
    have h2 : ‖(fun _ => 1 : Fin M → ℂ)‖ ≤ 1 := by rw [pi_norm_le_iff_of_nonneg zero_le_one]; simp
    refine h1.trans ((mul_le_of_le_one_right (one_div_nonneg.2 (by linarith)) h2).trans ?_)
    rw [div_le_iff₀ (by linarith)]
    linarith
  have hXs : X = (fun _ => 1) + z • (cmat A *ᵥ X) := by
    rw [← hX, Matrix.sub_mulVec, Matrix.one_mulVec, Matrix.smul_mulVec, sub_add_cancel]
  -- dot products with the weights
  set dot : (Fin M → ℂ) → ℂ := fun x => ∑ i, (b i : ℂ) * x i with hdot
  have hdadd : ∀ x y, dot (x + y) = dot x + dot y := fun x y => by
    simp only [hdot, Pi.add_apply, mul_add, Finset.sum_add_distrib]
  have hdsmul : ∀ (a : ℂ) x, dot (a • x) = a * dot x := fun a x => by
    simp only [hdot, Pi.smul_apply, smul_eq_mul, Finset.mul_sum]
    exact Finset.sum_congr rfl fun i _ => by ring
  have hdn : ∀ x, ‖dot x‖ ≤ q * ‖x‖ := fun x => by
    refine (norm_sum_le _ _).trans ?_
    refine le_trans ?_ (mul_le_mul_of_nonneg_right hqb (norm_nonneg x))
    rw [Finset.sum_mul]
    refine Finset.sum_le_sum fun i _ => ?_
    rw [norm_mul, Complex.norm_real, Real.norm_eq_abs]
    exact mul_le_mul_of_nonneg_left (norm_le_pi_norm x i) (abs_nonneg _)
  have hpow : ∀ k (y : Fin M → ℂ), ‖(cmat A ^ k) *ᵥ y‖ ≤ q ^ k * ‖y‖ := by
    intro k
    induction k with
    | zero => intro y; simp
    | succ k ih =>
      intro y
      rw [pow_succ', ← Matrix.mulVec_mulVec, pow_succ', mul_assoc]
      have h1 := mulVec_norm_le (A := A) (a := q) (z := 1) (fun i => by simpa using hq i) hq0 ((cmat A ^ k) *ᵥ y)
      rw [one_smul] at h1
      exact h1.trans (mul_le_mul_of_nonneg_left (ih y) hq0)
  have hmom : ∀ k, dot ((cmat A ^ k) *ᵥ fun _ => 1) = stabCoeff A b (k + 1) := fun k => by
    have e : cmat A ^ k = (A ^ k).map Complex.ofReal := ((Complex.ofRealHom.mapMatrix (m := Fin M)).map_pow A k).symm
    rw [e]
    simp [hdot, dotProduct, Matrix.mulVec, stabCoeff]
  have hexp : ∀ m, 1 + z * dot X = ∑ k ∈ Finset.range (m + 1), (stabCoeff A b k : ℂ) * z ^ k + z ^ (m + 1) * dot ((cmat A ^ m) *ᵥ X) := by
    intro m
    induction m with
    | zero => simp [stabCoeff]
    | succ m ih =>
      rw [ih, Finset.sum_range_succ _ (m + 1)]
      have e1 : dot ((cmat A ^ m) *ᵥ X) = stabCoeff A b (m + 1) + z * dot ((cmat A ^ (m + 1)) *ᵥ X) := by
        conv_lhs => rw [hXs]
        rw [Matrix.mulVec_add, hdadd, hmom m, Matrix.mulVec_smul, hdsmul, Matrix.mulVec_mulVec, ← pow_succ]
      rw [e1]
      ring
  have hR : stabilityFunction A b z = 1 + z * dot X := rfl
  rw [hR, hexp p, add_sub_cancel_left, norm_mul, norm_pow]
  have h1 := (hdn ((cmat A ^ p) *ᵥ X)).trans (mul_le_mul_of_nonneg_left ((hpow p X).trans (mul_le_mul_of_nonneg_left hXn (by positivity))) hq0)
  refine (mul_le_mul_of_nonneg_left h1 (by positivity)).trans (le_of_eq ?_)
  rw [mul_pow, pow_succ q p]
  ring

open Polynomial in
/-- If a coefficient of `R(z) R(-z)` is not zero, then `R(z) R(-z) ≠ 1` for all small `z ≠ 0`. -/
theorem stab_not_one (R : ℂ → ℂ) (r : ℕ → ℂ) (m : ℕ) (hm : 0 < m) (K δ : ℝ) (hδ : 0 < δ)
    (hR : ∀ z, ‖z‖ ≤ δ → ‖R z - ∑ k ∈ Finset.range (m + 1), r k * z ^ k‖ ≤ K * ‖z‖ ^ (m + 1))
    (hg : ∑ k ∈ Finset.range (m + 1), r k * ((-1) ^ (m - k) * r (m - k)) ≠ 0) :
    ∀ᶠ z in 𝓝[≠] (0:ℂ), R z * R (-z) ≠ 1 := by
  have hK : 0 ≤ K := by
    have h1 := (norm_nonneg _).trans (hR (δ : ℂ) (by rw [Complex.norm_real, Real.norm_of_nonneg hδ.le]))
    rw [Complex.norm_real, Real.norm_of_nonneg hδ.le] at h1
    exact nonneg_of_mul_nonneg_left h1 (by positivity)
  set P : ℂ[X] := ∑ k ∈ Finset.range (m + 1), C (r k) * X ^ k with hP
  set P' : ℂ[X] := ∑ k ∈ Finset.range (m + 1), C ((-1) ^ k * r k) * X ^ k with hP'
  have hc : ∀ (s : ℕ → ℂ) k, k ≤ m → (∑ k ∈ Finset.range (m + 1), C (s k) * X ^ k : ℂ[X]).coeff k = s k := fun s k hk => by
    simp only [finsetSum_coeff, coeff_C_mul, coeff_X_pow]
    rw [Finset.sum_eq_single k (fun b _ hb => by simp [hb.symm]) (fun h => absurd (Finset.mem_range.2 (by omega)) h)]
    simp
  have hcoef : (P * P' - 1).coeff m ≠ 0 := by
    rw [coeff_sub, coeff_mul, Finset.Nat.sum_antidiagonal_eq_sum_range_succ (fun i j => P.coeff i * P'.coeff j)]
    rw [show (1 : ℂ[X]).coeff m = 0 by rw [coeff_one, if_neg (by omega)], sub_zero]
    convert hg using 1
    refine Finset.sum_congr rfl fun k hk => ?_
    rw [hP, hP', hc _ k (by have := Finset.mem_range.1 hk; omega), hc (fun k => (-1) ^ k * r k) (m - k) (by omega)]
  have hne : P * P' - 1 ≠ 0 := fun h => hcoef (by rw [h, coeff_zero])
  obtain ⟨H, hH, hnd⟩ := exists_eq_pow_rootMultiplicity_mul_and_not_dvd (P * P' - 1) hne 0
  set l := (P * P' - 1).rootMultiplicity 0 with hl
  rw [C_0, sub_zero] at hH hnd
  have hlm : l ≤ m := by
    by_contra hlt
    exact hcoef ((X_pow_dvd_iff.1 ⟨H, hH⟩) m (by omega))
  have hH0 : H.eval 0 ≠ 0 := fun h => hnd (by rw [X_dvd_iff, coeff_zero_eq_eval_zero, h])
  -- values
  have hPz : ∀ z, P.eval z = ∑ k ∈ Finset.range (m + 1), r k * z ^ k := fun z => by simp [hP, eval_finsetSum]
  have hPz' : ∀ z, P'.eval z = ∑ k ∈ Finset.range (m + 1), r k * (-z) ^ k := fun z => by
    simp only [hP', eval_finsetSum, eval_mul, eval_C, eval_pow, eval_X]
    refine Finset.sum_congr rfl fun k _ => ?_
    rw [neg_pow z]
    ring
  obtain ⟨B, hB⟩ : ∃ B, ∀ᶠ z in 𝓝 (0:ℂ), ‖P.eval z‖ ≤ B ∧ ‖P'.eval z‖ ≤ B := by
    refine ⟨max (‖P.eval 0‖ + 1) (‖P'.eval 0‖ + 1), ?_⟩
    have h1 : ∀ᶠ z in 𝓝 (0:ℂ), ‖P.eval z‖ < ‖P.eval 0‖ + 1 :=
      (P.continuous.norm.tendsto 0).eventually_lt_const (by linarith)
    have h2 : ∀ᶠ z in 𝓝 (0:ℂ), ‖P'.eval z‖ < ‖P'.eval 0‖ + 1 :=
      (P'.continuous.norm.tendsto 0).eventually_lt_const (by linarith)
    filter_upwards [h1, h2] with z a b
    exact ⟨a.le.trans (le_max_left _ _), b.le.trans (le_max_right _ _)⟩
  have h3 : ∀ᶠ z in 𝓝 (0:ℂ), ‖H.eval 0‖ / 2 < ‖H.eval z‖ :=
    (H.continuous.norm.tendsto 0).eventually_const_lt (by have := norm_pos_iff.2 hH0; linarith)
  have h4 : ∀ᶠ z in 𝓝 (0:ℂ), (2 * B * K + K ^ 2) * ‖z‖ < ‖H.eval 0‖ / 2 := by
    have hc : Continuous fun z : ℂ => (2 * B * K + K ^ 2) * ‖z‖ := by fun_prop
    refine (hc.tendsto 0).eventually_lt_const ?_
    have := norm_pos_iff.2 hH0
    simp only [norm_zero, mul_zero]
    linarith
  have h5 : ∀ᶠ z in 𝓝 (0:ℂ), ‖z‖ < min δ 1 := by
    have hc : Continuous fun z : ℂ => ‖z‖ := continuous_norm
    refine (hc.tendsto 0).eventually_lt_const ?_
    rw [norm_zero]
    exact lt_min hδ one_pos
  rw [eventually_nhdsWithin_iff]
  filter_upwards [hB, h3, h4, h5] with z hBz h3 h4 h5 hz0 hone
  obtain ⟨hzδ, hz1⟩ := lt_min_iff.1 h5
  have hzp : 0 < ‖z‖ := norm_pos_iff.2 hz0
  have e1 := hR z hzδ.le
  have e2 := hR (-z) (by rw [norm_neg]; exact hzδ.le)
  rw [← hPz] at e1
  rw [← hPz', norm_neg] at e2
  have ev : P.eval z * P'.eval z - 1 = z ^ l * H.eval z := by
    have := congrArg (eval z) hH
    simpa using this
  have e3 : z ^ l * H.eval z = -((R z - P.eval z) * P'.eval z + P.eval z * (R (-z) - P'.eval z) + (R z - P.eval z) * (R (-z) - P'.eval z)) := by
    rw [← ev]
    linear_combination hone
  have hB0 : 0 ≤ B := (norm_nonneg _).trans hBz.1
  have hp1 : ‖z‖ ^ (m + 1) ≤ 1 := pow_le_one₀ hzp.le hz1.le
  have hp0 : 0 < ‖z‖ ^ (m + 1) := by positivity
  have e4 : ‖z ^ l * H.eval z‖ ≤ (2 * B * K + K ^ 2) * ‖z‖ ^ (m + 1) := by
    rw [e3, norm_neg]
    refine (norm_add₃_le).trans ?_
    rw [norm_mul, norm_mul, norm_mul]
    have a1 := mul_le_mul e1 hBz.2 (norm_nonneg _) (by positivity)
    have a2 := mul_le_mul hBz.1 e2 (norm_nonneg _) hB0
    have a3 := mul_le_mul e1 e2 (norm_nonneg _) (by positivity)
    have a4 : K * ‖z‖ ^ (m + 1) * (K * ‖z‖ ^ (m + 1)) ≤ K ^ 2 * ‖z‖ ^ (m + 1) := by
      have := mul_le_mul_of_nonneg_left hp1 (by positivity : 0 ≤ K ^ 2 * ‖z‖ ^ (m + 1))
      nlinarith
    linarith
  have e5 : ‖z‖ ^ (m + 1) ≤ ‖z‖ ^ l * ‖z‖ := by
    rw [← pow_succ]
    exact pow_le_pow_of_le_one hzp.le hz1.le (by omega)
  rw [norm_mul, norm_pow] at e4
  have hC : 0 ≤ 2 * B * K + K ^ 2 := by positivity
  have e6 : ‖z‖ ^ l * ‖H.eval z‖ ≤ ‖z‖ ^ l * ((2 * B * K + K ^ 2) * ‖z‖) := by
    refine e4.trans ((mul_le_mul_of_nonneg_left e5 hC).trans (le_of_eq (by ring)))
  have e7 := le_of_mul_le_mul_left e6 (by positivity)
  linarith

/-! ## Tables -/

/-- Coefficients of the stability function of a table. -/
def tableCoeff (T : RKTable) : ℕ → Quad T.d
  | 0 => 1
  | k + 1 => T.residual T.b (RTree'.tall k) + ⟨1 / (RTree'.tall k).density, 0⟩

/-- Coefficient of `R(z) R(-z)`. -/
def tableProduct (T : RKTable) (m : ℕ) : Quad T.d :=
  (List.range (m + 1)).foldr (fun j acc => tableCoeff T j * (⟨(-1) ^ (m - j), 0⟩ * tableCoeff T (m - j)) + acc) 0

/-- The coefficient that is not zero. -/
def tableIndex (T : RKTable) : ℕ := if T.name = "ARK4ERK" then 8 else if T.order % 2 = 0 then T.order + 2 else T.order + 1

theorem tableCoeff_toReal (T : RKTable) (hT : T ∈ Tables.rkSchemes) (k : ℕ) : (tableCoeff T k).toReal = stabCoeff T.toRK.A T.toRK.b k := by
  obtain ⟨hd, hs, -, -⟩ := tables_shape T hT
  have hb : T.b.length = T.c.length := by
    simp only [RKTable.shapesOk, Bool.and_eq_true, decide_eq_true_eq] at hs
    exact hs.1.1
  cases k with
  | zero => simp [tableCoeff, stabCoeff]
  | succ k =>
    rw [tableCoeff, Quad.toReal_add, T.residual_toReal hs _ hb, RTree.elementaryWeight, RTree'.tall_stageWeight, stabCoeff]
    have : (⟨1 / (RTree'.tall k).density, 0⟩ : Quad T.d).toReal = 1 / (RTree'.tall k).density := by simp [Quad.toReal]
    rw [this, sub_add_cancel]
    rfl

theorem tableProduct_toReal (T : RKTable) (hT : T ∈ Tables.rkSchemes) (m : ℕ) : (tableProduct T m).toReal =
    ∑ k ∈ Finset.range (m + 1), stabCoeff T.toRK.A T.toRK.b k * ((-1) ^ (m - k) * stabCoeff T.toRK.A T.toRK.b (m - k)) := by
  have key : ∀ (f : ℕ → Quad T.d) (l : List ℕ), (l.foldr (fun j acc => f j + acc) 0).toReal = (l.map fun j => (f j).toReal).sum := by
    intro f l
    induction l with
    | nil => simp
    | cons a l ih => simp [Quad.toReal_add, ih]
  rw [tableProduct, key, ← List.sum_toFinset _ List.nodup_range, List.toFinset_range]
  refine Finset.sum_congr rfl fun k _ => ?_
  rw [Quad.toReal_mul, Quad.toReal_mul, tableCoeff_toReal T hT, tableCoeff_toReal T hT]
  congr 2
  simp [Quad.toReal]

theorem tables_product : ∀ T ∈ Tables.rkSchemes, T.name ∉ symmetricSchemes → (tableProduct T (tableIndex T)).absGe (1 / 10 ^ 5) = true := by
  have : (Tables.rkSchemes.all fun T => decide (T.name ∈ symmetricSchemes) || (tableProduct T (tableIndex T)).absGe (1 / 10 ^ 5)) = true := by
    decide +kernel
  intro T hT hn
  have := List.all_eq_true.mp this T hT
  simpa [hn] using this

/-- C112: every other registered table does not undo its steps: one small step and one back never returns to the start. -/
theorem C112_rk_others (T : RKTable) (hT : T ∈ Tables.rkSchemes) (hname : T.name ∉ symmetricSchemes) :
    ∃ δ : ℝ, 0 < δ ∧ ∀ (lam u0 : ℂ) (tEnd : ℝ), u0 ≠ 0 → 0 < ‖lam * tEnd‖ → ‖lam * tEnd‖ < δ →
      ∃ v w, T.toRK.toQGenerator.solveDahlquist lam u0 tEnd 1 = .ok [u0, v] ∧
        T.toRK.toQGenerator.solveDahlquist lam v (-tEnd) 1 = .ok [v, w] ∧ w ≠ u0 := by
  obtain ⟨hd, -, -, hp, -⟩ := tables_shape T hT
  obtain ⟨⟨hA, hb⟩, -⟩ := C102_tables_size T hT
  have hm : 0 < tableIndex T := by unfold tableIndex; split_ifs <;> omega
  have hex : ∀ z : ℂ, ‖z‖ ≤ 1 / 64 → _ := fun z hz => stab_expand T.toRK.A T.toRK.b (tableIndex T) 32 hA hb z (by linarith)
  have hne := stab_not_one (stabilityFunction T.toRK.A T.toRK.b) (fun k => (stabCoeff T.toRK.A T.toRK.b k : ℂ)) (tableIndex T) hm
    (2 * 32 ^ (tableIndex T + 1)) (1 / 64) (by norm_num) (fun z hz => (hex z hz).2.trans (le_of_eq (by rw [mul_pow]; ring))) (by
      have h1 := Quad.absGe_sound hd (tables_product T hT hname)
      rw [tableProduct_toReal T hT] at h1
      intro h0
      have h2 : ((∑ k ∈ Finset.range (tableIndex T + 1), stabCoeff T.toRK.A T.toRK.b k *
          ((-1) ^ (tableIndex T - k) * stabCoeff T.toRK.A T.toRK.b (tableIndex T - k)) : ℝ) : ℂ) = 0 := by
        rw [← h0]
        push_cast
        rfl
      rw [Complex.ofReal_eq_zero.1 h2] at h1
      norm_num at h1)
  rw [eventually_nhdsWithin_iff, Metric.eventually_nhds_iff] at hne
  obtain ⟨ε, hε, hne⟩ := hne
  refine ⟨min ε (1 / 64), lt_min hε (by norm_num), fun lam u0 tEnd hu0 h0 hδ => ?_⟩
  obtain ⟨h1, h2⟩ := lt_min_iff.1 hδ
  have hone := hne (y := lam * tEnd) (by simpa using h1) (norm_pos_iff.1 h0)
  have hs : ∀ (t : ℝ) (u : ℂ), ‖lam * t‖ ≤ 1 / 64 → T.toRK.toQGenerator.solveDahlquist lam u t 1 =
      .ok [u, stabilityFunction T.toRK.A T.toRK.b (lam * t) * u] := fun t u ht => by
    have h3 := C30_solveDahlquist T.toRK.toQGenerator lam u t 1 one_pos (by
      have hdet := (hex (lam * t) ht).1
      change (1 - (lam * ((t / (1:ℕ) : ℝ) : ℂ)) • T.toRK.A.map Complex.ofReal).det ≠ 0
      simpa using hdet)
    change _ = Except.ok ((List.range (1 + 1)).map fun k => stabilityFunction T.toRK.A T.toRK.b (lam * ((t / (1:ℕ) : ℝ) : ℂ)) ^ k * u) at h3
    simpa [List.range_succ] using h3
  refine ⟨_, _, hs tEnd u0 h2.le, hs (-tEnd) _ (by simpa using h2.le), fun h => hone ?_⟩
  rw [← mul_assoc] at h
  have h4 := mul_right_cancel₀ hu0 (h.trans (one_mul u0).symm)
  rw [mul_comm]
  simpa using h4

/-- Instance: RK4 is not symmetric. -/
example : ∃ δ : ℝ, 0 < δ ∧ ∀ (lam u0 : ℂ) (tEnd : ℝ), u0 ≠ 0 → 0 < ‖lam * tEnd‖ → ‖lam * tEnd‖ < δ →
    ∃ v w, Tables.tRK4.toRK.toQGenerator.solveDahlquist lam u0 tEnd 1 = .ok [u0, v] ∧
      Tables.tRK4.toRK.toQGenerator.solveDahlquist lam v (-tEnd) 1 = .ok [v, w] ∧ w ≠ u0 :=
  C112_rk_others Tables.tRK4 (by simp [Tables.rkSchemes]) (by decide)

end QMat
