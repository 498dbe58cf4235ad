import Verif.Model.QCoeff
import Verif.Spec.Stability
import Mathlib.Analysis.SpecialFunctions.Exp
import Mathlib.Analysis.Matrix.Normed
import Mathlib.LinearAlgebra.Matrix.ToLinearEquiv

/-!
# Dahlquist's equation: the time loop, local error and global error
-/

namespace QMat

open Matrix Spec

/-! ## The time loop -/

theorem dahlquistSteps_eq {M : ℕ} (Q : Matrix (Fin M) (Fin M) ℝ) (w : Fin M → ℝ) (z : ℂ)
    (hdet : (1 - z • Q.map Complex.ofReal).det ≠ 0) (n : ℕ) (u : ℂ) :
    dahlquistSteps (1 - z • Q.map Complex.ofReal) ⟨M, w⟩ z n u =
      .ok ((List.range n).map fun k => stabilityFunction Q w z ^ (k + 1) * u) := by
  induction n generalizing u with
  | zero => simp [dahlquistSteps]
  | succ n ih =>
    have h1 : ((1 - z • Q.map Complex.ofReal)⁻¹ *ᵥ fun _ : Fin M => u) =
        u • ((1 - z • Q.map Complex.ofReal)⁻¹ *ᵥ fun _ : Fin M => 1) := by
      rw [← Matrix.mulVec_smul]
      congr 1
      funext i
      simp
    have h2 : u + z * ∑ i, (w i : ℂ) * ((1 - z • Q.map Complex.ofReal)⁻¹ *ᵥ fun _ : Fin M => u) i =
        stabilityFunction Q w z * u := by
      rw [h1, stabilityFunction, add_mul, one_mul, mul_assoc, Finset.sum_mul]
      congr 2
      refine Finset.sum_congr rfl fun i _ => ?_
      simp only [Pi.smul_apply, smul_eq_mul]
      ring
    simp only [dahlquistSteps, npSolve, if_neg hdet, npDot, dite_true, bind, Except.bind, pure,
      Except.pure, Fin.cast_eq_self]
    rw [h2, ih]
    simp only [List.range_succ_eq_map, List.map_cons, List.map_map]
    congr 2
    · simp
    · refine List.map_congr_left fun k _ => ?_
      simp only [Function.comp, Nat.succ_eq_add_one]
      ring

theorem dahlquistSteps_singular {M : ℕ} (A : Matrix (Fin M) (Fin M) ℂ) (w : Σ k, Fin k → ℝ) (z : ℂ)
    (hdet : A.det = 0) (n : ℕ) (hn : 0 < n) (u : ℂ) :
    dahlquistSteps A w z n u = .error .linAlgError := by
  obtain ⟨n, rfl⟩ := Nat.exists_eq_add_of_le' hn
  simp [dahlquistSteps, npSolve, hdet, bind, Except.bind]

theorem dahlquistSteps_size {M : ℕ} (A : Matrix (Fin M) (Fin M) ℂ) (w : Σ k, Fin k → ℝ) (z : ℂ)
    (hdet : A.det ≠ 0) (hw : w.1 ≠ M) (n : ℕ) (hn : 0 < n) (u : ℂ) :
    dahlquistSteps A w z n u = .error .valueError := by
  obtain ⟨n, rfl⟩ := Nat.exists_eq_add_of_le' hn
  simp [dahlquistSteps, npSolve, npDot, hdet, hw, bind, Except.bind]

/-! ## Local error -/

/-- Largest absolute row sum, up to a `+ 1`: any bound works. -/
noncomputable def rowBound {M : ℕ} (A : Matrix (Fin M) (Fin M) ℝ) : ℝ := ∑ i, ∑ j, |A i j| + 1

theorem rowBound_pos {M : ℕ} (A : Matrix (Fin M) (Fin M) ℝ) : 1 ≤ rowBound A := by
  unfold rowBound
  have : 0 ≤ ∑ i, ∑ j, |A i j| := Finset.sum_nonneg fun i _ => Finset.sum_nonneg fun j _ => abs_nonneg _
  linarith

theorem norm_mulVec_le {M : ℕ} (A : Matrix (Fin M) (Fin M) ℝ) (v : Fin M → ℂ) :
    ‖A.map Complex.ofReal *ᵥ v‖ ≤ rowBound A * ‖v‖ := by
  have hb : 0 ≤ rowBound A := by linarith [rowBound_pos A]
  rw [pi_norm_le_iff_of_nonneg (by positivity)]
  intro i
  have h1 : ‖(A.map Complex.ofReal *ᵥ v) i‖ ≤ ∑ j, |A i j| * ‖v‖ := by
    change ‖∑ j, (A.map Complex.ofReal) i j * v j‖ ≤ _
    refine (norm_sum_le _ _).trans (Finset.sum_le_sum fun j _ => ?_)
    rw [norm_mul, Matrix.map_apply, Complex.norm_real, Real.norm_eq_abs]
    exact mul_le_mul_of_nonneg_left (norm_le_pi_norm v j) (abs_nonneg _)
  refine h1.trans ?_
  rw [← Finset.sum_mul]
  refine mul_le_mul_of_nonneg_right ?_ (norm_nonneg _)
  unfold rowBound
  have := Finset.single_le_sum (f := fun i => ∑ j, |A i j|)
    (fun i _ => Finset.sum_nonneg fun j _ => abs_nonneg _) (Finset.mem_univ i)
  linarith

/-- `I - z A` is invertible for small `z`. -/
theorem det_ne_zero_of_small {M : ℕ} (A : Matrix (Fin M) (Fin M) ℝ) (z : ℂ)
    (hz : ‖z‖ * rowBound A ≤ 1 / 2) : (1 - z • A.map Complex.ofReal).det ≠ 0 := by
  intro h0
  obtain ⟨v, hv, hv0⟩ := Matrix.exists_mulVec_eq_zero_iff.mpr h0
  rw [Matrix.sub_mulVec, Matrix.one_mulVec, Matrix.smul_mulVec, sub_eq_zero] at hv0
  have h1 : ‖v‖ ≤ 1 / 2 * ‖v‖ := by
    calc ‖v‖ = ‖z • (A.map Complex.ofReal *ᵥ v)‖ := by rw [← hv0]
      _ ≤ ‖z‖ * (rowBound A * ‖v‖) := by
        rw [norm_smul]; exact mul_le_mul_of_nonneg_left (norm_mulVec_le A v) (norm_nonneg _)
      _ = ‖z‖ * rowBound A * ‖v‖ := by ring
      _ ≤ _ := mul_le_mul_of_nonneg_right hz (norm_nonneg _)
  exact hv (norm_le_zero_iff.mp (by linarith))

/-- The stage values, for small `z`. -/
theorem stages_small {M : ℕ} (A : Matrix (Fin M) (Fin M) ℝ) (z : ℂ)
    (hz : ‖z‖ * rowBound A ≤ 1 / 2) :
    let v : Fin M → ℂ := (1 - z • A.map Complex.ofReal)⁻¹ *ᵥ fun _ => 1
    v = (fun _ => 1) + z • (A.map Complex.ofReal *ᵥ v) ∧ ‖v‖ ≤ 2 := by
  intro v
  have hdet := det_ne_zero_of_small A z hz
  have h1 : (1 - z • A.map Complex.ofReal) *ᵥ v = fun _ => 1 := by
    simp only [v, Matrix.mulVec_mulVec]
    rw [Matrix.mul_nonsing_inv _ (Ne.isUnit hdet), Matrix.one_mulVec]
  have h2 : v = (fun _ => 1) + z • (A.map Complex.ofReal *ᵥ v) := by
    rw [← h1, Matrix.sub_mulVec, Matrix.one_mulVec, Matrix.smul_mulVec]
    simp
  refine ⟨h2, ?_⟩
  have h3 : ‖v‖ ≤ 1 + 1 / 2 * ‖v‖ := by
    calc ‖v‖ = ‖(fun _ => (1:ℂ)) + z • (A.map Complex.ofReal *ᵥ v)‖ := by rw [← h2]
      _ ≤ ‖fun _ : Fin M => (1:ℂ)‖ + ‖z • (A.map Complex.ofReal *ᵥ v)‖ := norm_add_le _ _
      _ ≤ 1 + ‖z‖ * (rowBound A * ‖v‖) := by
        rw [norm_smul]
        refine add_le_add ?_ (mul_le_mul_of_nonneg_left (norm_mulVec_le A v) (norm_nonneg _))
        refine (pi_norm_const_le (1:ℂ)).trans (by simp)
      _ = 1 + ‖z‖ * rowBound A * ‖v‖ := by ring
      _ ≤ _ := by
        have := mul_le_mul_of_nonneg_right hz (norm_nonneg v)
        linarith
  linarith

/-- `v = Σ_{k<p} z^k A^k 1 + z^p A^p v`. -/
theorem stages_expand {M : ℕ} (A : Matrix (Fin M) (Fin M) ℂ) (z : ℂ) (e v : Fin M → ℂ)
    (h : v = e + z • (A *ᵥ v)) (p : ℕ) :
    v = (∑ k ∈ Finset.range p, z ^ k • (A ^ k *ᵥ e)) + z ^ p • (A ^ p *ᵥ v) := by
  induction p with
  | zero => simp
  | succ p ih =>
    have h2 : z ^ p • (A ^ p *ᵥ v) = z ^ p • (A ^ p *ᵥ e) + z ^ (p + 1) • (A ^ (p + 1) *ᵥ v) := by
      conv_lhs => rw [h]
      rw [Matrix.mulVec_add, Matrix.mulVec_smul, Matrix.mulVec_mulVec, ← pow_succ, smul_add,
        smul_smul, ← pow_succ]
    rw [Finset.sum_range_succ, add_assoc, ← h2]
    exact ih

theorem norm_pow_mulVec_le {M : ℕ} (A : Matrix (Fin M) (Fin M) ℝ) (v : Fin M → ℂ) (p : ℕ) :
    ‖(A.map Complex.ofReal) ^ p *ᵥ v‖ ≤ rowBound A ^ p * ‖v‖ := by
  have hb : 0 ≤ rowBound A := by linarith [rowBound_pos A]
  induction p with
  | zero => simp
  | succ p ih =>
    rw [pow_succ', ← Matrix.mulVec_mulVec]
    refine (norm_mulVec_le A _).trans ?_
    rw [pow_succ', mul_assoc]
    exact mul_le_mul_of_nonneg_left ih hb

theorem map_pow_ofReal {M : ℕ} (A : Matrix (Fin M) (Fin M) ℝ) (k : ℕ) :
    (A.map Complex.ofReal) ^ k = (A ^ k).map Complex.ofReal := by
  have := (map_pow (Complex.ofRealHom.mapMatrix (m := Fin M)) A k).symm
  exact this

theorem map_mulVec_one {M : ℕ} (A : Matrix (Fin M) (Fin M) ℝ) (i : Fin M) :
    (A.map Complex.ofReal *ᵥ fun _ => (1:ℂ)) i = ((A *ᵥ fun _ => (1:ℝ)) i : ℝ) := by
  change ∑ j, A.map Complex.ofReal i j * 1 = ((∑ j, A i j * 1 : ℝ) : ℂ)
  push_cast
  simp

/-- Residual of the linear order condition for `k + 1`. -/
noncomputable def linResidual {M : ℕ} (A : Matrix (Fin M) (Fin M) ℝ) (b : Fin M → ℝ) (k : ℕ) : ℝ :=
  b ⬝ᵥ ((A ^ k) *ᵥ fun _ => 1) - 1 / (k + 1).factorial

/-- Expansion of the local error of a tableau. -/
theorem local_expansion {M : ℕ} (A : Matrix (Fin M) (Fin M) ℝ) (b : Fin M → ℝ) (p : ℕ) :
    ∃ C δ : ℝ, 0 ≤ C ∧ 0 < δ ∧ δ ≤ 1 ∧ ∀ z : ℂ, ‖z‖ ≤ δ →
      (1 - z • A.map Complex.ofReal).det ≠ 0 ∧
      ‖stabilityFunction A b z - Complex.exp z -
        ∑ k ∈ Finset.range p, z ^ (k + 1) * (linResidual A b k : ℂ)‖ ≤ C * ‖z‖ ^ (p + 1) := by
  have hb := rowBound_pos A
  set B : ℝ := ∑ i, |b i| with hB
  have hB0 : 0 ≤ B := Finset.sum_nonneg fun i _ => abs_nonneg _
  set m : ℕ → ℝ := linResidual A b with hm
  set E : ℝ := ((p + 1).succ : ℝ) * (((p + 1).factorial : ℝ) * (p + 1 : ℕ))⁻¹ with hE
  have hE0 : 0 ≤ E := by positivity
  refine ⟨B * (rowBound A ^ p * 2) + E, 1 / (2 * rowBound A), by positivity, by positivity, ?_, ?_⟩
  · rw [div_le_one (by positivity)]; linarith
  intro z hz
  have hz2 : ‖z‖ * rowBound A ≤ 1 / 2 := by
    calc ‖z‖ * rowBound A ≤ 1 / (2 * rowBound A) * rowBound A :=
          mul_le_mul_of_nonneg_right hz (by linarith)
      _ = 1 / 2 := by field_simp
  have hz1 : ‖z‖ ≤ 1 := hz.trans (by rw [div_le_one (by positivity)]; linarith)
  refine ⟨det_ne_zero_of_small A z hz2, ?_⟩
  obtain ⟨hv, hv2⟩ := stages_small A z hz2
  set v : Fin M → ℂ := (1 - z • A.map Complex.ofReal)⁻¹ *ᵥ fun _ => 1 with hvdef
  have hexp := stages_expand (A.map Complex.ofReal) z (fun _ => 1) v hv p
  have hR : stabilityFunction A b z = ∑ k ∈ Finset.range (p + 1), z ^ k / (k.factorial : ℂ) +
      z ^ (p + 1) * ∑ i, (b i : ℂ) * ((A.map Complex.ofReal) ^ p *ᵥ v) i +
      ∑ k ∈ Finset.range p, z ^ (k + 1) * (m k : ℂ) := by
    rw [stabilityFunction, ← hvdef]
    have e1 : ∑ i, (b i : ℂ) * v i = ∑ k ∈ Finset.range p, (z ^ k / ((k + 1).factorial : ℂ) + z ^ k * (m k : ℂ)) +
        z ^ p * ∑ i, (b i : ℂ) * ((A.map Complex.ofReal) ^ p *ᵥ v) i := by
      conv_lhs => rw [hexp]
      simp only [Pi.add_apply, Finset.sum_apply, Pi.smul_apply, smul_eq_mul, mul_add,
        Finset.sum_add_distrib, Finset.mul_sum]
      congr 1
      · rw [Finset.sum_comm, ← Finset.sum_add_distrib]
        refine Finset.sum_congr rfl fun k hk => ?_
        have : b ⬝ᵥ ((A ^ k) *ᵥ fun _ => 1) = 1 / (k + 1).factorial + m k := by
          simp only [hm, linResidual]; ring
        have h3 : ∑ i, (b i : ℂ) * ((A.map Complex.ofReal) ^ k *ᵥ fun _ => (1:ℂ)) i =
            1 / ((k + 1).factorial : ℂ) + (m k : ℂ) := by
          simp only [map_pow_ofReal, map_mulVec_one]
          rw [dotProduct] at this
          have := congrArg Complex.ofReal this
          push_cast at this ⊢
          exact this
        calc _ = z ^ k * ∑ i, (b i : ℂ) * ((A.map Complex.ofReal) ^ k *ᵥ fun _ => (1:ℂ)) i := by
              rw [Finset.mul_sum]
              exact Finset.sum_congr rfl fun i _ => by ring
          _ = _ := by rw [h3]; ring
      · refine Finset.sum_congr rfl fun i _ => by ring
    rw [e1, Finset.sum_range_succ', mul_add, Finset.mul_sum]
    have : ∀ k ∈ Finset.range p, z * (z ^ k / ((k + 1).factorial : ℂ) + z ^ k * (m k : ℂ)) =
      z ^ (k + 1) / ((k + 1).factorial : ℂ) + z ^ (k + 1) * (m k : ℂ) := fun k _ => by ring
    rw [Finset.sum_congr rfl this, Finset.sum_add_distrib]
    simp only [pow_zero, Nat.factorial_zero, Nat.cast_one, div_one]
    ring
  have hexpb := Complex.exp_bound hz1 (n := p + 1) (by omega)
  have hrem : ‖z ^ (p + 1) * ∑ i, (b i : ℂ) * ((A.map Complex.ofReal) ^ p *ᵥ v) i‖ ≤
      ‖z‖ ^ (p + 1) * (B * (rowBound A ^ p * 2)) := by
    rw [norm_mul, norm_pow]
    refine mul_le_mul_of_nonneg_left ?_ (by positivity)
    refine (norm_sum_le _ _).trans ?_
    rw [hB, Finset.sum_mul]
    refine Finset.sum_le_sum fun i _ => ?_
    rw [norm_mul, Complex.norm_real, Real.norm_eq_abs]
    refine mul_le_mul_of_nonneg_left ?_ (abs_nonneg _)
    refine (norm_le_pi_norm _ i).trans ((norm_pow_mulVec_le A v p).trans ?_)
    exact mul_le_mul_of_nonneg_left hv2 (by positivity)
  have : stabilityFunction A b z - Complex.exp z - ∑ k ∈ Finset.range p, z ^ (k + 1) * (m k : ℂ) =
      (z ^ (p + 1) * ∑ i, (b i : ℂ) * ((A.map Complex.ofReal) ^ p *ᵥ v) i) -
      (Complex.exp z - ∑ k ∈ Finset.range (p + 1), z ^ k / (k.factorial : ℂ)) := by
    rw [hR]; ring
  rw [this]
  refine (norm_sub_le _ _).trans ?_
  calc _ ≤ ‖z‖ ^ (p + 1) * (B * (rowBound A ^ p * 2)) + ‖z‖ ^ (p + 1) * E :=
        add_le_add hrem hexpb
    _ = _ := by ring

/-- Local error of a tableau that satisfies the linear order conditions up to `p`, each up to `tol`. -/
theorem local_error_tol {M : ℕ} (A : Matrix (Fin M) (Fin M) ℝ) (b : Fin M → ℝ) (p : ℕ) (tol : ℝ)
    (h : ∀ k, k < p → |b ⬝ᵥ ((A ^ k) *ᵥ fun _ => 1) - 1 / (k + 1).factorial| ≤ tol) :
    ∃ C δ : ℝ, 0 ≤ C ∧ 0 < δ ∧ δ ≤ 1 ∧ ∀ z : ℂ, ‖z‖ ≤ δ →
      (1 - z • A.map Complex.ofReal).det ≠ 0 ∧
      ‖stabilityFunction A b z - Complex.exp z‖ ≤ C * ‖z‖ ^ (p + 1) + p * tol * ‖z‖ := by
  obtain ⟨C, δ, hC, hδ, hδ1, hloc⟩ := local_expansion A b p
  refine ⟨C, δ, hC, hδ, hδ1, fun z hz => ⟨(hloc z hz).1, ?_⟩⟩
  have hz1 := hz.trans hδ1
  have hpert : ‖∑ k ∈ Finset.range p, z ^ (k + 1) * (linResidual A b k : ℂ)‖ ≤ p * tol * ‖z‖ := by
    refine (norm_sum_le _ _).trans ?_
    calc _ ≤ ∑ _k ∈ Finset.range p, tol * ‖z‖ := by
          refine Finset.sum_le_sum fun k hk => ?_
          have h1 := h k (Finset.mem_range.mp hk)
          rw [norm_mul, norm_pow, Complex.norm_real, Real.norm_eq_abs, mul_comm]
          refine mul_le_mul h1 ?_ (by positivity) ((abs_nonneg _).trans h1)
          rw [pow_succ]
          exact mul_le_of_le_one_left (norm_nonneg _) (pow_le_one₀ (norm_nonneg _) hz1)
      _ = _ := by simp [mul_assoc]
  have := norm_sub_norm_le (stabilityFunction A b z - Complex.exp z)
    (∑ k ∈ Finset.range p, z ^ (k + 1) * (linResidual A b k : ℂ))
  have := (hloc z hz).2
  linarith

/-- Local error of a tableau that satisfies the linear order conditions up to `p`. -/
theorem local_error {M : ℕ} (A : Matrix (Fin M) (Fin M) ℝ) (b : Fin M → ℝ) (p : ℕ)
    (h : LinearOrder A b p) :
    ∃ C δ : ℝ, 0 ≤ C ∧ 0 < δ ∧ δ ≤ 1 ∧ ∀ z : ℂ, ‖z‖ ≤ δ →
      (1 - z • A.map Complex.ofReal).det ≠ 0 ∧
      ‖stabilityFunction A b z - Complex.exp z‖ ≤ C * ‖z‖ ^ (p + 1) := by
  have := local_error_tol A b p 0 fun k hk => by rw [h k hk]; simp
  simpa using this

/-! ## From local to global error -/

/-- Powers of an approximation of `exp z`. -/
theorem power_error_gen {r z : ℂ} {C D : ℝ} (hC : 0 ≤ C) (hD0 : 0 ≤ D) (hDC : D ≤ C * ‖z‖)
    (hr : ‖r - Complex.exp z‖ ≤ D) (k : ℕ) :
    ‖r ^ k - Complex.exp (k * z)‖ ≤ k * D * Real.exp ((1 + C) * (k * ‖z‖)) := by
  set L := Real.exp ((1 + C) * ‖z‖) with hL
  have hez : ‖Complex.exp z‖ ≤ L := by
    rw [Complex.norm_exp]
    refine Real.exp_le_exp.mpr ((Complex.re_le_norm z).trans ?_)
    nlinarith [norm_nonneg z]
  have hrL : ‖r‖ ≤ L := by
    have h2 : ‖r‖ ≤ ‖Complex.exp z‖ + C * ‖z‖ := by
      calc ‖r‖ = ‖Complex.exp z + (r - Complex.exp z)‖ := by congr 1; ring
        _ ≤ ‖Complex.exp z‖ + ‖r - Complex.exp z‖ := norm_add_le _ _
        _ ≤ _ := by linarith
    have h3 : ‖Complex.exp z‖ ≤ Real.exp ‖z‖ := by
      rw [Complex.norm_exp]; exact Real.exp_le_exp.mpr (Complex.re_le_norm z)
    have h4 : Real.exp ‖z‖ + C * ‖z‖ ≤ Real.exp ‖z‖ * (1 + C * ‖z‖) := by
      have h5 : 1 ≤ Real.exp ‖z‖ := Real.one_le_exp (norm_nonneg _)
      have h6 : 0 ≤ C * ‖z‖ := by positivity
      nlinarith
    have h5 : 1 + C * ‖z‖ ≤ Real.exp (C * ‖z‖) := by
      have := Real.add_one_le_exp (C * ‖z‖); linarith
    calc ‖r‖ ≤ Real.exp ‖z‖ * (1 + C * ‖z‖) := by linarith
      _ ≤ Real.exp ‖z‖ * Real.exp (C * ‖z‖) :=
        mul_le_mul_of_nonneg_left h5 (Real.exp_pos _).le
      _ = L := by rw [← Real.exp_add, hL]; congr 1; ring
  have hL1 : 1 ≤ L := Real.one_le_exp (by positivity)
  have hLk : Real.exp ((1 + C) * (k * ‖z‖)) = L ^ k := by
    rw [hL, ← Real.exp_nat_mul]; congr 1; ring
  rw [hLk, Complex.exp_nat_mul]
  induction k with
  | zero => simp
  | succ k ih =>
    have ih := ih (by rw [hL, ← Real.exp_nat_mul]; congr 1; ring)
    have e : r ^ (k + 1) - Complex.exp z ^ (k + 1) =
        (r ^ k - Complex.exp z ^ k) * r + Complex.exp z ^ k * (r - Complex.exp z) := by ring
    rw [e]
    refine (norm_add_le _ _).trans ?_
    rw [norm_mul, norm_mul, norm_pow]
    have h1 : ‖r ^ k - Complex.exp z ^ k‖ * ‖r‖ ≤ k * D * L ^ k * L :=
      mul_le_mul ih hrL (norm_nonneg _) (by positivity)
    have h2 : ‖Complex.exp z‖ ^ k * ‖r - Complex.exp z‖ ≤ L ^ k * D :=
      mul_le_mul (pow_le_pow_left₀ (norm_nonneg _) hez k) hr (norm_nonneg _) (by positivity)
    have h3 : L ^ k * D ≤ L ^ k * D * L := le_mul_of_one_le_right (by positivity) hL1
    calc _ ≤ k * D * L ^ k * L + L ^ k * D * L := by linarith
      _ = _ := by push_cast; ring

/-- Powers of an approximation of `exp z` of order `p + 1`. -/
theorem power_error {r z : ℂ} {C : ℝ} (hC : 0 ≤ C) {p : ℕ} (hz : ‖z‖ ≤ 1)
    (hr : ‖r - Complex.exp z‖ ≤ C * ‖z‖ ^ (p + 1)) (k : ℕ) :
    ‖r ^ k - Complex.exp (k * z)‖ ≤ k * (C * ‖z‖ ^ (p + 1)) * Real.exp ((1 + C) * (k * ‖z‖)) := by
  refine power_error_gen hC (by positivity) (mul_le_mul_of_nonneg_left ?_ hC) hr k
  rw [pow_succ]
  exact mul_le_of_le_one_left (norm_nonneg _) (pow_le_one₀ (norm_nonneg _) hz)

/-- Powers of a number near `exp z`: a lower bound of the error. -/
theorem power_error_ge {r z : ℂ} {d : ℝ} (n : ℕ) (hd0 : 0 ≤ d)
    (hr : ‖r - Complex.exp z‖ ≤ d) (hsmall : n * (d * Real.exp ‖z‖) ≤ 1 / 2) :
    Real.exp (-(n * ‖z‖)) * (n * (‖r - Complex.exp z‖ * Real.exp (-‖z‖)) / 2) ≤
      ‖r ^ n - Complex.exp (n * z)‖ := by
  set E := Complex.exp z with hE
  have hE0 : E ≠ 0 := Complex.exp_ne_zero z
  have hEl : Real.exp (-‖z‖) ≤ ‖E‖ := by
    rw [hE, Complex.norm_exp]
    exact Real.exp_le_exp.mpr (by linarith [(abs_le.mp (Complex.abs_re_le_norm z)).1])
  have hEu : ‖E‖ ≤ Real.exp ‖z‖ := by
    rw [hE, Complex.norm_exp]; exact Real.exp_le_exp.mpr (Complex.re_le_norm z)
  have hEp : 0 < ‖E‖ := norm_pos_iff.mpr hE0
  set w : ℂ := (r - E) / E with hw
  have hrw : r = E * (1 + w) := by rw [hw]; field_simp; ring
  have hwn : ‖w‖ = ‖r - E‖ / ‖E‖ := by rw [hw, norm_div]
  have hinv : 1 / ‖E‖ ≤ Real.exp ‖z‖ := by
    rw [div_le_iff₀ hEp]
    calc (1:ℝ) = Real.exp ‖z‖ * Real.exp (-‖z‖) := by rw [← Real.exp_add]; simp
      _ ≤ _ := mul_le_mul_of_nonneg_left hEl (Real.exp_pos _).le
  have hwu : ‖w‖ ≤ d * Real.exp ‖z‖ := by
    rw [hwn, div_eq_mul_one_div]
    exact mul_le_mul hr hinv (by positivity) hd0
  have hwl : ‖r - E‖ * Real.exp (-‖z‖) ≤ ‖w‖ := by
    rw [hwn, div_eq_mul_one_div]
    refine mul_le_mul_of_nonneg_left ?_ (norm_nonneg _)
    rw [le_div_iff₀ hEp]
    calc _ ≤ Real.exp (-‖z‖) * Real.exp ‖z‖ := mul_le_mul_of_nonneg_left hEu (Real.exp_pos _).le
      _ = 1 := by rw [← Real.exp_add]; simp
  have hnw : n * ‖w‖ ≤ 1 / 2 := le_trans (mul_le_mul_of_nonneg_left hwu (Nat.cast_nonneg _)) hsmall
  have hnw0 : 0 ≤ n * ‖w‖ := by positivity
  -- second order remainder of the power
  have hrem : ∀ m : ℕ, ‖(1 + w) ^ m - 1 - m * w‖ ≤ (1 + ‖w‖) ^ m - 1 - m * ‖w‖ := by
    intro m
    induction m with
    | zero => simp
    | succ m ih =>
      have hb : ‖(1 + w) ^ m - 1‖ ≤ (1 + ‖w‖) ^ m - 1 := by
        have : (1 + w) ^ m - 1 = ((1 + w) ^ m - 1 - m * w) + m * w := by ring
        rw [this]
        refine (norm_add_le _ _).trans ?_
        have : ‖(m:ℂ) * w‖ = m * ‖w‖ := by rw [norm_mul, Complex.norm_natCast]
        linarith
      have e : (1 + w) ^ (m + 1) - 1 - ((m + 1 : ℕ) : ℂ) * w =
          ((1 + w) ^ m - 1 - m * w) + ((1 + w) ^ m - 1) * w := by push_cast; ring
      rw [e]
      refine (norm_add_le _ _).trans ?_
      rw [norm_mul]
      have := mul_le_mul_of_nonneg_right hb (norm_nonneg w)
      have e2 : (1 + ‖w‖) ^ (m + 1) - 1 - ((m + 1 : ℕ) : ℝ) * ‖w‖ =
          ((1 + ‖w‖) ^ m - 1 - m * ‖w‖) + ((1 + ‖w‖) ^ m - 1) * ‖w‖ := by push_cast; ring
      linarith
  have hq : (1 + ‖w‖) ^ n - 1 - n * ‖w‖ ≤ (n * ‖w‖) ^ 2 := by
    have h1 : (1 + ‖w‖) ^ n ≤ Real.exp (n * ‖w‖) := by
      rw [Real.exp_nat_mul]
      exact pow_le_pow_left₀ (by positivity) (by linarith [Real.add_one_le_exp ‖w‖]) n
    have h2 := Real.abs_exp_sub_one_sub_id_le (x := n * ‖w‖) (by rw [abs_of_nonneg hnw0]; linarith)
    linarith [(abs_le.mp h2).2]
  have hlow : n * ‖w‖ / 2 ≤ ‖(1 + w) ^ n - 1‖ := by
    have h1 : ‖(n:ℂ) * w‖ ≤ ‖(1 + w) ^ n - 1‖ + ‖(1 + w) ^ n - 1 - n * w‖ := by
      calc ‖(n:ℂ) * w‖ = ‖((1 + w) ^ n - 1) - ((1 + w) ^ n - 1 - n * w)‖ := by congr 1; ring
        _ ≤ _ := norm_sub_le _ _
    rw [norm_mul, Complex.norm_natCast] at h1
    have h2 := hrem n
    have h3 : (n * ‖w‖) ^ 2 ≤ n * ‖w‖ / 2 := by nlinarith
    linarith
  have e : r ^ n - Complex.exp (n * z) = E ^ n * ((1 + w) ^ n - 1) := by
    rw [Complex.exp_nat_mul, ← hE, hrw, mul_pow]; ring
  rw [e, norm_mul, norm_pow]
  have h1 : Real.exp (-(n * ‖z‖)) ≤ ‖E‖ ^ n := by
    rw [← mul_neg, Real.exp_nat_mul]
    exact pow_le_pow_left₀ (Real.exp_pos _).le hEl n
  refine mul_le_mul h1 (le_trans ?_ hlow) (by positivity) (by positivity)
  have := mul_le_mul_of_nonneg_left hwl (Nat.cast_nonneg (α := ℝ) n)
  linarith

theorem npNormInf_le {l : List ℂ} {K : ℝ} (hK : 0 ≤ K) (h : ∀ z ∈ l, ‖z‖ ≤ K) : npNormInf l ≤ K := by
  unfold npNormInf
  induction l with
  | nil => simpa using hK
  | cons z l ih =>
    simp only [List.map_cons, List.foldr_cons]
    exact max_le (h z (by simp)) (ih fun z hz => h z (by simp [hz]))

theorem norm_le_npNormInf {l : List ℂ} {z : ℂ} (h : z ∈ l) : ‖z‖ ≤ npNormInf l := by
  unfold npNormInf
  induction l with
  | nil => simp at h
  | cons y l ih =>
    simp only [List.map_cons, List.foldr_cons]
    rcases List.mem_cons.mp h with rfl | h
    · exact le_max_left _ _
    · exact (ih h).trans (le_max_right _ _)

end QMat
