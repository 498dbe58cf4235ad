import Verif.Model.Butcher
import Verif.Lemmas.Dahlquist
import Mathlib.LinearAlgebra.Matrix.Block

/-!
# Padded Runge-Kutta tables and triangular tables
-/

namespace QMat

open Spec Matrix

/-- The stability function from the stages. -/
theorem stabilityFunction_of_stages {M : ℕ} (A : Matrix (Fin M) (Fin M) ℝ) (b : Fin M → ℝ) (z : ℂ)
    (hdet : (1 - z • A.map Complex.ofReal).det ≠ 0) (v : Fin M → ℂ)
    (hv : (1 - z • A.map Complex.ofReal) *ᵥ v = fun _ => 1) :
    stabilityFunction A b z = 1 + z * ∑ i, (b i : ℂ) * v i := by
  rw [stabilityFunction, ← hv, Matrix.mulVec_mulVec, Matrix.nonsing_inv_mul _ (Ne.isUnit hdet),
    Matrix.one_mulVec]

theorem stages_solution {M : ℕ} (A : Matrix (Fin M) (Fin M) ℝ) (z : ℂ)
    (hdet : (1 - z • A.map Complex.ofReal).det ≠ 0) :
    ∃ v : Fin M → ℂ, (1 - z • A.map Complex.ofReal) *ᵥ v = fun _ => 1 :=
  ⟨(1 - z • A.map Complex.ofReal)⁻¹ *ᵥ fun _ => 1, by rw [Matrix.mulVec_mulVec, Matrix.mul_nonsing_inv _ (Ne.isUnit hdet), Matrix.one_mulVec]⟩

/-- Rows of the stage system. -/
theorem stage_row {M : ℕ} (A : Matrix (Fin M) (Fin M) ℝ) (z : ℂ) (v : Fin M → ℂ) (i : Fin M) :
    ((1 - z • A.map Complex.ofReal) *ᵥ v) i = v i - z * ∑ j, (A i j : ℂ) * v j := by
  rw [Matrix.sub_mulVec, Matrix.one_mulVec, Matrix.smul_mulVec]
  rfl

namespace RK

variable {s : ℕ} (A : Matrix (Fin s) (Fin s) ℝ) (b : Fin s → ℝ)

theorem padLeft_det (z : ℂ) :
    (1 - z • (padLeftA A).map Complex.ofReal).det = (1 - z • A.map Complex.ofReal).det := by
  rw [Matrix.det_succ_row_zero, Fin.sum_univ_succ, Finset.sum_eq_zero, add_zero]
  · have h0 : (1 - z • (padLeftA A).map Complex.ofReal)
        0 0 = 1 := by
      simp [padLeftA]
    rw [h0]
    simp only [Fin.val_zero, pow_zero, one_mul]
    congr 1
    ext i j
    simp [padLeftA, Matrix.one_apply]
  · intro j _
    have h0 : (1 - z • (padLeftA A).map Complex.ofReal)
        0 j.succ = 0 := by
      simp [padLeftA, Fin.ext_iff]
    rw [h0]; simp

theorem padLeft_stab (z : ℂ) (hdet : (1 - z • A.map Complex.ofReal).det ≠ 0) :
    stabilityFunction (padLeftA A) (Fin.cons 0 b) z = stabilityFunction A b z := by
  obtain ⟨v, hv⟩ := stages_solution A z hdet
  rw [stabilityFunction_of_stages A b z hdet v hv,
    stabilityFunction_of_stages (padLeftA A) (Fin.cons 0 b) z (by rw [padLeft_det]; exact hdet)
      (Fin.cons 1 v : Fin (s + 1) → ℂ)]
  · congr 2
    rw [Fin.sum_univ_succ]
    simp
  · funext i
    rw [stage_row]
    rw [Fin.sum_univ_succ]
    refine Fin.cases ?_ (fun i => ?_) i
    · simp [padLeftA]
    · have := congrFun hv i
      rw [stage_row] at this
      simpa [padLeftA] using this

theorem padRight_det (z : ℂ) :
    (1 - z • (padRightA A b).map Complex.ofReal).det = (1 - z • A.map Complex.ofReal).det := by
  rw [Matrix.det_succ_column _ (Fin.last s), Fin.sum_univ_castSucc, Finset.sum_eq_zero, zero_add]
  · have h0 : (1 - z • (padRightA A b).map Complex.ofReal)
        (Fin.last s) (Fin.last s) = 1 := by
      simp [padRightA]
    rw [h0]
    have h1 : ((-1 : ℂ)) ^ ((Fin.last s : ℕ) + (Fin.last s : ℕ)) = 1 :=
      Even.neg_one_pow ⟨_, rfl⟩
    rw [h1, one_mul, one_mul]
    congr 1
    ext i j
    simp [padRightA, Matrix.one_apply]
  · intro j _
    have h0 : (1 - z • (padRightA A b).map Complex.ofReal)
        j.castSucc (Fin.last s) = 0 := by
      simp [padRightA, Fin.ext_iff, j.isLt.ne]
    rw [h0]; simp

theorem padRight_stab (z : ℂ) (hdet : (1 - z • A.map Complex.ofReal).det ≠ 0) :
    stabilityFunction (padRightA A b) (Fin.snoc b 0) z = stabilityFunction A b z := by
  obtain ⟨v, hv⟩ := stages_solution A z hdet
  rw [stabilityFunction_of_stages A b z hdet v hv,
    stabilityFunction_of_stages (padRightA A b) (Fin.snoc b 0) z (by rw [padRight_det]; exact hdet)
      (Fin.snoc v (1 + z * ∑ i, (b i : ℂ) * v i) : Fin (s + 1) → ℂ)]
  · congr 2
    rw [Fin.sum_univ_castSucc]
    simp
  · funext i
    rw [stage_row]
    rw [Fin.sum_univ_castSucc]
    refine Fin.lastCases ?_ (fun i => ?_) i
    · simp [padRightA]
    · have := congrFun hv i
      rw [stage_row] at this
      simpa [padRightA] using this

end RK

/-- A strictly lower triangular table: the stage matrix has determinant 1. -/
theorem det_explicit {M : ℕ} (A : Matrix (Fin M) (Fin M) ℝ) (hA : ∀ i j, i ≤ j → A i j = 0) (z : ℂ) :
    (1 - z • A.map Complex.ofReal).det = 1 := by
  rw [Matrix.det_of_isLowerTriangular]
  · refine Finset.prod_eq_one fun i _ => ?_
    simp [hA i i le_rfl]
  · intro i j hij
    have hij : i < j := OrderDual.toDual_lt_toDual.mp hij
    simp [hA i j hij.le, hij.ne]

/-- A lower triangular table: the determinant of the stage matrix. -/
theorem det_dirk {M : ℕ} (A : Matrix (Fin M) (Fin M) ℝ) (hA : ∀ i j, i < j → A i j = 0) (z : ℂ) :
    (1 - z • A.map Complex.ofReal).det = ∏ i, (1 - z * (A i i : ℂ)) := by
  rw [Matrix.det_of_isLowerTriangular]
  · refine Finset.prod_congr rfl fun i _ => ?_
    simp
  · intro i j hij
    have hij : i < j := OrderDual.toDual_lt_toDual.mp hij
    simp [hA i j hij, hij.ne]

end QMat
