import Verif.Lemmas.BStable
import Mathlib.Topology.MetricSpace.Contracting
import Mathlib.Algebra.Order.Chebyshev
import Mathlib.Analysis.Calculus.MeanValue

/-!
# Collocation on dissipative equations: stages, perturbations and solvability without a Lipschitz constant in the bounds
-/

namespace QMat

open Polynomial Spec Matrix

section Coercive

variable {M : ℕ} {x w : Fin M → ℝ} {A : Matrix (Fin M) (Fin M) ℝ}

/-- A polynomial of degree `M - 1` with a factor `t` removed: `Σ w (t W²)' ≥ W(1)²`. -/
theorem quad_mul_sq (hM : 0 < M) (hup : QuadUpper x w (2 * M - 2)) {W : ℝ[X]} (hW : W.natDegree ≤ M - 1) :
    W.eval 1 ^ 2 ≤ ∑ i, w i * (W.eval (x i) ^ 2 + 2 * (x i * W.eval (x i) * (derivative W).eval (x i))) := by
  have h1 : (X * W ^ 2 : ℝ[X]).natDegree ≤ 2 * M - 2 + 1 := by
    have a := natDegree_mul_le (p := (X : ℝ[X])) (q := W ^ 2)
    have b := natDegree_pow_le (p := W) (n := 2)
    rw [natDegree_X] at a
    omega
  have h := hup (derivative (X * W ^ 2)) ((natDegree_derivative_le _).trans (by omega)) (by
    rw [coeff_derivative, mul_comm X, coeff_mul_X, show 2 * M - 2 = 2 * (M - 1) by omega,
      coeff_pow_of_natDegree_le hW]
    positivity)
  rw [polyInt_derivative] at h
  simp only [eval_mul, eval_X, eval_pow, one_mul, zero_mul, sub_zero] at h
  refine h.trans (le_of_eq (Finset.sum_congr rfl fun i _ => ?_))
  rw [derivative_mul, derivative_X, derivative_sq]
  simp only [eval_add, eval_mul, eval_one, eval_pow, eval_X, eval_C]
  ring

/-- The stage values divided by the nodes. -/
theorem coll_quotient (hM : 0 < M) (hc : Function.Injective x)
    (hA : ∀ f : ℝ[X], f.degree < M → ∀ i, ∑ j, A i j * f.eval (x j) = polyInt f 0 (x i))
    (hb : ∀ f : ℝ[X], f.degree < M → ∑ i, w i * f.eval (x i) = polyInt f 0 1) (v : Fin M → ℝ)
    (hv : ∀ i, x i = 0 → v i = 0) :
    ∃ W : ℝ[X], W.natDegree ≤ M - 1 ∧ (∀ i, W.eval (x i) = (∑ j, A i j * v j) / x i) ∧
      ∀ i, v i = W.eval (x i) + x i * (derivative W).eval (x i) := by
  obtain ⟨U, hU, hU0, hUd, hUx, -⟩ := coll_poly hc hA hb v
  obtain ⟨W, rfl⟩ : X ∣ U := by rw [X_dvd_iff, coeff_zero_eq_eval_zero, hU0]
  have hd : ∀ i, v i = W.eval (x i) + x i * (derivative W).eval (x i) := fun i => by
    rw [← hUd i, derivative_mul, derivative_X]; simp
  refine ⟨W, ?_, fun i => ?_, hd⟩
  · by_cases h0 : W = 0
    · simp [h0]
    · rw [natDegree_X_mul h0] at hU; omega
  · rw [← hUx i]
    by_cases hi : x i = 0
    · have := hd i
      rw [hv i hi, hi] at this
      rw [hi]; simp; linarith
    · rw [eval_mul, eval_X]; field_simp

/-- Coercivity of the inverse of a collocation matrix. -/
theorem coll_coercive (hM : 0 < M) (hc : Function.Injective x)
    (hA : ∀ f : ℝ[X], f.degree < M → ∀ i, ∑ j, A i j * f.eval (x j) = polyInt f 0 (x i))
    (hb : ∀ f : ℝ[X], f.degree < M → ∑ i, w i * f.eval (x i) = polyInt f 0 1)
    (hup : QuadUpper x w (2 * M - 2)) (v : Fin M → ℝ) (hv : ∀ i, x i = 0 → v i = 0) :
    1 / 2 * ∑ i, w i * ((∑ j, A i j * v j) / x i) ^ 2 ≤ ∑ i, w i / x i * (v i * ∑ j, A i j * v j) := by
  obtain ⟨W, hW, hWx, hWd⟩ := coll_quotient hM hc hA hb v hv
  have h := quad_mul_sq hM hup hW
  have e : ∀ i, w i / x i * (v i * ∑ j, A i j * v j) =
      w i * (W.eval (x i) ^ 2 + x i * W.eval (x i) * (derivative W).eval (x i)) := fun i => by
    have : w i / x i * (v i * ∑ j, A i j * v j) = w i * v i * ((∑ j, A i j * v j) / x i) := by ring
    rw [this, ← hWx, hWd i]; ring
  simp only [e, ← hWx]
  have h2 : ∑ i, w i * (W.eval (x i) ^ 2 + 2 * (x i * W.eval (x i) * (derivative W).eval (x i))) =
      2 * ∑ i, w i * (W.eval (x i) ^ 2 + x i * W.eval (x i) * (derivative W).eval (x i)) - ∑ i, w i * W.eval (x i) ^ 2 := by
    rw [Finset.mul_sum, ← Finset.sum_sub_distrib]
    exact Finset.sum_congr rfl fun i _ => by ring
  nlinarith [sq_nonneg (W.eval 1)]

/-- A left inverse on the vectors that vanish where the node is zero. -/
theorem coll_left_inverse (hM : 0 < M) (hc : Function.Injective x)
    (hA : ∀ f : ℝ[X], f.degree < M → ∀ i, ∑ j, A i j * f.eval (x j) = polyInt f 0 (x i))
    (hb : ∀ f : ℝ[X], f.degree < M → ∑ i, w i * f.eval (x i) = polyInt f 0 1) :
    ∃ B : Matrix (Fin M) (Fin M) ℝ, ∀ v : Fin M → ℝ, (∀ i, x i = 0 → v i = 0) →
      ∀ i, v i = ∑ j, B i j * ∑ k, A j k * v k := by
  classical
  refine ⟨Matrix.of fun i j => ((Lagrange.basis Finset.univ x j).eval (x i) +
    x i * (derivative (Lagrange.basis Finset.univ x j)).eval (x i)) / x j, fun v hv i => ?_⟩
  obtain ⟨W, hW, hWx, hWd⟩ := coll_quotient hM hc hA hb v hv
  have hWi : W = ∑ j, C (W.eval (x j)) * Lagrange.basis Finset.univ x j := by
    have := Lagrange.eq_interpolate (s := Finset.univ) (v := x) hc.injOn (f := W) (by
      rw [Finset.card_univ, Fintype.card_fin]
      exact (degree_le_of_natDegree_le hW).trans_lt (by exact_mod_cast (by omega : M - 1 < M)))
    rw [Lagrange.interpolate_apply] at this
    exact this
  rw [hWd i]
  conv_lhs => rw [hWi]
  simp only [derivative_sum, derivative_C_mul, eval_finsetSum, eval_mul, eval_C, Finset.mul_sum, of_apply,
    ← Finset.sum_add_distrib]
  refine Finset.sum_congr rfl fun j _ => ?_
  rw [hWx j, ← Finset.mul_sum]
  ring

end Coercive

section Inner

variable {M : ℕ} {x w : Fin M → ℝ} {A : Matrix (Fin M) (Fin M) ℝ}

/-- The matrix of the coercivity inequality, restricted by the indicator `z`. -/
noncomputable def coerMatrix (x w : Fin M → ℝ) (A : Matrix (Fin M) (Fin M) ℝ) (z : Fin M → ℝ) : Matrix (Fin M) (Fin M) ℝ :=
  Matrix.of fun i j => z i * z j * (w i / x i * A i j - 1 / 2 * ∑ k, w k / x k ^ 2 * (A k i * A k j))

theorem coerMatrix_form {F : Type*} [NormedAddCommGroup F] [InnerProductSpace ℝ F] (z : Fin M → ℝ) (H : Fin M → F)
    (hH : ∀ i, z i • H i = H i) : ∑ i, ∑ j, coerMatrix x w A z i j * inner ℝ (H i) (H j) =
      ∑ i, w i / x i * inner ℝ (H i) (∑ j, A i j • H j) - 1 / 2 * ∑ i, w i / x i ^ 2 * ‖∑ j, A i j • H j‖ ^ 2 := by
  have e : ∀ i j, coerMatrix x w A z i j * inner ℝ (H i) (H j) =
      w i / x i * (A i j * inner ℝ (H i) (H j)) - 1 / 2 * ∑ k, w k / x k ^ 2 * (A k i * (A k j * inner ℝ (H i) (H j))) := by
    intro i j
    conv_rhs => rw [← hH i, ← hH j]
    simp only [coerMatrix, of_apply, inner_smul_left, inner_smul_right, conj_trivial]
    rw [Finset.mul_sum, Finset.mul_sum, mul_sub, sub_mul, Finset.mul_sum, Finset.sum_mul]
    congr 1
    · ring
    · exact Finset.sum_congr rfl fun k _ => by ring
  simp only [e, Finset.sum_sub_distrib, ← Finset.mul_sum]
  congr 1
  · refine Finset.sum_congr rfl fun i _ => ?_
    rw [inner_sum]
    simp only [inner_smul_right]
  · congr 1
    rw [Finset.sum_congr rfl fun i _ => Finset.sum_comm, Finset.sum_comm]
    refine Finset.sum_congr rfl fun k _ => ?_
    rw [← real_inner_self_eq_norm_sq, sum_inner, Finset.mul_sum]
    refine Finset.sum_congr rfl fun i _ => ?_
    rw [inner_sum, Finset.mul_sum]
    refine Finset.sum_congr rfl fun j _ => ?_
    rw [inner_smul_left, inner_smul_right, conj_trivial]

/-- Coercivity in an inner product space. -/
theorem coll_coercive_inner (hM : 0 < M) (hc : Function.Injective x)
    (hA : ∀ f : ℝ[X], f.degree < M → ∀ i, ∑ j, A i j * f.eval (x j) = polyInt f 0 (x i))
    (hb : ∀ f : ℝ[X], f.degree < M → ∑ i, w i * f.eval (x i) = polyInt f 0 1)
    (hup : QuadUpper x w (2 * M - 2)) {E : Type*} [NormedAddCommGroup E] [InnerProductSpace ℝ E]
    (G : Fin M → E) (hG : ∀ i, x i = 0 → G i = 0) :
    1 / 2 * ∑ i, w i / x i ^ 2 * ‖∑ j, A i j • G j‖ ^ 2 ≤ ∑ i, w i / x i * inner ℝ (G i) (∑ j, A i j • G j) := by
  classical
  let z : Fin M → ℝ := fun i => if x i = 0 then 0 else 1
  set P := coerMatrix x w A z with hPdef
  have hz : ∀ i, z i • G i = G i := fun i => by
    by_cases hi : x i = 0
    · simp [z, hi, hG i hi]
    · simp [z, hi]
  have hP : ∀ v : Fin M → ℝ, 0 ≤ ∑ i, ∑ j, P i j * (v i * v j) := by
    intro v
    have e : ∑ i, ∑ j, P i j * (v i * v j) = ∑ i, ∑ j, P i j * ((z i * v i) * (z j * v j)) := by
      refine Finset.sum_congr rfl fun i _ => Finset.sum_congr rfl fun j _ => ?_
      have hzz : ∀ i, z i * z i = z i := fun i => by simp only [z]; split <;> simp
      simp only [hPdef, coerMatrix, of_apply]
      rw [show ∀ a b c d e : ℝ, a * b * c * ((a * d) * (b * e)) = (a * a) * (b * b) * c * (d * e) by intros; ring, hzz, hzz]
    have k := coerMatrix_form (x := x) (w := w) (A := A) (F := ℝ) z (fun i => z i * v i) (fun i => by simp only [z, smul_eq_mul]; split <;> simp)
    have c := coll_coercive hM hc hA hb hup (fun i => z i * v i) (fun i hi => by simp [z, hi])
    simp only [smul_eq_mul, RCLike.inner_apply, conj_trivial, Real.norm_eq_abs, sq_abs] at k
    rw [e]
    have k' : ∑ i, ∑ j, P i j * ((z i * v i) * (z j * v j)) = ∑ i, ∑ j, P i j * (z j * v j * (z i * v i)) :=
      Finset.sum_congr rfl fun i _ => Finset.sum_congr rfl fun j _ => by ring
    rw [k', hPdef, k]
    have c1 : ∑ i, w i * ((∑ j, A i j * (z j * v j)) / x i) ^ 2 = ∑ i, w i / x i ^ 2 * (∑ j, A i j * (z j * v j)) ^ 2 :=
      Finset.sum_congr rfl fun i _ => by ring
    have c2 : ∑ i, w i / x i * (z i * v i * ∑ j, A i j * (z j * v j)) =
        ∑ i, w i / x i * ((∑ j, A i j * (z j * v j)) * (z i * v i)) :=
      Finset.sum_congr rfl fun i _ => by ring
    rw [c1, c2] at c
    linarith
  have h := posSemidef_inner hP G
  rw [hPdef, coerMatrix_form z G hz] at h
  linarith

/-- Slopes and stage increments of a dissipative system with perturbations of size `d` have size `κ d`. -/
theorem coll_stage_bound (hM : 0 < M) (hc : Function.Injective x) (hx : ∀ i, 0 ≤ x i ∧ x i ≤ 1)
    (hA : ∀ f : ℝ[X], f.degree < M → ∀ i, ∑ j, A i j * f.eval (x j) = polyInt f 0 (x i))
    (hb : ∀ f : ℝ[X], f.degree < M → ∑ i, w i * f.eval (x i) = polyInt f 0 1)
    (hup : QuadUpper x w (2 * M - 2)) (hw : ∀ i, 0 < w i) :
    ∃ κ : ℝ, 0 ≤ κ ∧ ∀ {E : Type*} [NormedAddCommGroup E] [InnerProductSpace ℝ E] (G η : Fin M → E) (d : ℝ),
      (∀ i, x i = 0 → G i = 0) → (∀ i, inner ℝ (G i) (∑ j, A i j • G j + η i) ≤ 0) → (∀ i, ‖η i‖ ≤ d) →
      ∀ i, ‖∑ j, A i j • G j‖ ≤ κ * d ∧ ‖G i‖ ≤ κ * d := by
  classical
  obtain ⟨B, hB⟩ := coll_left_inverse hM hc hA hb
  have hne : (Finset.univ : Finset (Fin M)).Nonempty := ⟨⟨0, hM⟩, Finset.mem_univ _⟩
  obtain ⟨i0, -, hi0⟩ := Finset.exists_min_image Finset.univ w hne
  set m := w i0 with hm
  have hmp : 0 < m := hw i0
  set N := ∑ i, ∑ j, |B i j| with hN
  have hNp : 0 ≤ N := Finset.sum_nonneg fun i _ => Finset.sum_nonneg fun j _ => abs_nonneg _
  set β := ∑ i, w i / x i with hβ
  have hwx : ∀ i, 0 ≤ w i / x i := fun i => div_nonneg (hw i).le (hx i).1
  have hβp : 0 ≤ β := Finset.sum_nonneg fun i _ => hwx i
  set κ0 := 2 * M * β * N / m with hκ0
  have hκ0p : 0 ≤ κ0 := by positivity
  refine ⟨κ0 * (1 + N), by positivity, ?_⟩
  intro E _ _ G η d hG hdis hη
  have hd : 0 ≤ d := (norm_nonneg _).trans (hη ⟨0, hM⟩)
  set Z : Fin M → E := fun i => ∑ j, A i j • G j with hZ
  have hGZ : ∀ i, G i = ∑ j, B i j • Z j := by
    -- the matrix identity applied to the components in the span
    have hmat : ∀ i k, x k ≠ 0 → ∑ j, B i j * A j k = if i = k then 1 else 0 := by
      intro i k hk
      have := hB (fun l => if l = k then 1 else 0) (fun l hl => by
        by_cases hlk : l = k
        · subst hlk; exact absurd hl hk
        · simp [hlk]) i
      simp only [mul_ite, mul_one, mul_zero, Finset.sum_ite_eq', Finset.mem_univ, if_true] at this
      exact this.symm
    intro i
    simp only [hZ, Finset.smul_sum, smul_smul]
    rw [Finset.sum_comm]
    simp only [← Finset.sum_smul]
    rw [Finset.sum_eq_single i]
    · by_cases hi : x i = 0
      · rw [hG i hi, smul_zero]
      · rw [hmat i i hi, if_pos rfl, one_smul]
    · intro k _ hk
      by_cases hi : x k = 0
      · rw [hG k hi, smul_zero]
      · rw [hmat i k hi, if_neg (Ne.symm hk), zero_smul]
    · simp
  set S := ∑ j, ‖Z j‖ with hS
  have hSp : 0 ≤ S := Finset.sum_nonneg fun j _ => norm_nonneg _
  have hGS : ∀ i, ‖G i‖ ≤ N * S := by
    intro i
    rw [hGZ i]
    refine (norm_sum_le _ _).trans ?_
    have h1 : ∀ j, ‖B i j • Z j‖ ≤ |B i j| * S := fun j => by
      rw [norm_smul, Real.norm_eq_abs]
      exact mul_le_mul_of_nonneg_left (Finset.single_le_sum (fun j _ => norm_nonneg (Z j)) (Finset.mem_univ j)) (abs_nonneg _)
    refine (Finset.sum_le_sum fun j _ => h1 j).trans ?_
    rw [← Finset.sum_mul]
    exact mul_le_mul_of_nonneg_right (Finset.single_le_sum (f := fun i => ∑ j, |B i j|)
      (fun i _ => Finset.sum_nonneg fun j _ => abs_nonneg _) (Finset.mem_univ i)) hSp
  have hco := coll_coercive_inner hM hc hA hb hup G hG
  have hup1 : ∑ i, w i / x i * inner ℝ (G i) (∑ j, A i j • G j) ≤ β * (N * S * d) := by
    rw [hβ, Finset.sum_mul]
    refine Finset.sum_le_sum fun i _ => mul_le_mul_of_nonneg_left ?_ (hwx i)
    have h1 := hdis i
    rw [inner_add_right] at h1
    have h2 : -(‖G i‖ * ‖η i‖) ≤ inner ℝ (G i) (η i) := (abs_le.1 (abs_real_inner_le_norm (G i) (η i))).1
    have h3 : ‖G i‖ * ‖η i‖ ≤ N * S * d := mul_le_mul (hGS i) (hη i) (norm_nonneg _) (by positivity)
    linarith
  have hZ0 : ∀ i, x i = 0 → Z i = 0 := by
    intro i hi
    have hrow : ∀ k, A i k = 0 := by
      intro k
      have := hA (Lagrange.basis Finset.univ x k) (by
        rw [Lagrange.degree_basis hc.injOn (Finset.mem_univ k)]
        simp only [Finset.card_univ, Fintype.card_fin]
        exact_mod_cast (by omega : M - 1 < M)) i
      rw [hi, Finset.sum_eq_single k] at this
      · rw [Lagrange.eval_basis_self hc.injOn (Finset.mem_univ k), mul_one] at this
        rw [this]; simp [polyInt]
      · intro l _ hl
        rw [Lagrange.eval_basis_of_ne hl.symm (Finset.mem_univ l), mul_zero]
      · simp
    simp [hZ, hrow]
  have hlow : m * ∑ i, ‖Z i‖ ^ 2 ≤ ∑ i, w i / x i ^ 2 * ‖∑ j, A i j • G j‖ ^ 2 := by
    rw [Finset.mul_sum]
    refine Finset.sum_le_sum fun i _ => ?_
    by_cases hi : x i = 0
    · have := hZ0 i hi
      simp only [hZ] at this ⊢
      simp [this]
    · have hxp : 0 < x i := lt_of_le_of_ne (hx i).1 (Ne.symm hi)
      refine mul_le_mul_of_nonneg_right ((hi0 i (Finset.mem_univ _)).trans ?_) (sq_nonneg _)
      rw [le_div_iff₀ (by positivity)]
      have : x i ^ 2 ≤ 1 := by have := (hx i).2; nlinarith
      nlinarith [hw i]
  have hcs : S ^ 2 ≤ M * ∑ i, ‖Z i‖ ^ 2 := by
    have := sq_sum_le_card_mul_sum_sq (s := (Finset.univ : Finset (Fin M))) (f := fun i => ‖Z i‖)
    simpa using this
  have hSle : S ≤ κ0 * d := by
    have hq : m * S ^ 2 ≤ (2 * M * β * N * d) * S := by
      have a1 : m * S ^ 2 ≤ M * (m * ∑ i, ‖Z i‖ ^ 2) := by nlinarith
      have a2 : m * ∑ i, ‖Z i‖ ^ 2 ≤ 2 * (β * (N * S * d)) := by linarith
      have a3 : (M:ℝ) * (m * ∑ i, ‖Z i‖ ^ 2) ≤ M * (2 * (β * (N * S * d))) := mul_le_mul_of_nonneg_left a2 (Nat.cast_nonneg M)
      linarith
    rcases hSp.eq_or_lt with h0 | h0
    · rw [← h0]; positivity
    · have : m * S ≤ 2 * M * β * N * d := by
        refine le_of_mul_le_mul_right ?_ h0
        linarith
      rw [hκ0, div_mul_eq_mul_div, le_div_iff₀ hmp]
      linarith
  intro i
  have hκd : 0 ≤ κ0 * d := by positivity
  constructor
  · have h1 : ‖Z i‖ ≤ S := Finset.single_le_sum (fun j _ => norm_nonneg (Z j)) (Finset.mem_univ i)
    have h2 : 0 ≤ κ0 * d * N := by positivity
    change ‖Z i‖ ≤ _
    linarith
  · have h1 := hGS i
    have h2 : N * S ≤ N * (κ0 * d) := mul_le_mul_of_nonneg_left hSle hNp
    linarith

end Inner

section Perturbed

variable {M : ℕ} {x w : Fin M → ℝ} {A : Matrix (Fin M) (Fin M) ℝ} {E : Type*} [NormedAddCommGroup E] [InnerProductSpace ℝ E]

/-- Two perturbed steps of an algebraically stable method: `κ` bounds the slopes. -/
theorem perturbed_step (hw : ∀ i, 0 ≤ w i) (hsum : ∑ i, w i = 1)
    (hP : ∀ v : Fin M → ℝ, 0 ≤ ∑ i, ∑ j, stabMatrix A w i j * (v i * v j)) {κ d : ℝ} (hκ : 0 ≤ κ) (hd : 0 ≤ d) {e0 e1 r : E}
    {Y G ρ : Fin M → E} (hY : ∀ i, Y i = e0 + ∑ j, A i j • G j + ρ i) (h1 : e1 = e0 + ∑ i, w i • G i + r)
    (hdis : ∀ i, inner ℝ (G i) (Y i) ≤ 0) (hρ : ∀ i, ‖ρ i‖ ≤ d) (hr : ‖r‖ ≤ d) (hG : ∀ i, ‖G i‖ ≤ κ * (‖e0‖ + d)) :
    ‖e1‖ ≤ ‖e0‖ + (κ + 3) * d := by
  have hf := step_form (A := A) (b := w) (innerₗ E : LinearMap.BilinForm ℝ E) (fun x y => real_inner_comm y x) (h := 1)
    (u := e0) (u1 := e1 - r) (Y := fun i => Y i - ρ i) (F := G) (fun i => by rw [hY i, one_smul]; abel)
    (by rw [h1, one_smul]; abel)
  have hp := posSemidef_inner hP G
  simp only [innerₗ_apply_apply, real_inner_self_eq_norm_sq, mul_one, one_pow, one_mul] at hf
  have hs : ∑ i, w i * inner ℝ (Y i - ρ i) (G i) ≤ d * (κ * (‖e0‖ + d)) := by
    calc ∑ i, w i * inner ℝ (Y i - ρ i) (G i) ≤ ∑ i, w i * (d * (κ * (‖e0‖ + d))) := by
          refine Finset.sum_le_sum fun i _ => mul_le_mul_of_nonneg_left ?_ (hw i)
          rw [inner_sub_left, real_inner_comm]
          have h2 := (abs_le.1 (abs_real_inner_le_norm (ρ i) (G i))).1
          have h3 := mul_le_mul (hρ i) (hG i) (norm_nonneg _) hd
          linarith [hdis i]
      _ = _ := by rw [← Finset.sum_mul, hsum, one_mul]
  have hsq : ‖e1 - r‖ ^ 2 ≤ (‖e0‖ + (κ + 2) * d) ^ 2 := by
    have h0 := norm_nonneg e0
    have a1 : 0 ≤ ‖e0‖ * d := mul_nonneg h0 hd
    have a2 : 0 ≤ κ * (d * d) := by positivity
    have a3 : 0 ≤ κ * κ * (d * d) := by positivity
    have a4 : 0 ≤ d * d := by positivity
    nlinarith
  have hle : ‖e1 - r‖ ≤ ‖e0‖ + (κ + 2) * d := by
    refine le_of_sq_le_sq hsq (by positivity)
  have : ‖e1‖ ≤ ‖e1 - r‖ + ‖r‖ := by
    have := norm_add_le (e1 - r) r
    rwa [sub_add_cancel] at this
  linarith

/-- Slopes that are constant where the node is zero: the stages depend on the data with a constant free of the slopes. -/
theorem stages_lipschitz {κ : ℝ} 
    (hκ : ∀ (G η : Fin M → E) (d : ℝ), (∀ i, x i = 0 → G i = 0) → (∀ i, inner ℝ (G i) (∑ j, A i j • G j + η i) ≤ 0) →
      (∀ i, ‖η i‖ ≤ d) → ∀ i, ‖∑ j, A i j • G j‖ ≤ κ * d ∧ ‖G i‖ ≤ κ * d)
    {F : Fin M → E → E} (hdis : ∀ i a b, inner ℝ (F i a - F i b) (a - b) ≤ 0) (h0 : ∀ i, x i = 0 → ∀ a b, F i a = F i b)
    {g g' Y Y' : Fin M → E} (hY : ∀ i, Y i = g i + ∑ j, A i j • F j (Y j)) (hY' : ∀ i, Y' i = g' i + ∑ j, A i j • F j (Y' j))
    {d : ℝ} (hg : ∀ i, ‖g i - g' i‖ ≤ d) (i : Fin M) : ‖Y i - Y' i‖ ≤ (κ + 1) * d := by
  have e : ∀ i, Y i - Y' i = ∑ j, A i j • (F j (Y j) - F j (Y' j)) + (g i - g' i) := fun i => by
    rw [hY i, hY' i]
    simp only [smul_sub, Finset.sum_sub_distrib]
    abel
  have h := (hκ (fun j => F j (Y j) - F j (Y' j)) (fun i => g i - g' i) d (fun i hi => by rw [h0 i hi _ (Y' i), sub_self])
    (fun i => by rw [← e i]; exact hdis i _ _) hg i).1
  rw [e i]
  refine (norm_add_le _ _).trans ?_
  linarith [hg i]

/-- The stage equations with Lipschitz continuous dissipative slopes have a solution, whatever the Lipschitz constant. -/
theorem stages_exist [CompleteSpace E] {κ : ℝ} (hκ0 : 0 ≤ κ)
    (hκ : ∀ (G η : Fin M → E) (d : ℝ), (∀ i, x i = 0 → G i = 0) → (∀ i, inner ℝ (G i) (∑ j, A i j • G j + η i) ≤ 0) →
      (∀ i, ‖η i‖ ≤ d) → ∀ i, ‖∑ j, A i j • G j‖ ≤ κ * d ∧ ‖G i‖ ≤ κ * d)
    {F : Fin M → E → E} (hdis : ∀ i a b, inner ℝ (F i a - F i b) (a - b) ≤ 0) (h0 : ∀ i, x i = 0 → ∀ a b, F i a = F i b)
    {L : ℝ} (hL0 : 0 ≤ L) (hL : ∀ i a b, ‖F i a - F i b‖ ≤ L * ‖a - b‖) (g : Fin M → E) :
    ∃ Y : Fin M → E, ∀ i, Y i = g i + ∑ j, A i j • F j (Y j) := by
  set α := ∑ i, ∑ j, |A i j| with hα
  have hα0 : 0 ≤ α := Finset.sum_nonneg fun i _ => Finset.sum_nonneg fun j _ => abs_nonneg _
  obtain ⟨n, hn⟩ := exists_nat_gt (2 * ((κ + 1) * (α * L)))
  have hn0 : (0:ℝ) < n := lt_of_le_of_lt (by positivity) hn
  have hAF : ∀ (Y Y' : Fin M → E) (ε : ℝ), 0 ≤ ε → ∀ i,
      ‖(g i + ε • ∑ j, A i j • F j (Y j)) - (g i + ε • ∑ j, A i j • F j (Y' j))‖ ≤ ε * (α * L * ‖Y - Y'‖) := by
    intro Y Y' ε hε i
    rw [add_sub_add_left_eq_sub, ← smul_sub, ← Finset.sum_sub_distrib, norm_smul, Real.norm_eq_abs, abs_of_nonneg hε]
    refine mul_le_mul_of_nonneg_left ((norm_sum_le _ _).trans ?_) hε
    have h1 : ∀ j, ‖A i j • F j (Y j) - A i j • F j (Y' j)‖ ≤ |A i j| * (L * ‖Y - Y'‖) := fun j => by
      rw [← smul_sub, norm_smul, Real.norm_eq_abs]
      refine mul_le_mul_of_nonneg_left ((hL j _ _).trans (mul_le_mul_of_nonneg_left ?_ hL0)) (abs_nonneg _)
      exact norm_le_pi_norm (Y - Y') j
    refine (Finset.sum_le_sum fun j _ => h1 j).trans ?_
    rw [← Finset.sum_mul, mul_assoc]
    exact mul_le_mul_of_nonneg_right (Finset.single_le_sum (f := fun i => ∑ j, |A i j|)
      (fun i _ => Finset.sum_nonneg fun j _ => abs_nonneg _) (Finset.mem_univ i)) (by positivity)
  have key : ∀ k : ℕ, ∀ g : Fin M → E, ∃ Y : Fin M → E, ∀ i, Y i = g i + ∑ j, A i j • (((k:ℝ) / n) • F j (Y j)) := by
    intro k
    induction k with
    | zero => intro g; exact ⟨g, fun i => by simp⟩
    | succ k ih =>
      intro g'
      choose S hS using ih
      have hkn : (0:ℝ) ≤ k / n := by positivity
      have hlip : ∀ a b : Fin M → E, ‖S a - S b‖ ≤ (κ + 1) * ‖a - b‖ := fun a b => by
        refine (pi_norm_le_iff_of_nonneg (by positivity)).2 fun i => ?_
        refine stages_lipschitz hκ (F := fun j y => ((k:ℝ) / n) • F j y) (fun i a b => ?_) (fun i hi a b => by
          simp only [h0 i hi a b]) (hS a) (hS b) (fun i => norm_le_pi_norm (a - b) i) i
        rw [← smul_sub, inner_smul_left, conj_trivial]
        exact mul_nonpos_of_nonneg_of_nonpos hkn (hdis i a b)
      let T : (Fin M → E) → (Fin M → E) := fun Y => S fun i => g' i + (1 / n : ℝ) • ∑ j, A i j • F j (Y j)
      have hT : LipschitzWith (1 / 2) T := LipschitzWith.of_dist_le_mul fun Y Y' => by
        rw [dist_eq_norm, dist_eq_norm]
        refine (hlip _ _).trans ?_
        have : ‖(fun i => g' i + (1 / n : ℝ) • ∑ j, A i j • F j (Y j)) -
            (fun i => g' i + (1 / n : ℝ) • ∑ j, A i j • F j (Y' j))‖ ≤ 1 / n * (α * L * ‖Y - Y'‖) := by
          refine (pi_norm_le_iff_of_nonneg (by positivity)).2 fun i => ?_
          have := hAF Y Y' (1 / n) (by positivity) i
          rw [add_sub_add_left_eq_sub] at this
          simp only [Pi.sub_apply, add_sub_add_left_eq_sub]
          exact this
        refine (mul_le_mul_of_nonneg_left this (by positivity)).trans ?_
        have h3 : (κ + 1) * (1 / n * (α * L * ‖Y - Y'‖)) = (κ + 1) * (α * L) / n * ‖Y - Y'‖ := by ring
        rw [h3]
        refine mul_le_mul_of_nonneg_right ?_ (norm_nonneg _)
        rw [div_le_iff₀ hn0]
        push_cast
        linarith
      have hcon : ContractingWith (1 / 2) T := ⟨by norm_num, hT⟩
      obtain ⟨Y, hY⟩ : ∃ Y, T Y = Y := ⟨_, hcon.fixedPoint_isFixedPt⟩
      refine ⟨Y, fun i => ?_⟩
      have h1 := hS (fun i => g' i + (1 / n : ℝ) • ∑ j, A i j • F j (Y j)) i
      change T Y i = _ + ∑ j, A i j • (((k:ℝ) / n) • F j (T Y j)) at h1
      rw [hY] at h1
      rw [h1]
      conv_lhs => rw [add_assoc]
      rw [Finset.smul_sum, ← Finset.sum_add_distrib]
      congr 1
      refine Finset.sum_congr rfl fun j _ => ?_
      rw [smul_comm, ← smul_add, ← add_smul]
      congr 2
      push_cast; ring
  have hM0 : (n:ℝ) / n = 1 := div_self hn0.ne'
  obtain ⟨Y, hY⟩ := key n g
  exact ⟨Y, fun i => by rw [hY i]; simp only [hM0, one_smul]⟩

end Perturbed

section Taylor

variable {E : Type*} [NormedAddCommGroup E] [NormedSpace ℝ E]

/-- Taylor's formula with a bound of the last derivative on an interval. -/
theorem taylor_chain (n : ℕ) : ∀ (D : ℕ → ℝ → E) {t h K : ℝ}, (∀ k < n, ∀ s ∈ Set.Icc t (t + h),
    HasDerivWithinAt (D k) (D (k + 1) s) (Set.Icc t (t + h)) s) → (∀ s ∈ Set.Icc t (t + h), ‖D n s‖ ≤ K) →
    ∀ s ∈ Set.Icc 0 h, ‖D 0 (t + s) - ∑ k ∈ Finset.range n, (s ^ k / k.factorial) • D k t‖ ≤ K * (s ^ n / n.factorial) := by
  induction n with
  | zero =>
    intro D t h K _ hK s hs
    simpa using hK (t + s) ⟨by linarith [hs.1], by linarith [hs.2]⟩
  | succ n ih =>
    intro D t h K hD hK s hs
    have ih' := ih (fun k => D (k + 1)) (t := t) (h := h) (K := K) (fun k hk => hD (k + 1) (by omega)) hK
    have hder : ∀ s ∈ Set.Icc 0 h, HasDerivWithinAt (fun s => D 0 (t + s) - ∑ k ∈ Finset.range (n + 1), (s ^ k / k.factorial) • D k t)
        (D 1 (t + s) - ∑ k ∈ Finset.range n, (s ^ k / k.factorial) • D (k + 1) t) (Set.Icc 0 h) s := by
      intro s hs
      have h1 : HasDerivWithinAt (fun s => D 0 (t + s)) (D 1 (t + s)) (Set.Icc 0 h) s := by
        have := HasDerivWithinAt.scomp (h := fun s => t + s) (x := s)
          (hD 0 (by omega) (t + s) ⟨by linarith [hs.1], by linarith [hs.2]⟩)
          ((hasDerivWithinAt_id s (Set.Icc 0 h)).const_add t)
          (fun y hy => ⟨by linarith [hy.1], by linarith [hy.2]⟩)
        simpa [Function.comp_def] using this
      have h2 : HasDerivAt (fun s : ℝ => ∑ k ∈ Finset.range (n + 1), (s ^ k / k.factorial) • D k t)
          (∑ k ∈ Finset.range n, (s ^ k / k.factorial) • D (k + 1) t) s := by
        have : ∀ k, HasDerivAt (fun s : ℝ => (s ^ k / k.factorial) • D k t) (((k:ℝ) * s ^ (k - 1) / k.factorial) • D k t) s :=
          fun k => ((hasDerivAt_pow k s).div_const _).smul_const _
        have := HasDerivAt.fun_sum (u := Finset.range (n + 1)) fun k _ => this k
        refine this.congr_deriv ?_
        rw [Finset.sum_range_succ']
        simp only [Nat.cast_zero, zero_mul, zero_div, zero_smul, add_zero]
        refine Finset.sum_congr rfl fun k _ => ?_
        congr 1
        rw [Nat.factorial_succ]
        have : (k.factorial : ℝ) ≠ 0 := by positivity
        push_cast
        have : (k + 1 : ℝ) ≠ 0 := by positivity
        field_simp
      exact h1.sub h2.hasDerivWithinAt
    have hB : ∀ s : ℝ, HasDerivAt (fun s => K * (s ^ (n + 1) / (n + 1).factorial)) (K * (s ^ n / n.factorial)) s := by
      intro s
      refine (((hasDerivAt_pow (n + 1) s).div_const _).const_mul K).congr_deriv ?_
      rw [Nat.factorial_succ]
      have : (n.factorial : ℝ) ≠ 0 := by positivity
      push_cast
      have : (n + 1 : ℝ) ≠ 0 := by positivity
      field_simp
    refine image_norm_le_of_norm_deriv_right_le_deriv_boundary (a := 0) (b := h)
      (f' := fun s => D 1 (t + s) - ∑ k ∈ Finset.range n, (s ^ k / k.factorial) • D (k + 1) t)
      (fun s hs => (hder s hs).continuousWithinAt) (fun s hs => ?_) ?_ hB (fun s hs => ih' s ⟨hs.1, hs.2.le⟩) hs
    · exact (hder s ⟨hs.1, hs.2.le⟩).mono_of_mem_nhdsWithin (Icc_mem_nhdsGE_of_mem hs)
    · rw [Finset.sum_range_succ']
      simp

/-- The defect of a smooth function in a quadrature formula of a collocation method. -/
theorem quad_defect {M : ℕ} {x a : Fin M → ℝ} {ξ : ℝ} (hM : 0 < M) (hx : ∀ j, 0 ≤ x j ∧ x j ≤ 1) (hξ : 0 ≤ ξ ∧ ξ ≤ 1)
    (ha : ∀ k < M, ∑ j, a j * x j ^ k = ξ ^ (k + 1) / (k + 1)) (D : ℕ → ℝ → E) {t h K : ℝ} (hh : 0 ≤ h)
    (hD : ∀ k < M + 1, ∀ s ∈ Set.Icc t (t + h), HasDerivWithinAt (D k) (D (k + 1) s) (Set.Icc t (t + h)) s)
    (hK : ∀ s ∈ Set.Icc t (t + h), ‖D (M + 1) s‖ ≤ K) :
    ‖D 0 (t + h * ξ) - D 0 t - h • ∑ j, a j • D 1 (t + h * x j)‖ ≤ (1 + ∑ j, |a j|) * (K * h ^ (M + 1)) := by
  have hK0 : 0 ≤ K := (norm_nonneg _).trans (hK t ⟨le_rfl, by linarith⟩)
  have hin : ∀ y : ℝ, 0 ≤ y ∧ y ≤ 1 → h * y ∈ Set.Icc 0 h := fun y hy =>
    ⟨mul_nonneg hh hy.1, by nlinarith [hy.2]⟩
  have h0 := taylor_chain (M + 1) D hD hK (h * ξ) (hin ξ hξ)
  have h1 : ∀ j, _ := fun j => taylor_chain M (fun k => D (k + 1)) (t := t) (h := h) (K := K)
    (fun k hk => hD (k + 1) (by omega)) hK (h * x j) (hin _ (hx j))
  have hpow : ∀ (n : ℕ) (y : ℝ), 0 ≤ y ∧ y ≤ 1 → K * ((h * y) ^ n / n.factorial) ≤ K * h ^ n := by
    intro n y hy
    refine mul_le_mul_of_nonneg_left ?_ hK0
    have hf : (1:ℝ) ≤ n.factorial := by exact_mod_cast n.factorial_pos
    refine (div_le_self (by have := hy.1; positivity) hf).trans ?_
    rw [mul_pow]
    exact mul_le_of_le_one_right (by positivity) (pow_le_one₀ hy.1 hy.2)
  have heq : D 0 (t + h * ξ) - D 0 t - h • ∑ j, a j • D 1 (t + h * x j) =
      (D 0 (t + h * ξ) - ∑ k ∈ Finset.range (M + 1), ((h * ξ) ^ k / k.factorial) • D k t) -
      h • ∑ j, a j • (D 1 (t + h * x j) - ∑ k ∈ Finset.range M, ((h * x j) ^ k / k.factorial) • D (k + 1) t) := by
    have e : h • ∑ j, a j • ∑ k ∈ Finset.range M, ((h * x j) ^ k / k.factorial) • D (k + 1) t =
        ∑ k ∈ Finset.range M, ((h * ξ) ^ (k + 1) / (k + 1).factorial) • D (k + 1) t := by
      simp only [Finset.smul_sum, smul_smul]
      rw [Finset.sum_comm]
      refine Finset.sum_congr rfl fun k hk => ?_
      rw [← Finset.sum_smul]
      congr 1
      have := ha k (Finset.mem_range.1 hk)
      calc ∑ j, h * (a j * ((h * x j) ^ k / k.factorial)) = h ^ (k + 1) / k.factorial * ∑ j, a j * x j ^ k := by
            rw [Finset.mul_sum]
            exact Finset.sum_congr rfl fun j _ => by ring
        _ = _ := by
            rw [this, Nat.factorial_succ, mul_pow]
            have : (k.factorial : ℝ) ≠ 0 := by positivity
            push_cast
            have : (k + 1 : ℝ) ≠ 0 := by positivity
            field_simp
    simp only [smul_sub, Finset.sum_sub_distrib]
    rw [e, Finset.sum_range_succ']
    simp only [pow_zero, Nat.factorial_zero, Nat.cast_one, div_one, one_smul]
    abel
  rw [heq]
  refine (norm_sub_le _ _).trans ?_
  have b0 := h0.trans (hpow (M + 1) ξ hξ)
  have b1 : ‖h • ∑ j, a j • (D 1 (t + h * x j) - ∑ k ∈ Finset.range M, ((h * x j) ^ k / k.factorial) • D (k + 1) t)‖ ≤
      h * ∑ j, |a j| * (K * h ^ M) := by
    rw [norm_smul, Real.norm_eq_abs, abs_of_nonneg hh]
    refine mul_le_mul_of_nonneg_left ((norm_sum_le _ _).trans (Finset.sum_le_sum fun j _ => ?_)) hh
    rw [norm_smul, Real.norm_eq_abs]
    exact mul_le_mul_of_nonneg_left ((h1 j).trans (hpow M _ (hx j))) (abs_nonneg _)
  rw [← Finset.sum_mul] at b1
  rw [pow_succ] at b0 ⊢
  nlinarith

end Taylor

end QMat
