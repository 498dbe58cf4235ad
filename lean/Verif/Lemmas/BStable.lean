import Verif.Lemmas.AStable
import Verif.Spec.RKStep
import Mathlib.Analysis.InnerProductSpace.PiL2
import Mathlib.LinearAlgebra.BilinearForm.Basic

/-!
# Algebraic stability: contractivity and quadratic invariants on nonlinear problems
-/

namespace QMat

open Polynomial Spec Matrix

section Step

variable {s : ℕ} {E : Type*} [AddCommGroup E] [Module ℝ E] {c b : Fin s → ℝ} {A : Matrix (Fin s) (Fin s) ℝ}

/-- A symmetric bilinear form after a step. -/
theorem step_form (B : LinearMap.BilinForm ℝ E) (hB : ∀ x y, B x y = B y x) {h : ℝ} {u u1 : E} {Y F : Fin s → E}
    (hY : ∀ i, Y i = u + h • ∑ j, A i j • F j) (h1 : u1 = u + h • ∑ i, b i • F i) :
    B u1 u1 = B u u + 2 * h * ∑ i, b i * B (Y i) (F i) - h ^ 2 * ∑ i, ∑ j, stabMatrix A b i j * B (F i) (F j) := by
  have e1 : ∀ (a : Fin s → ℝ) (x : E), B (∑ j, a j • F j) x = ∑ j, a j * B (F j) x := by
    intro a x
    rw [map_sum, LinearMap.sum_apply]
    exact Finset.sum_congr rfl fun j _ => by rw [map_smul, LinearMap.smul_apply, smul_eq_mul]
  have hYF : ∀ i, B (Y i) (F i) = B u (F i) + h * ∑ j, A i j * B (F j) (F i) := by
    intro i
    rw [hY i, map_add, LinearMap.add_apply, map_smul, LinearMap.smul_apply, smul_eq_mul, e1]
  have hu1 : B u1 u1 = B u u + 2 * h * ∑ i, b i * B u (F i) + h ^ 2 * ∑ i, ∑ j, b i * b j * B (F i) (F j) := by
    have e2 : B u (∑ i, b i • F i) = ∑ i, b i * B u (F i) := by
      rw [hB, e1]
      exact Finset.sum_congr rfl fun i _ => by rw [hB]
    have e3 : B (∑ i, b i • F i) (∑ i, b i • F i) = ∑ i, ∑ j, b i * b j * B (F i) (F j) := by
      rw [e1]
      refine Finset.sum_congr rfl fun i _ => ?_
      rw [hB, e1, Finset.mul_sum]
      exact Finset.sum_congr rfl fun j _ => by rw [hB]; ring
    rw [h1]
    simp only [map_add, LinearMap.add_apply, map_smul, LinearMap.smul_apply, smul_eq_mul]
    rw [hB (∑ i, b i • F i) u, e2, e3]
    ring
  have hM : ∑ i, ∑ j, stabMatrix A b i j * B (F i) (F j) =
      2 * ∑ i, b i * ∑ j, A i j * B (F j) (F i) - ∑ i, ∑ j, b i * b j * B (F i) (F j) := by
    have e4 : ∑ i, ∑ j, b j * A j i * B (F i) (F j) = ∑ i, b i * ∑ j, A i j * B (F j) (F i) := by
      rw [Finset.sum_comm]
      refine Finset.sum_congr rfl fun i _ => ?_
      rw [Finset.mul_sum]
      exact Finset.sum_congr rfl fun j _ => by ring
    have e5 : ∑ i, ∑ j, b i * A i j * B (F i) (F j) = ∑ i, b i * ∑ j, A i j * B (F j) (F i) := by
      refine Finset.sum_congr rfl fun i _ => ?_
      rw [Finset.mul_sum]
      exact Finset.sum_congr rfl fun j _ => by rw [hB]; ring
    have e6 : ∀ i j, stabMatrix A b i j * B (F i) (F j) =
        b i * A i j * B (F i) (F j) + b j * A j i * B (F i) (F j) - b i * b j * B (F i) (F j) := fun i j => by
      simp only [stabMatrix, of_apply]; ring
    simp only [e6, Finset.sum_sub_distrib, Finset.sum_add_distrib]
    rw [e4, e5]
    ring
  have e7 : ∑ i, b i * B (Y i) (F i) =
      ∑ i, b i * B u (F i) + h * ∑ i, b i * ∑ j, A i j * B (F j) (F i) := by
    rw [Finset.mul_sum, ← Finset.sum_add_distrib]
    exact Finset.sum_congr rfl fun i _ => by rw [hYF]; ring
  rw [hu1, hM, e7]
  ring

end Step

/-- A positive semidefinite form on vectors of an inner product space. -/
theorem posSemidef_inner {s : ℕ} {E : Type*} [NormedAddCommGroup E] [InnerProductSpace ℝ E]
    {P : Matrix (Fin s) (Fin s) ℝ} (hP : ∀ v : Fin s → ℝ, 0 ≤ ∑ i, ∑ j, P i j * (v i * v j)) (F : Fin s → E) :
    0 ≤ ∑ i, ∑ j, P i j * inner ℝ (F i) (F j) := by
  set V := Submodule.span ℝ (Set.range F) with hV
  let G : Fin s → V := fun i => ⟨F i, Submodule.subset_span ⟨i, rfl⟩⟩
  have hfin : FiniteDimensional ℝ V := FiniteDimensional.span_of_finite ℝ (Set.finite_range F)
  let e := stdOrthonormalBasis ℝ V
  have hin : ∀ i j, inner ℝ (F i) (F j) = ∑ k, inner ℝ (G i) (e k) * inner ℝ (G j) (e k) := by
    intro i j
    have h1 : inner ℝ (F i) (F j) = inner ℝ (G i) (G j) := rfl
    rw [h1, ← e.sum_inner_mul_inner (G i) (G j)]
    exact Finset.sum_congr rfl fun k _ => by rw [real_inner_comm (e k) (G j)]
  simp only [hin, Finset.mul_sum]
  have : ∑ i, ∑ j, ∑ k, P i j * (inner ℝ (G i) (e k) * inner ℝ (G j) (e k)) =
      ∑ k, ∑ i, ∑ j, P i j * (inner ℝ (G i) (e k) * inner ℝ (G j) (e k)) := by
    conv_rhs => rw [Finset.sum_comm]
    exact Finset.sum_congr rfl fun i _ => Finset.sum_comm
  rw [this]
  exact Finset.sum_nonneg fun k _ => hP fun i => inner ℝ (G i) (e k)

section Step

variable {s : ℕ} {c b : Fin s → ℝ} {A : Matrix (Fin s) (Fin s) ℝ}

/-- Algebraically stable methods do not increase the distance of two solutions of a dissipative problem. -/
theorem step_contractive {E : Type*} [NormedAddCommGroup E] [InnerProductSpace ℝ E]
    (hb : ∀ i, 0 ≤ b i) (hP : ∀ v : Fin s → ℝ, 0 ≤ ∑ i, ∑ j, stabMatrix A b i j * (v i * v j))
    {f : ℝ → E → E} (hf : ∀ t x y, inner ℝ (f t x - f t y) (x - y) ≤ 0) {t h : ℝ} (hh : 0 ≤ h) {u v u1 v1 : E}
    {Y Z : Fin s → E} (hu : RKStep c A b f t h u Y u1) (hv : RKStep c A b f t h v Z v1) : ‖u1 - v1‖ ≤ ‖u - v‖ := by
  have hd := step_form (A := A) (b := b) (innerₗ E : LinearMap.BilinForm ℝ E)
    (fun x y => real_inner_comm y x) (h := h) (u := u - v) (u1 := u1 - v1) (Y := fun i => Y i - Z i)
    (F := fun i => f (t + h * c i) (Y i) - f (t + h * c i) (Z i))
    (fun i => by
      simp only [smul_sub, Finset.sum_sub_distrib]
      rw [hu.stages i, hv.stages i]
      abel)
    (by
      simp only [smul_sub, Finset.sum_sub_distrib]
      rw [hu.result, hv.result]
      abel)
  simp only [innerₗ_apply_apply, real_inner_self_eq_norm_sq] at hd
  have h1 : ∑ i, b i * inner ℝ (Y i - Z i) (f (t + h * c i) (Y i) - f (t + h * c i) (Z i)) ≤ 0 :=
    Finset.sum_nonpos fun i _ => mul_nonpos_of_nonneg_of_nonpos (hb i) (by rw [real_inner_comm]; exact hf _ _ _)
  have h2 := posSemidef_inner hP fun i => f (t + h * c i) (Y i) - f (t + h * c i) (Z i)
  have h3 := mul_nonneg (sq_nonneg h) h2
  have h4 := mul_nonpos_of_nonneg_of_nonpos (mul_nonneg zero_le_two hh) h1
  have h5 : ‖u1 - v1‖ ^ 2 ≤ ‖u - v‖ ^ 2 := by linarith
  exact abs_le_of_sq_le_sq' h5 (norm_nonneg _) |>.2

/-- Methods with vanishing stability matrix keep quadratic invariants. -/
theorem step_invariant {E : Type*} [AddCommGroup E] [Module ℝ E] (hP : stabMatrix A b = 0)
    (B : LinearMap.BilinForm ℝ E) (hB : ∀ x y, B x y = B y x)
    {f : ℝ → E → E} (hf : ∀ t x, B x (f t x) = 0) {t h : ℝ} {u u1 : E} {Y : Fin s → E}
    (hu : RKStep c A b f t h u Y u1) : B u1 u1 = B u u := by
  rw [step_form B hB hu.stages hu.result, hP]
  simp [hf]

end Step

section Collocation

variable {M : ℕ} {x w : Fin M → ℝ} {A : Matrix (Fin M) (Fin M) ℝ}

/-- The polynomial with derivative `v` at the nodes that vanishes at zero. -/
theorem coll_poly (hc : Function.Injective x)
    (hA : ∀ f : ℝ[X], f.degree < M → ∀ i, ∑ j, A i j * f.eval (x j) = polyInt f 0 (x i))
    (hb : ∀ f : ℝ[X], f.degree < M → ∑ i, w i * f.eval (x i) = polyInt f 0 1) (v : Fin M → ℝ) :
    ∃ U : ℝ[X], U.natDegree ≤ M ∧ U.eval 0 = 0 ∧ (∀ i, (derivative U).eval (x i) = v i) ∧
      (∀ i, U.eval (x i) = ∑ j, A i j * v j) ∧ U.eval 1 = ∑ j, w j * v j := by
  set f := Lagrange.interpolate Finset.univ x v with hf
  have hfd : f.degree < M := by
    have := Lagrange.degree_interpolate_lt (s := Finset.univ) v (v := x) hc.injOn
    rwa [Finset.card_univ, Fintype.card_fin] at this
  have hfe : ∀ i, f.eval (x i) = v i := fun i =>
    Lagrange.eval_interpolate_at_node v hc.injOn (Finset.mem_univ i)
  obtain ⟨G, hG, hGd, hGe⟩ := exists_antideriv f hfd 0
  refine ⟨G, ?_, by rw [← hGe]; simp [polyInt], fun i => by simp [hG, hfe], fun i => ?_, ?_⟩
  · by_cases h0 : G = 0
    · simp [h0]
    · have := (natDegree_lt_iff_degree_lt h0).mpr hGd
      omega
  · have := hA f hfd i
    simp only [hfe] at this
    rw [← hGe, ← this]
  · have := hb f hfd
    simp only [hfe] at this
    rw [← hGe, ← this]

theorem stabMatrix_form (v : Fin M → ℝ) : ∑ i, ∑ j, stabMatrix A w i j * (v i * v j) =
    2 * ∑ i, w i * (v i * ∑ j, A i j * v j) - (∑ i, w i * v i) ^ 2 := by
  have e1 : ∀ i j, stabMatrix A w i j * (v i * v j) =
      w i * (v i * (A i j * v j)) + w j * (v j * (A j i * v i)) - (w i * v i) * (w j * v j) := fun i j => by
    simp only [stabMatrix, of_apply]; ring
  simp only [e1, Finset.sum_sub_distrib, Finset.sum_add_distrib]
  rw [Finset.sum_comm (f := fun i j => w j * (v j * (A j i * v i))), sq, Finset.sum_mul_sum]
  simp only [Finset.mul_sum]
  have : ∀ a : ℝ, a + a = 2 * a := fun a => by ring
  rw [this, Finset.mul_sum]
  simp only [Finset.mul_sum]

/-- Right Radau (and Gauss) nodes: the stability matrix is positive semidefinite. -/
theorem collocation_algebraic (hM : 0 < M) (hc : Function.Injective x)
    (hA : ∀ f : ℝ[X], f.degree < M → ∀ i, ∑ j, A i j * f.eval (x j) = polyInt f 0 (x i))
    (hb : ∀ f : ℝ[X], f.degree < M → ∑ i, w i * f.eval (x i) = polyInt f 0 1) (hup : QuadUpper x w (2 * M - 1))
    (v : Fin M → ℝ) : 0 ≤ ∑ i, ∑ j, stabMatrix A w i j * (v i * v j) := by
  obtain ⟨U, hU, hU0, hUd, hUx, hU1⟩ := coll_poly hc hA hb v
  have hU' : (derivative U).natDegree ≤ M - 1 := (natDegree_derivative_le U).trans (by omega)
  have h2 : 2 * M - 1 = M + (M - 1) := by omega
  have h := hup (U * derivative U + 0 * derivative 0) (by
      simp only [zero_mul, add_zero]
      rw [h2]
      exact natDegree_mul_le.trans (Nat.add_le_add hU hU')) (by
      simp only [zero_mul, add_zero]
      rw [h2, coeff_mul_add_eq_of_natDegree_le hU hU', coeff_derivative_top U hM]
      nlinarith [mul_nonneg (mul_self_nonneg (U.coeff M)) (Nat.cast_nonneg (α := ℝ) M)])
  rw [energy, hU0, hU1] at h
  simp only [eval_zero, zero_mul, add_zero, eval_mul, hUd, hUx] at h
  rw [stabMatrix_form]
  have e : ∑ i, w i * ((∑ j, A i j * v j) * v i) = ∑ i, w i * (v i * ∑ j, A i j * v j) :=
    Finset.sum_congr rfl fun i _ => by ring
  rw [e] at h
  nlinarith

/-- Gauss nodes: the stability matrix vanishes. -/
theorem collocation_symplectic (hM : 0 < M) (hc : Function.Injective x)
    (hA : ∀ f : ℝ[X], f.degree < M → ∀ i, ∑ j, A i j * f.eval (x j) = polyInt f 0 (x i))
    (hex : ∀ F : ℝ[X], F.degree < (2 * M : ℕ) → ∑ i, w i * F.eval (x i) = polyInt F 0 1) :
    stabMatrix A w = 0 := by
  classical
  have hb : ∀ f : ℝ[X], f.degree < M → ∑ i, w i * f.eval (x i) = polyInt f 0 1 := fun f hf =>
    hex f (hf.trans_le (by exact_mod_cast (by omega : M ≤ 2 * M)))
  ext k l
  obtain ⟨U, hU, hU0, hUd, hUx, hU1⟩ := coll_poly hc hA hb (Pi.single k 1)
  obtain ⟨V, hV, hV0, hVd, hVx, hV1⟩ := coll_poly hc hA hb (Pi.single l 1)
  have hU' : (derivative U).natDegree ≤ M - 1 := (natDegree_derivative_le U).trans (by omega)
  have hV' : (derivative V).natDegree ≤ M - 1 := (natDegree_derivative_le V).trans (by omega)
  have hd : (derivative U * V + U * derivative V).natDegree ≤ M + (M - 1) :=
    natDegree_add_le_of_degree_le (natDegree_mul_le.trans (by omega)) (natDegree_mul_le.trans (by omega))
  have h := hex (derivative U * V + U * derivative V) (lt_of_le_of_lt degree_le_natDegree (by
    exact_mod_cast (by omega : (derivative U * V + U * derivative V).natDegree < 2 * M)))
  rw [← derivative_mul, polyInt_derivative, derivative_mul] at h
  simp only [eval_add, eval_mul, hU0, hV0, hU1, hV1, hUd, hVd, hUx, hVx, Pi.single_apply, mul_ite, mul_one, mul_zero,
    Finset.sum_ite_eq', Finset.mem_univ, if_true, sub_zero, ite_mul, one_mul, zero_mul, mul_add,
    Finset.sum_add_distrib] at h
  simp only [stabMatrix, of_apply, Matrix.zero_apply]
  linarith

end Collocation

end QMat
