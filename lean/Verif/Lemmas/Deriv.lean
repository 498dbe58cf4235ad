import Verif.Lemmas.Interp

/-!
# Lemmas: the derivative matrices evaluate derivatives of the Lagrange basis
-/

namespace QMat

open Matrix Polynomial

namespace LagrangeApproximation

variable {n : ℕ} {L : LagrangeApproximation n}

theorem nodal_factor (x : Fin n → ℝ) (j : Fin n) :
    Lagrange.nodal Finset.univ x =
      (X - C (x j)) * Lagrange.nodal (Finset.univ.erase j) x :=
  Lagrange.nodal_eq_mul_nodal_erase (Finset.mem_univ j)

theorem basis_eq_C_mul (x : Fin n → ℝ) (j : Fin n) :
    Lagrange.basis Finset.univ x j =
      C (Lagrange.nodalWeight Finset.univ x j) * Lagrange.nodal (Finset.univ.erase j) x := by
  rw [Lagrange.basis_eq_prod_sub_inv_mul_nodal_div (Finset.mem_univ j)]
  congr 1
  exact (Lagrange.nodal_erase_eq_nodal_div (Finset.mem_univ j)).symm

theorem eval_nodal_erase_ne (x : Fin n → ℝ) {i j : Fin n} (h : i ≠ j) :
    (Lagrange.nodal (Finset.univ.erase j) x).eval (x i) = 0 :=
  Lagrange.eval_nodal_at_node (Finset.mem_erase.mpr ⟨h, Finset.mem_univ i⟩)

theorem eval_derivative_nodal_self (x : Fin n → ℝ) (i : Fin n) :
    (derivative (Lagrange.nodal Finset.univ x)).eval (x i) =
      (Lagrange.nodalWeight Finset.univ x i)⁻¹ := by
  rw [Lagrange.nodalWeight_eq_eval_derivative_nodal (Finset.mem_univ i), inv_inv]

/-- First derivative of the basis at another node. -/
theorem eval_derivative_basis_ne {x : Fin n → ℝ} (hx : Function.Injective x) {i j : Fin n}
    (h : i ≠ j) :
    (derivative (Lagrange.basis Finset.univ x j)).eval (x i) =
      Lagrange.nodalWeight Finset.univ x j / Lagrange.nodalWeight Finset.univ x i *
        (1 / (x i - x j)) := by
  have hne : x i - x j ≠ 0 := sub_ne_zero.mpr fun e => h (hx e)
  have h1 := eval_derivative_nodal_self x i
  rw [nodal_factor x j] at h1
  simp only [derivative_mul, derivative_sub, derivative_X, derivative_C, sub_zero, one_mul,
    eval_add, eval_mul, eval_sub, eval_X, eval_C, eval_nodal_erase_ne x h, zero_add] at h1
  rw [basis_eq_C_mul, derivative_mul, derivative_C, zero_mul, zero_add, eval_mul, eval_C]
  have h2 : eval (x i) (derivative (Lagrange.nodal (Finset.univ.erase j) x)) =
      (Lagrange.nodalWeight Finset.univ x i)⁻¹ / (x i - x j) := by
    rw [eq_div_iff hne, ← h1, mul_comm]
  rw [h2]
  ring

/-- Second derivative of the basis at another node. -/
theorem eval_derivative2_basis_ne {x : Fin n → ℝ} (hx : Function.Injective x) {i j : Fin n}
    (h : i ≠ j) :
    (derivative (derivative (Lagrange.basis Finset.univ x j))).eval (x i) =
      2 * (derivative (Lagrange.basis Finset.univ x j)).eval (x i) *
        ((derivative (Lagrange.basis Finset.univ x i)).eval (x i) - 1 / (x i - x j)) := by
  have hne : x i - x j ≠ 0 := sub_ne_zero.mpr fun e => h (hx e)
  have hwi : Lagrange.nodalWeight Finset.univ x i ≠ 0 :=
    Lagrange.nodalWeight_ne_zero hx.injOn (Finset.mem_univ i)
  -- second derivative of the nodal polynomial at `x i`, expanded at `j` and at `i`
  have e : ∀ k, eval (x i) (derivative (derivative (Lagrange.nodal Finset.univ x))) =
      2 * eval (x i) (derivative (Lagrange.nodal (Finset.univ.erase k) x)) +
      (x i - x k) * eval (x i) (derivative (derivative (Lagrange.nodal (Finset.univ.erase k) x))) := by
    intro k
    rw [nodal_factor x k]
    simp only [derivative_mul, derivative_sub, derivative_X, derivative_C, sub_zero, one_mul,
      eval_add, eval_mul, eval_sub, eval_X, eval_C, derivative_add]
    ring
  have ei := e i
  have ej := e j
  rw [sub_self, zero_mul, add_zero] at ei
  have d1 := eval_derivative_basis_ne hx h
  rw [d1]
  have b1 : ∀ k, eval (x i) (derivative (Lagrange.basis Finset.univ x k)) =
      Lagrange.nodalWeight Finset.univ x k *
        eval (x i) (derivative (Lagrange.nodal (Finset.univ.erase k) x)) := by
    intro k
    rw [basis_eq_C_mul, derivative_mul, derivative_C, zero_mul, zero_add, eval_mul, eval_C]
  have b2 : eval (x i) (derivative (derivative (Lagrange.basis Finset.univ x j))) =
      Lagrange.nodalWeight Finset.univ x j *
        eval (x i) (derivative (derivative (Lagrange.nodal (Finset.univ.erase j) x))) := by
    rw [basis_eq_C_mul]
    simp [derivative_mul]
  rw [b2, b1 i]
  rw [b1 j] at d1
  rw [ei] at ej
  have hg : eval (x i) (derivative (Lagrange.nodal (Finset.univ.erase j) x)) =
      (Lagrange.nodalWeight Finset.univ x i)⁻¹ / (x i - x j) := by
    have h1 := eval_derivative_nodal_self x i
    rw [nodal_factor x j] at h1
    simp only [derivative_mul, derivative_sub, derivative_X, derivative_C, sub_zero, one_mul,
      eval_add, eval_mul, eval_sub, eval_X, eval_C, eval_nodal_erase_ne x h, zero_add] at h1
    rw [eq_div_iff hne, ← h1, mul_comm]
  rw [hg] at ej
  have : eval (x i) (derivative (derivative (Lagrange.nodal (Finset.univ.erase j) x))) =
      (2 * eval (x i) (derivative (Lagrange.nodal (Finset.univ.erase i) x)) -
        2 * ((Lagrange.nodalWeight Finset.univ x i)⁻¹ / (x i - x j))) / (x i - x j) := by
    rw [eq_div_iff hne]
    linarith
  rw [this]
  field_simp

theorem sum_derivative_basis {x : Fin n → ℝ} (hx : Function.Injective x) (hn : 0 < n) (t : ℝ) :
    ∑ j, (derivative (Lagrange.basis Finset.univ x j)).eval t = 0 := by
  have : ∑ j, Lagrange.basis Finset.univ x j = 1 :=
    Lagrange.sum_basis hx.injOn ⟨⟨0, hn⟩, Finset.mem_univ _⟩
  rw [← eval_finsetSum, ← derivative_sum, this]
  simp

theorem sum_derivative2_basis {x : Fin n → ℝ} (hx : Function.Injective x) (hn : 0 < n) (t : ℝ) :
    ∑ j, (derivative (derivative (Lagrange.basis Finset.univ x j))).eval t = 0 := by
  have : ∑ j, Lagrange.basis Finset.univ x j = 1 :=
    Lagrange.sum_basis hx.injOn ⟨⟨0, hn⟩, Finset.mem_univ _⟩
  rw [← eval_finsetSum, ← derivative_sum, ← derivative_sum, this]
  simp

theorem dDiff_self (i : Fin L.nUniquePoints) : L.dDiff i i = 0 := by simp [dDiff]

theorem dDiff_ne (hL : L.WF) {i j : Fin L.nUniquePoints} (h : i ≠ j) :
    L.dDiff i j = 1 / (L.uniquePoints i - L.uniquePoints j) := by
  unfold dDiff
  rw [if_neg]
  exact sub_ne_zero.mpr fun e => h (hL.inj e)

theorem dBase_ne (hL : L.WF) {i j : Fin L.nUniquePoints} (h : i ≠ j) :
    L.dBase i j =
      (derivative (Lagrange.basis Finset.univ L.uniquePoints j)).eval (L.uniquePoints i) := by
  rw [dBase, dDiff_ne hL h, eval_derivative_basis_ne hL.inj h]
  obtain ⟨c, hc, hw⟩ := hL.bary
  rw [hw, hw, mul_div_mul_left _ _ hc]

theorem dBase_self (i : Fin L.nUniquePoints) : L.dBase i i = 0 := by
  rw [dBase, dDiff_self, mul_zero]

theorem sum_dBase (hL : L.WF) (i : Fin L.nUniquePoints) :
    ∑ k, L.dBase i k =
      -(derivative (Lagrange.basis Finset.univ L.uniquePoints i)).eval (L.uniquePoints i) := by
  have h := sum_derivative_basis hL.inj i.pos (L.uniquePoints i)
  rw [← Finset.add_sum_erase _ _ (Finset.mem_univ i)] at h ⊢
  rw [dBase_self, zero_add, ← eq_neg_of_add_eq_zero_right h]
  exact Finset.sum_congr rfl fun k hk => dBase_ne hL (Finset.ne_of_mem_erase hk).symm

theorem derivativeMatrix1U_eq (hL : L.WF) (i j : Fin L.nUniquePoints) :
    L.derivativeMatrix1U i j =
      (derivative (Lagrange.basis Finset.univ L.uniquePoints j)).eval (L.uniquePoints i) := by
  simp only [derivativeMatrix1U, fillDiagonalNegSum, Matrix.of_apply]
  split_ifs with h
  · subst h
    rw [sum_dBase hL, neg_neg]
  · exact dBase_ne hL h

theorem derivativeMatrix2U_eq (hL : L.WF) (i j : Fin L.nUniquePoints) :
    L.derivativeMatrix2U i j =
      (derivative (derivative (Lagrange.basis Finset.univ L.uniquePoints j))).eval
        (L.uniquePoints i) := by
  have off : ∀ j, i ≠ j → -2 * L.dBase i j * (L.dDiff i j + ∑ k, L.dBase i k) =
      (derivative (derivative (Lagrange.basis Finset.univ L.uniquePoints j))).eval
        (L.uniquePoints i) := by
    intro j h
    rw [eval_derivative2_basis_ne hL.inj h, sum_dBase hL, dBase_ne hL h, dDiff_ne hL h]
    ring
  simp only [derivativeMatrix2U, fillDiagonalNegSum, Matrix.of_apply]
  split_ifs with h
  · subst h
    have hs := sum_derivative2_basis hL.inj i.pos (L.uniquePoints i)
    rw [← Finset.add_sum_erase _ _ (Finset.mem_univ i)] at hs ⊢
    rw [dBase_self, mul_zero, zero_mul, zero_add, eq_neg_of_add_eq_zero_left hs]
    congr 1
    exact Finset.sum_congr rfl fun k hk => off k (Finset.ne_of_mem_erase hk).symm
  · exact off j h

/-- A linear functional of polynomials of degree `< m` is determined by the basis. -/
theorem eval_iterate_eq_sum (hL : L.WF) (φ : ℝ[X] →ₗ[ℝ] ℝ) (p : ℝ[X])
    (hp : p.degree < L.nUniquePoints) :
    ∑ u, φ (Lagrange.basis Finset.univ L.uniquePoints u) * p.eval (L.uniquePoints u) = φ p := by
  have h := Lagrange.eq_interpolate (s := Finset.univ) (v := L.uniquePoints) (f := p)
    hL.inj.injOn (by simpa using hp)
  conv_rhs => rw [h]
  rw [Lagrange.interpolate_apply, map_sum]
  refine Finset.sum_congr rfl fun u _ => ?_
  rw [← smul_eq_C_mul, map_smul, smul_eq_mul, mul_comm]

/-- Evaluation of the first derivative as a linear functional. -/
noncomputable def evalD1 (t : ℝ) : ℝ[X] →ₗ[ℝ] ℝ := (Polynomial.leval t).comp derivative

/-- Evaluation of the second derivative as a linear functional. -/
noncomputable def evalD2 (t : ℝ) : ℝ[X] →ₗ[ℝ] ℝ :=
  (Polynomial.leval t).comp (derivative.comp derivative)

theorem derivative1_exact (hL : L.WF) (p : ℝ[X]) (hp : p.degree < L.nUniquePoints)
    (i : Fin L.nUniquePoints) :
    ∑ u, L.derivativeMatrix1U i u * p.eval (L.uniquePoints u) =
      (derivative p).eval (L.uniquePoints i) := by
  rw [show (derivative p).eval (L.uniquePoints i) = evalD1 (L.uniquePoints i) p from rfl,
    ← eval_iterate_eq_sum hL _ p hp]
  exact Finset.sum_congr rfl fun u _ => by rw [derivativeMatrix1U_eq hL]; rfl

theorem derivative2_exact (hL : L.WF) (p : ℝ[X]) (hp : p.degree < L.nUniquePoints)
    (i : Fin L.nUniquePoints) :
    ∑ u, L.derivativeMatrix2U i u * p.eval (L.uniquePoints u) =
      (derivative (derivative p)).eval (L.uniquePoints i) := by
  rw [show (derivative (derivative p)).eval (L.uniquePoints i) = evalD2 (L.uniquePoints i) p
    from rfl, ← eval_iterate_eq_sum hL _ p hp]
  exact Finset.sum_congr rfl fun u _ => by rw [derivativeMatrix2U_eq hL]; rfl

end LagrangeApproximation

end QMat
