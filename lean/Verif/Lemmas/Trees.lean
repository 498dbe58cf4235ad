import Verif.Lemmas.AStable
import Verif.Spec.RootedTree

/-!
# Order conditions for all rooted trees from the simplifying assumptions
-/

namespace QMat

open Polynomial Spec Matrix

theorem RTree.order_pos (t : RTree) : 0 < t.order := by
  cases t with
  | leaf => exact Nat.one_pos
  | graft t s => exact Nat.add_pos_left (RTree.order_pos t) _

theorem RTree.childDensity_pos (t : RTree) : 0 < t.childDensity := by
  induction t with
  | leaf => exact Nat.one_pos
  | graft t s iht ihs => exact Nat.mul_pos iht (Nat.mul_pos (RTree.order_pos s) ihs)

theorem stageWeight_graft {M : ℕ} (A : Matrix (Fin M) (Fin M) ℝ) (t s : RTree) (i : Fin M) :
    (t.graft s).stageWeight A i = t.stageWeight A i * (A *ᵥ s.stageWeight A) i := rfl

section

variable {M η ζ p : ℕ} {A : Matrix (Fin M) (Fin M) ℝ} {b c : Fin M → ℝ}

/-- With `C(η)` the stage weights of small trees are powers of the nodes. -/
theorem stageWeight_of_C (hC : ∀ k < η, ∀ i, (A *ᵥ fun j => c j ^ k) i = c i ^ (k + 1) / (k + 1 : ℕ)) (t : RTree) :
    (t.order ≤ η + 1 → ∀ i, t.stageWeight A i = c i ^ (t.order - 1) / t.childDensity) ∧
    (t.order ≤ η → ∀ i, (A *ᵥ t.stageWeight A) i = c i ^ t.order / t.density) := by
  have step : ∀ t : RTree, (t.order ≤ η + 1 → ∀ i, t.stageWeight A i = c i ^ (t.order - 1) / t.childDensity) →
      (t.order ≤ η → ∀ i, (A *ᵥ t.stageWeight A) i = c i ^ t.order / t.density) := by
    intro t h ht i
    have hp := RTree.order_pos t
    have e : t.stageWeight A = (1 / (t.childDensity : ℝ)) • fun j => c j ^ (t.order - 1) := by
      funext j
      rw [h (by omega) j, Pi.smul_apply, smul_eq_mul]
      ring
    rw [e, mulVec_smul, Pi.smul_apply, hC _ (by omega), smul_eq_mul, Nat.sub_add_cancel hp, RTree.density]
    have h1 : (t.order : ℝ) ≠ 0 := by exact_mod_cast hp.ne'
    have h2 : (t.childDensity : ℝ) ≠ 0 := by exact_mod_cast (RTree.childDensity_pos t).ne'
    push_cast
    field_simp
  have main : t.order ≤ η + 1 → ∀ i, t.stageWeight A i = c i ^ (t.order - 1) / t.childDensity := by
    induction t with
    | leaf => intro _ i; simp [RTree.stageWeight, RTree.order, RTree.childDensity]
    | graft t s iht ihs =>
      intro h i
      have hpt := RTree.order_pos t
      have hps := RTree.order_pos s
      simp only [RTree.order] at h
      rw [stageWeight_graft, iht (by omega), step s (fun h => ihs h) (by omega), RTree.order, RTree.childDensity,
        RTree.density]
      have : t.order + s.order - 1 = (t.order - 1) + s.order := by omega
      rw [this, pow_add]
      push_cast
      rw [div_mul_div_comm]
  exact ⟨main, step t main⟩

/-- Butcher's theorem on the simplifying assumptions `B(p)`, `C(η)`, `D(ζ)`, with a power of the nodes. -/
theorem weighted_trees (hB : ∀ k < p, ∑ i, b i * c i ^ k = 1 / (k + 1 : ℕ))
    (hC : ∀ k < η, ∀ i, (A *ᵥ fun j => c j ^ k) i = c i ^ (k + 1) / (k + 1 : ℕ))
    (hD : ∀ k < ζ, ∀ f : Fin M → ℝ,
      ∑ i, b i * c i ^ k * (A *ᵥ f) i = ∑ i, b i * ((1 - c i ^ (k + 1)) / (k + 1 : ℕ)) * f i)
    (h1 : p ≤ η + ζ + 1) (h2 : p ≤ 2 * η + 2) (t : RTree) (k : ℕ) (hk : t.order + k ≤ p) :
    ∑ i, b i * c i ^ k * t.stageWeight A i = 1 / ((t.order + k : ℕ) * t.childDensity) := by
  induction t generalizing k with
  | leaf =>
    simp only [RTree.stageWeight, RTree.order, RTree.childDensity, mul_one, Nat.cast_one] at hk ⊢
    rw [hB k (by omega), add_comm]
  | graft t s iht ihs =>
    simp only [RTree.order] at hk
    have hpt := RTree.order_pos t
    have hps := RTree.order_pos s
    have ct : (t.childDensity : ℝ) ≠ 0 := by exact_mod_cast (RTree.childDensity_pos t).ne'
    have cs : (s.childDensity : ℝ) ≠ 0 := by exact_mod_cast (RTree.childDensity_pos s).ne'
    have os : (s.order : ℝ) ≠ 0 := by exact_mod_cast hps.ne'
    rw [RTree.order, RTree.childDensity]
    by_cases hs : s.order ≤ η
    · have e : ∀ i, b i * c i ^ k * (t.graft s).stageWeight A i =
          1 / (s.density : ℝ) * (b i * c i ^ (k + s.order) * t.stageWeight A i) := by
        intro i
        rw [stageWeight_graft, (stageWeight_of_C hC s).2 hs, pow_add]
        ring
      rw [Finset.sum_congr rfl fun i _ => e i, ← Finset.mul_sum, iht _ (by omega), RTree.density]
      have e2 : t.order + (k + s.order) = t.order + s.order + k := by ring
      rw [e2]
      push_cast
      rw [div_mul_div_comm]
      congr 1
      · ring
      · ring
    · have e : ∀ i, b i * c i ^ k * (t.graft s).stageWeight A i =
          1 / (t.childDensity : ℝ) * (b i * c i ^ (k + (t.order - 1)) * (A *ᵥ s.stageWeight A) i) := by
        intro i
        rw [stageWeight_graft, (stageWeight_of_C hC t).1 (by omega), pow_add]
        ring
      rw [Finset.sum_congr rfl fun i _ => e i, ← Finset.mul_sum, hD _ (by omega)]
      set r := k + (t.order - 1) with hr
      have e2 : ∀ i, b i * ((1 - c i ^ (r + 1)) / (r + 1 : ℕ)) * s.stageWeight A i =
          1 / ((r + 1 : ℕ) : ℝ) * (b i * c i ^ 0 * s.stageWeight A i - b i * c i ^ (r + 1) * s.stageWeight A i) := by
        intro i
        ring
      rw [Finset.sum_congr rfl fun i _ => e2 i, ← Finset.mul_sum, Finset.sum_sub_distrib, ihs 0 (by omega),
        ihs (r + 1) (by omega)]
      have e3 : t.order + s.order + k = s.order + (r + 1) := by omega
      rw [e3]
      have : ((r:ℝ) + 1) ≠ 0 := by positivity
      have : ((s.order : ℝ) + (r + 1)) ≠ 0 := by positivity
      push_cast
      field_simp
      ring

/-- The quadrature order of `M` nodes is at most `2M`. -/
theorem quad_order_le (hb : ∀ f : ℝ[X], f.degree < p → ∑ i, b i * f.eval (c i) = polyInt f 0 1) : p ≤ 2 * M := by
  by_contra hlt
  set N := Lagrange.nodal Finset.univ c with hN
  have hNd : N.natDegree = M := by rw [hN, Lagrange.natDegree_nodal]; simp
  have hN0 : N ≠ 0 := Lagrange.nodal_ne_zero
  have h := hb (N ^ 2) (by
    refine lt_of_le_of_lt degree_le_natDegree ?_
    rw [natDegree_pow, hNd]
    exact_mod_cast (by omega : 2 * M < p))
  have h2 : 0 < polyInt (N ^ 2) 0 1 := polyInt_pos (pow_ne_zero 2 hN0) (by norm_num) fun t _ _ => by
    rw [eval_pow]; positivity
  rw [← h] at h2
  refine h2.ne' (Finset.sum_eq_zero fun i _ => ?_)
  rw [eval_pow, hN, Lagrange.eval_nodal_at_node (Finset.mem_univ i)]
  simp

/-- The order conditions of a collocation tableau for all rooted trees, up to the order of its quadrature. -/
theorem collocation_treeOrder (hc : Function.Injective c)
    (hA : ∀ f : ℝ[X], f.degree < M → ∀ i, (A *ᵥ vals f c) i = polyInt f 0 (c i))
    (hb : ∀ f : ℝ[X], f.degree < p → ∑ i, b i * f.eval (c i) = polyInt f 0 1) (t : RTree) (ht : t.order ≤ p) :
    t.elementaryWeight A b = 1 / t.density := by
  have hpM := quad_order_le hb
  have hpow : ∀ k : ℕ, (X ^ k : ℝ[X]).degree = k := fun k => degree_X_pow k
  have h := weighted_trees (A := A) (b := b) (c := c) (η := M) (ζ := p - M) (p := p)
    (fun k hk => by
      have := hb (X ^ k) (by rw [hpow]; exact_mod_cast hk)
      rw [polyInt_X_pow] at this
      simpa using this)
    (fun k hk i => by
      have := hA (X ^ k) (by rw [hpow]; exact_mod_cast hk) i
      rw [polyInt_X_pow] at this
      have e : vals (X ^ k : ℝ[X]) c = fun j => c j ^ k := by funext j; simp [vals]
      rw [e] at this
      simpa using this)
    (fun k hk f => by
      have h1 : ((k:ℝ) + 1) ≠ 0 := by positivity
      have := coll_adjoint hc hA hb (X ^ k) (C (1 / ((k + 1 : ℕ) : ℝ)) * (1 - X ^ (k + 1))) k
        (degree_X_pow_le k) (by omega)
        (by
          rw [derivative_C_mul, derivative_sub, derivative_one, derivative_X_pow]
          simp only [Nat.add_sub_cancel, zero_sub, mul_neg, ← mul_assoc, ← C_mul]
          rw [show (1 / ((k + 1 : ℕ) : ℝ) * ((k + 1 : ℕ) : ℝ)) = 1 by push_cast; field_simp]
          simp)
        (by
          rw [← smul_eq_C_mul]
          refine (degree_smul_le _ _).trans ((degree_sub_le _ _).trans (max_le ?_ (degree_X_pow_le _)))
          rw [degree_one]
          exact_mod_cast Nat.zero_le _)
        (by simp) f
      simp only [eval_pow, eval_X, eval_mul, eval_C, eval_sub, eval_one] at this
      rw [this]
      refine Finset.sum_congr rfl fun i _ => ?_
      ring)
    (by omega) (by omega) t 0 (by omega)
  simp only [pow_zero, mul_one, add_zero] at h
  rw [RTree.elementaryWeight, dotProduct, h, RTree.density]
  push_cast
  rfl

end

/-- The bushy tree: a root with `k` leaves. -/
def bushy : ℕ → RTree
  | 0 => .leaf
  | k + 1 => (bushy k).graft .leaf

theorem bushy_order (k : ℕ) : (bushy k).order = k + 1 := by
  induction k with
  | zero => rfl
  | succ k ih => rw [bushy, RTree.order, ih, RTree.order]

theorem bushy_density (k : ℕ) : (bushy k).density = k + 1 := by
  have : (bushy k).childDensity = 1 := by
    induction k with
    | zero => rfl
    | succ k ih => rw [bushy, RTree.childDensity, ih]; rfl
  rw [RTree.density, this, bushy_order, mul_one]

theorem bushy_weight {M : ℕ} (A : Matrix (Fin M) (Fin M) ℝ) (k : ℕ) (i : Fin M) :
    (bushy k).stageWeight A i = (A *ᵥ fun _ => 1) i ^ k := by
  induction k with
  | zero => simp [bushy, RTree.stageWeight]
  | succ k ih => rw [bushy, stageWeight_graft, ih, pow_succ]; rfl

end QMat
