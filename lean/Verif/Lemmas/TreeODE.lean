import Verif.Lemmas.SDCTransfer
import Mathlib.Analysis.Calculus.ContDiff.Operations
import Mathlib.Analysis.Calculus.Deriv.Prod

/-!
# The polynomial differential equation of the rooted trees

For the trees with up to `m` vertices: the component of a tree has as derivative the product of the components of the children of its
root. Both the exact solution from zero and all Runge-Kutta steps from zero are known.
-/

namespace QMat.Spec

open RTree

theorem child_mem {m : ℕ} (τ : upTo m) (j : Fin (unnode τ.1).1) : (unnode τ.1).2 j ∈ upTo m := by
  have h1 := (mem_upTo m _).1 τ.2
  rw [← node_unnode τ.1, order_node] at h1
  have : ((unnode τ.1).2 j).order ≤ ∑ j, ((unnode τ.1).2 j).order :=
    Finset.single_le_sum (f := fun j => ((unnode τ.1).2 j).order) (fun _ _ => Nat.zero_le _)
      (Finset.mem_univ j)
  exact (mem_upTo m _).2 (by omega)

/-- The right-hand side. -/
noncomputable def treeField (m : ℕ) (u : upTo m → ℝ) : upTo m → ℝ :=
  fun τ => ∏ j, u ⟨(unnode τ.1).2 j, child_mem τ j⟩

theorem treeField_contDiff (m : ℕ) {n : WithTop ℕ∞} : ContDiff ℝ n (treeField m) := by
  refine contDiff_pi.2 fun τ => ?_
  unfold treeField
  exact contDiff_prod fun j _ => contDiff_apply ℝ ℝ _

/-- The exact solution from zero. -/
noncomputable def treeSol (m : ℕ) (t : ℝ) : upTo m → ℝ := fun τ => t ^ τ.1.order * (1 / τ.1.density : ℝ)

theorem treeField_apply {m : ℕ} {h : ℝ} {w w' : RTree → ℝ}
    (hw' : ∀ k (v : Fin k → RTree), w' (node k v) = ∏ j, w (v j)) (τ : upTo m) :
    treeField m (fun τ => h ^ τ.1.order * w τ.1) τ = h ^ (τ.1.order - 1) * w' τ.1 := by
  unfold treeField
  have h1 : w' τ.1 = ∏ j, w ((unnode τ.1).2 j) := by
    rw [← hw', node_unnode]
  have h2 : τ.1.order - 1 = ∑ j, ((unnode τ.1).2 j).order := by
    have := order_node _ (unnode τ.1).2
    rw [node_unnode] at this
    omega
  rw [Finset.prod_mul_distrib, Finset.prod_pow_eq_pow_sum, h1, h2]

theorem treeSol_solves (m : ℕ) (t0 T : ℝ) : Solves (fun _ => treeField m) (treeSol m) t0 T := by
  intro t _
  refine HasDerivAt.hasDerivWithinAt (hasDerivAt_pi.2 fun τ => ?_)
  have h1 := treeField_apply (m := m) (h := t) (w := fun t => (1 / t.density : ℝ))
    (w' := fun t => (1 / t.childDensity : ℝ)) (fun k v => by
      simp only [childDensity_node, Nat.cast_prod, one_div, Finset.prod_inv_distrib]) τ
  change HasDerivAt (fun t : ℝ => t ^ τ.1.order * (1 / τ.1.density : ℝ)) (treeField m (treeSol m t) τ) t
  rw [show treeField m (treeSol m t) τ = _ from h1]
  refine ((hasDerivAt_pow τ.1.order t).mul_const _).congr_deriv ?_
  have h0 : (τ.1.order : ℝ) ≠ 0 := by
    have := one_le_order τ.1
    exact_mod_cast (by omega : τ.1.order ≠ 0)
  rw [density, Nat.cast_mul]
  field_simp

theorem treeSol_zero (m : ℕ) : treeSol m 0 = 0 := by
  funext τ
  have := one_le_order τ.1
  simp [treeSol, zero_pow (by omega : τ.1.order ≠ 0)]

variable {ι : Type*} [Fintype ι] {A : ι → ι → ℝ} {W : RTree → ι → ℝ}

/-- The stages of a step from zero. -/
noncomputable def treeStage (m : ℕ) (A : ι → ι → ℝ) (W : RTree → ι → ℝ) (h : ℝ) (i : ι) : upTo m → ℝ :=
  fun τ => h ^ τ.1.order * ∑ j, A i j * W τ.1 j

theorem treeField_stage (hW : ∀ k (v : Fin k → RTree) i, W (node k v) i = ∏ j, ∑ l, A i l * W (v j) l)
    (m : ℕ) (h : ℝ) (i : ι) (τ : upTo m) :
    treeField m (treeStage m A W h i) τ = h ^ (τ.1.order - 1) * W τ.1 i :=
  treeField_apply (w := fun t => ∑ j, A i j * W t j) (w' := fun t => W t i) (fun k v => hW k v i) τ

theorem tree_weighted (hW : ∀ k (v : Fin k → RTree) i, W (node k v) i = ∏ j, ∑ l, A i l * W (v j) l)
    (m : ℕ) (h : ℝ) (b : ι → ℝ) :
    h • ∑ j, b j • treeField m (treeStage m A W h j)
      = fun τ : upTo m => h ^ τ.1.order * ∑ j, b j * W τ.1 j := by
  funext τ
  simp only [Pi.smul_apply, Finset.sum_apply, smul_eq_mul, treeField_stage hW]
  obtain ⟨n, hn⟩ : ∃ n, τ.1.order = n + 1 := ⟨τ.1.order - 1, by have := one_le_order τ.1; omega⟩
  rw [hn, Nat.add_sub_cancel, Finset.mul_sum, Finset.mul_sum]
  refine Finset.sum_congr rfl fun j _ => ?_
  ring

theorem treeStage_stages (hW : ∀ k (v : Fin k → RTree) i, W (node k v) i = ∏ j, ∑ l, A i l * W (v j) l)
    (m : ℕ) (h : ℝ) : Stages A (treeField m) 0 h (treeStage m A W h) := by
  intro i
  rw [tree_weighted hW, zero_add]
  rfl

/-- The stages of a step from zero become small with the step. -/
theorem treeStage_small (m : ℕ) (A : ι → ι → ℝ) (W : RTree → ι → ℝ) {ρ : ℝ} (hρ : 0 < ρ) :
    ∃ h0 > 0, ∀ h, 0 ≤ h → h < h0 → ∀ i, ‖treeStage m A W h i - 0‖ < ρ := by
  set S := ∑ τ ∈ upTo m, ∑ i, |∑ j, A i j * W τ j| with hS
  have hS0 : 0 ≤ S := Finset.sum_nonneg fun τ _ => Finset.sum_nonneg fun i _ => abs_nonneg _
  refine ⟨min 1 (ρ / (S + 1)), lt_min one_pos (by positivity), fun h hh hlt i => ?_⟩
  have h1 : h ≤ 1 := (hlt.trans_le (min_le_left _ _)).le
  have h2 := hlt.trans_le (min_le_right _ _)
  rw [lt_div_iff₀ (by positivity)] at h2
  rw [sub_zero, pi_norm_lt_iff hρ]
  intro τ
  have h3 : |∑ j, A i j * W τ.1 j| ≤ S := by
    refine le_trans ?_ (Finset.single_le_sum (f := fun τ => ∑ i, |∑ j, A i j * W τ j|)
      (fun τ _ => Finset.sum_nonneg fun i _ => abs_nonneg _) τ.2)
    exact Finset.single_le_sum (f := fun i => |∑ j, A i j * W τ.1 j|) (fun i _ => abs_nonneg _)
      (Finset.mem_univ i)
  have h4 : h ^ τ.1.order ≤ h := by
    calc h ^ τ.1.order ≤ h ^ 1 := pow_le_pow_of_le_one hh h1 (one_le_order τ.1)
      _ = h := pow_one h
  rw [treeStage, norm_mul, Real.norm_of_nonneg (pow_nonneg hh _), Real.norm_eq_abs]
  have h5 := abs_nonneg (∑ j, A i j * W τ.1 j)
  nlinarith

/-- A difference that is smaller than a higher power of the step vanishes. -/
theorem eq_of_pow_bound {d C h0 : ℝ} (hh0 : 0 < h0) {n p : ℕ} (hn : n ≤ p)
    (H : ∀ h, 0 < h → h < h0 → |h ^ n * d| ≤ C * h ^ (p + 1)) : d = 0 := by
  by_contra hd
  have hd' : 0 < |d| := abs_pos.2 hd
  set h := min (min (h0 / 2) 1) (|d| / (2 * (|C| + 1))) with hdef
  have hpos : 0 < h := lt_min (lt_min (by positivity) one_pos) (by positivity)
  have h1 : h ≤ 1 := (min_le_left _ _).trans (min_le_right _ _)
  have h2 : h < h0 := ((min_le_left _ _).trans (min_le_left _ _)).trans_lt (by linarith)
  have h3 : h ≤ |d| / (2 * (|C| + 1)) := min_le_right _ _
  rw [le_div_iff₀ (by positivity)] at h3
  have h4 := H h hpos h2
  rw [abs_mul, abs_of_pos (pow_pos hpos n)] at h4
  have h5 : C * h ^ (p + 1) ≤ |C| * (h ^ n * h) := by
    have : h ^ (p + 1) ≤ h ^ (n + 1) := pow_le_pow_of_le_one hpos.le h1 (by omega)
    rw [pow_succ h n] at this
    calc C * h ^ (p + 1) ≤ |C| * h ^ (p + 1) :=
          mul_le_mul_of_nonneg_right (le_abs_self C) (pow_nonneg hpos.le _)
      _ ≤ _ := mul_le_mul_of_nonneg_left this (abs_nonneg C)
  have h6 : h ^ n * |d| ≤ h ^ n * (|C| * h) := by
    refine h4.trans (h5.trans_eq ?_)
    ring
  have h7 := le_of_mul_le_mul_left h6 (pow_pos hpos n)
  nlinarith [abs_nonneg C]

end QMat.Spec
