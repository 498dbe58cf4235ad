import Verif.Lemmas.Ortho
import Mathlib.Tactic.Positivity
import Mathlib.LinearAlgebra.Lagrange

/-!
# Roots of (modified) orthogonal polynomials stay in `[-1, 1]`
-/

namespace QMat

open Polynomial Spec NodesGenerator

/-- `π_{m-1}`, with `π_{-1} = 0`. -/
noncomputable def prevPoly (α β : ℕ → ℝ) : ℕ → ℝ[X]
  | 0 => 0
  | m + 1 => orthPoly α β m

theorem orthPoly_step (α β : ℕ → ℝ) (m : ℕ) :
    orthPoly α β (m + 1) = (X - C (α m)) * orthPoly α β m - C (β m) * prevPoly α β m := by
  cases m with
  | zero => simp [orthPoly, prevPoly]
  | succ m => rfl

theorem evalOrthogPoly_prev (t : ℝ) (α β : ℕ → ℝ) (m : ℕ) :
    evalOrthogPoly t α β m = ((prevPoly α β m).eval t, (orthPoly α β m).eval t) := by
  cases m with
  | zero => simp [evalOrthogPoly_zero, prevPoly, orthPoly]
  | succ m => rw [evalOrthogPoly_eq, prevPoly]

theorem prevPoly_congr {α β α' β' : ℕ → ℝ} (m : ℕ) (hα : ∀ k < m, α k = α' k)
    (hβ : ∀ k, 1 ≤ k → k < m → β k = β' k) : prevPoly α β m = prevPoly α' β' m := by
  cases m with
  | zero => rfl
  | succ m =>
    exact orthPoly_congr m (fun k hk => hα k (by omega)) fun k h1 hk => hβ k h1 (by omega)

theorem orthPoly_update (α β : ℕ → ℝ) (m : ℕ) (a b : ℝ) :
    orthPoly (Function.update α m a) (Function.update β m b) (m + 1) =
      (X - C a) * orthPoly α β m - C b * prevPoly α β m := by
  have hα : ∀ k < m, Function.update α m a k = α k := fun k hk =>
    Function.update_of_ne hk.ne _ _
  have hβ : ∀ k, 1 ≤ k → k < m → Function.update β m b k = β k := fun k _ hk =>
    Function.update_of_ne hk.ne _ _
  rw [orthPoly_step, orthPoly_congr m hα hβ, prevPoly_congr m hα hβ, Function.update_self,
    Function.update_self]

/-- Lower bounds `ρ_k` of the ratios `π_k / π_{k-1}` at and right of `1`. -/
structure RatioBound (α β ρ : ℕ → ℝ) : Prop where
  pos : ∀ k, 1 ≤ k → 0 < ρ k
  first : ρ 1 ≤ 1 - α 0
  alpha : ∀ k, 1 ≤ k → α k = 0
  beta : ∀ k, 1 ≤ k → 0 < β k
  step : ∀ k, 1 ≤ k → β k / ρ k ≤ 1 - ρ (k + 1)

namespace RatioBound

variable {α β ρ : ℕ → ℝ} (h : RatioBound α β ρ)

include h

theorem pos_ratio {t : ℝ} (ht : 1 ≤ t) (k : ℕ) :
    0 < (orthPoly α β k).eval t ∧
      ρ (k + 1) * (orthPoly α β k).eval t ≤ (orthPoly α β (k + 1)).eval t := by
  induction k with
  | zero =>
    have := h.first
    simp only [orthPoly, eval_one, eval_sub, eval_X, eval_C]
    exact ⟨one_pos, by rw [zero_add]; linarith⟩
  | succ k ih =>
    obtain ⟨h0, h1⟩ := ih
    have hρ := h.pos (k + 1) (by omega)
    have hp : 0 < (orthPoly α β (k + 1)).eval t := lt_of_lt_of_le (mul_pos hρ h0) h1
    refine ⟨hp, ?_⟩
    rw [eval_orthPoly_succ, h.alpha (k + 1) (by omega), sub_zero]
    have hs := h.step (k + 1) (by omega)
    have hb := h.beta (k + 1) (by omega)
    have hle : β (k + 1) * (orthPoly α β k).eval t ≤
        β (k + 1) / ρ (k + 1) * (orthPoly α β (k + 1)).eval t := by
      rw [div_mul_eq_mul_div, le_div_iff₀ hρ, mul_assoc]
      exact mul_le_mul_of_nonneg_left (by linarith) hb.le
    have h2 : β (k + 1) / ρ (k + 1) * (orthPoly α β (k + 1)).eval t ≤
        (1 - ρ (k + 1 + 1)) * (orthPoly α β (k + 1)).eval t :=
      mul_le_mul_of_nonneg_right hs hp.le
    nlinarith

theorem eval_pos {t : ℝ} (ht : 1 ≤ t) (k : ℕ) : 0 < (orthPoly α β k).eval t := (h.pos_ratio ht k).1

theorem prev_nonneg {t : ℝ} (ht : 1 ≤ t) (m : ℕ) : 0 ≤ (prevPoly α β m).eval t := by
  cases m with
  | zero => simp [prevPoly]
  | succ m => exact (h.eval_pos ht m).le

theorem beta_prev_lt {t : ℝ} (ht : 1 ≤ t) (m : ℕ) :
    β m * (prevPoly α β m).eval t < (orthPoly α β m).eval t := by
  cases m with
  | zero => simp [prevPoly, orthPoly]
  | succ m =>
    have hs := h.step (m + 1) (by omega)
    have hρ := h.pos (m + 1) (by omega)
    have hρ' := h.pos (m + 2) (by omega)
    have hb := h.beta (m + 1) (by omega)
    obtain ⟨h0, h1⟩ := h.pos_ratio ht m
    have hp := h.eval_pos ht (m + 1)
    simp only [prevPoly]
    have hlt : β (m + 1) < ρ (m + 1) := by
      rw [div_le_iff₀ hρ] at hs
      nlinarith
    calc β (m + 1) * (orthPoly α β m).eval t < ρ (m + 1) * (orthPoly α β m).eval t :=
          mul_lt_mul_of_pos_right hlt h0
      _ ≤ _ := h1

/-- The ratios grow with `t`. -/
theorem ratio_mono {s t : ℝ} (hs : 1 ≤ s) (hst : s ≤ t) (m : ℕ) :
    (prevPoly α β m).eval t * (orthPoly α β m).eval s ≤
      (prevPoly α β m).eval s * (orthPoly α β m).eval t := by
  induction m with
  | zero => simp [prevPoly]
  | succ m ih =>
    have ht := hs.trans hst
    have ps := h.eval_pos hs m
    have pt := h.eval_pos ht m
    rw [show prevPoly α β (m + 1) = orthPoly α β m from rfl, orthPoly_step]
    simp only [eval_sub, eval_mul, eval_X, eval_C]
    have hbi : 0 ≤ β m * ((prevPoly α β m).eval s * (orthPoly α β m).eval t -
        (prevPoly α β m).eval t * (orthPoly α β m).eval s) := by
      cases m with
      | zero => simp [prevPoly]
      | succ m => exact mul_nonneg (h.beta _ (by omega)).le (by linarith)
    nlinarith [mul_nonneg (sub_nonneg.mpr hst) (mul_pos ps pt).le]

/-- Positivity right of `1` of the polynomial whose last coefficients are chosen to vanish at `1`. -/
theorem modified_pos {m : ℕ} {a b : ℝ} (hb : m = 0 ∨ 0 ≤ b)
    (h1 : (1 - a) * (orthPoly α β m).eval 1 = b * (prevPoly α β m).eval 1) {t : ℝ} (ht : 1 < t) :
    0 < (t - a) * (orthPoly α β m).eval t - b * (prevPoly α β m).eval t := by
  have p1 := h.eval_pos le_rfl m
  have pt := h.eval_pos ht.le m
  have hm := h.ratio_mono le_rfl ht.le m
  have hbm : 0 ≤ b * ((prevPoly α β m).eval 1 * (orthPoly α β m).eval t -
      (prevPoly α β m).eval t * (orthPoly α β m).eval 1) := by
    rcases hb with rfl | hb
    · simp [prevPoly]
    · exact mul_nonneg hb (by linarith)
  have : 0 < ((t - a) * (orthPoly α β m).eval t - b * (prevPoly α β m).eval t) *
      (orthPoly α β m).eval 1 := by
    have e : ((t - a) * (orthPoly α β m).eval t - b * (prevPoly α β m).eval t) *
      (orthPoly α β m).eval 1 = (t - 1) * ((orthPoly α β m).eval t * (orthPoly α β m).eval 1) +
        b * ((prevPoly α β m).eval 1 * (orthPoly α β m).eval t -
        (prevPoly α β m).eval t * (orthPoly α β m).eval 1) := by
      linear_combination (orthPoly α β m).eval t * h1
    rw [e]
    have := mul_pos (sub_pos.mpr ht) (mul_pos pt p1)
    linarith
  exact pos_of_mul_pos_left this p1.le

end RatioBound

/-- A sequence of `n` strictly increasing roots of a monic polynomial of degree `n`. -/
theorem eq_nodal_of_roots {n : ℕ} {p : ℝ[X]} (hm : p.Monic) (hd : p.natDegree = n) {x : Fin n → ℝ}
    (hx : Function.Injective x) (hr : ∀ i, p.eval (x i) = 0) : p = Lagrange.nodal Finset.univ x := by
  have hdp : p.degree = n := by rw [degree_eq_natDegree hm.ne_zero, hd]
  have hdn : (Lagrange.nodal Finset.univ x).degree = n := by simp [Lagrange.degree_nodal]
  refine eq_of_degree_sub_lt_of_eval_index_eq Finset.univ hx.injOn ?_ fun i _ => ?_
  · rw [Finset.card_univ, Fintype.card_fin]
    have := degree_sub_lt_left (hdp.trans hdn.symm) hm.ne_zero
      (by rw [hm.leadingCoeff, Lagrange.nodal_monic.leadingCoeff])
    rwa [hdp] at this
  · rw [hr i, Lagrange.eval_nodal_at_node (Finset.mem_univ i)]

theorem npSort_strictMono {n : ℕ} {f : Fin n → ℝ} (hf : Function.Injective f) :
    StrictMono (npSort f) :=
  (Tuple.monotone_sort f).strictMono_of_injective (hf.comp (Tuple.sort f).injective)

/-- The sorted eigenvalues of a Jacobi matrix with positive `β`. -/
theorem jacobi_nodes {n : ℕ} {α β : ℕ → ℝ} (hβ : ∀ k, 1 ≤ k → k < n → 0 < β k) :
    StrictMono (npSort (eighTridiagonal n α fun k => Real.sqrt (β (k + 1)))) ∧
    Lagrange.nodal Finset.univ (npSort (eighTridiagonal n α fun k => Real.sqrt (β (k + 1)))) =
      orthPoly α β n := by
  obtain ⟨hinj, hroot⟩ := jacobi_eigenvalues (α := α) hβ
  have hs := npSort_strictMono hinj
  exact ⟨hs, (eq_nodal_of_roots (orthPoly_monic α β n) (orthPoly_natDegree α β n) hs.injective
    fun i => hroot _).symm⟩

theorem eval_nodal_eq_zero_iff {n : ℕ} (x : Fin n → ℝ) (t : ℝ) :
    (Lagrange.nodal Finset.univ x).eval t = 0 ↔ ∃ i, x i = t := by
  rw [Lagrange.eval_nodal, Finset.prod_eq_zero_iff]
  simp only [Finset.mem_univ, true_and, sub_eq_zero, eq_comm]

/-- Two increasing sequences with the same node polynomial are equal. -/
theorem eq_of_nodal_eq {n : ℕ} {x y : Fin n → ℝ} (hx : StrictMono x) (hy : StrictMono y)
    (h : ∀ i, (Lagrange.nodal Finset.univ y).eval (x i) = 0) : x = y := by
  have hsub : Set.range x ⊆ Set.range y := by
    rintro _ ⟨i, rfl⟩
    exact (eval_nodal_eq_zero_iff y _).mp (h i)
  have hr : Set.range x = Set.range y := by
    refine Set.eq_of_subset_of_ncard_le hsub ?_ (Set.finite_range y)
    rw [← Set.image_univ, ← Set.image_univ, Set.ncard_image_of_injective _ hx.injective,
      Set.ncard_image_of_injective _ hy.injective]
  exact (StrictMono.range_inj hx hy).mp hr

end QMat
