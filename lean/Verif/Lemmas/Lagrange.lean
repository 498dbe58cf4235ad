import Verif.Model.Lagrange
import Mathlib.LinearAlgebra.Lagrange

/-!
# Lemmas on `Verif.Model.Lagrange`: barycentric weights and interpolation
-/

namespace QMat

open Matrix Polynomial

/-- `w` are barycentric weights of the points `x`, up to a common non-zero factor. -/
def IsBary {m : ℕ} (x w : Fin m → ℝ) : Prop :=
  ∃ c : ℝ, c ≠ 0 ∧ ∀ i, w i = c * Lagrange.nodalWeight Finset.univ x i

theorem prod_wDiffs {m : ℕ} (x : Fin m → ℝ) (i : Fin m) :
    ∏ j, wDiffs x i j = ∏ j ∈ Finset.univ.erase i, (x i - x j) := by
  rw [← Finset.mul_prod_erase Finset.univ _ (Finset.mem_univ i)]
  simp only [wDiffs, if_true, one_mul]
  refine Finset.prod_congr rfl fun j hj => ?_
  rw [if_neg (Finset.ne_of_mem_erase hj).symm]

theorem analyticWeights_eq {m : ℕ} (x : Fin m → ℝ) (i : Fin m) :
    analyticWeights x i = Lagrange.nodalWeight Finset.univ x i := by
  rw [analyticWeights, prod_wDiffs, Lagrange.nodalWeight, Finset.prod_inv_distrib]

theorem wDiffs_ne_zero {m : ℕ} {x : Fin m → ℝ} (hx : Function.Injective x) (i j : Fin m) :
    wDiffs x i j ≠ 0 := by
  unfold wDiffs
  split_ifs with h
  · exact one_ne_zero
  · exact sub_ne_zero.mpr fun h' => h (hx h')

theorem npSign_mul_abs (d : ℝ) : npSign d * |d| = d := by
  unfold npSign
  split_ifs with h1 h2
  · rw [abs_of_pos h1, one_mul]
  · rw [abs_of_neg h2]; ring
  · have : d = 0 := le_antisymm (not_lt.mp h1) (not_lt.mp h2)
    simp [this]

theorem npSign_inv {d : ℝ} (hd : d ≠ 0) : (npSign d)⁻¹ = npSign d := by
  unfold npSign
  split_ifs with h1 h2
  · simp
  · norm_num
  · exact absurd (le_antisymm (not_lt.mp h1) (not_lt.mp h2)) hd

theorem npSign_ne_zero {d : ℝ} (hd : d ≠ 0) : npSign d ≠ 0 := by
  intro h
  have := npSign_mul_abs d
  rw [h, zero_mul] at this
  exact hd this.symm

/-- `exp(∑ log|d|) * ∏ sign d = ∏ d`. -/
theorem exp_sum_log_mul_sign {m : ℕ} {d : Fin m → ℝ} (hd : ∀ j, d j ≠ 0) :
    (∏ j, npSign (d j)) * Real.exp (∑ j, Real.log |d j|) = ∏ j, d j := by
  rw [Real.exp_sum, ← Finset.prod_mul_distrib]
  refine Finset.prod_congr rfl fun j _ => ?_
  rw [Real.exp_log (abs_pos.mpr (hd j)), npSign_mul_abs]

theorem exp_neg_sum_log_mul_sign {m : ℕ} {d : Fin m → ℝ} (hd : ∀ j, d j ≠ 0) :
    Real.exp (-∑ j, Real.log |d j|) * (∏ j, npSign (d j)) = (∏ j, d j)⁻¹ := by
  rw [← exp_sum_log_mul_sign hd, mul_inv, ← Real.exp_neg, mul_comm, ← Finset.prod_inv_distrib]
  congr 1
  exact Finset.prod_congr rfl fun j _ => (npSign_inv (hd j)).symm

theorem isBary_analytic {m : ℕ} (x : Fin m → ℝ) : IsBary x (analyticWeights x) :=
  ⟨1, one_ne_zero, fun i => by rw [one_mul, analyticWeights_eq]⟩

theorem isBary_logScale {m : ℕ} {x w : Fin m → ℝ} (hx : Function.Injective x) {scaleRef : String}
    (h : logScaleWeights scaleRef x = .ok w) : IsBary x w := by
  have key : ∃ s : ℝ, w = fun i => Real.exp (-∑ j, Real.log |wDiffs x i j| - s) *
      ∏ j, npSign (wDiffs x i j) := by
    simp only [logScaleWeights, bind, Except.bind, pure, Except.pure] at h
    split_ifs at h
    all_goals
      split at h
      · exact absurd h (by simp)
      · rename_i v hv
        exact ⟨_, (Except.ok.inj h).symm⟩
  obtain ⟨s, rfl⟩ := key
  refine ⟨Real.exp (-s), Real.exp_ne_zero _, fun i => ?_⟩
  beta_reduce
  rw [← analyticWeights_eq, analyticWeights, ← exp_neg_sum_log_mul_sign (wDiffs_ne_zero hx i),
    sub_eq_add_neg, Real.exp_add]
  ring

theorem npMax_ok {m : ℕ} {f : Fin m → ℝ} {s : ℝ} (h : npMax f = .ok s) :
    (∀ i, f i ≤ s) ∧ ∃ i, f i = s := by
  unfold npMax at h
  split_ifs at h with hm
  have h := Except.ok.inj h
  subst h
  refine ⟨fun i => Finset.le_sup' f (Finset.mem_univ i), ?_⟩
  obtain ⟨i, -, hi⟩ := Finset.exists_mem_eq_sup' (⟨⟨0, hm⟩, Finset.mem_univ _⟩) f
  exact ⟨i, hi.symm⟩

theorem npMin_ok {m : ℕ} {f : Fin m → ℝ} {s : ℝ} (h : npMin f = .ok s) :
    (∀ i, s ≤ f i) ∧ ∃ i, f i = s := by
  unfold npMin at h
  split_ifs at h with hm
  have h := Except.ok.inj h
  subst h
  refine ⟨fun i => Finset.inf'_le f (Finset.mem_univ i), ?_⟩
  obtain ⟨i, -, hi⟩ := Finset.exists_mem_eq_inf' (⟨⟨0, hm⟩, Finset.mem_univ _⟩) f
  exact ⟨i, hi.symm⟩

theorem npMax_eq_ok {m : ℕ} (hm : 0 < m) (f : Fin m → ℝ) : ∃ s, npMax f = .ok s :=
  ⟨_, by rw [npMax, dif_pos hm]⟩

theorem npMin_eq_ok {m : ℕ} (hm : 0 < m) (f : Fin m → ℝ) : ∃ s, npMin f = .ok s :=
  ⟨_, by rw [npMin, dif_pos hm]⟩

theorem npArgmin_eq_ok {m : ℕ} (hm : 0 < m) (f : Fin m → ℝ) : ∃ s, npArgmin f = .ok s :=
  ⟨_, by rw [npArgmin, dif_pos hm]⟩

theorem IsBary.weights_ne_zero {m : ℕ} {x w : Fin m → ℝ} (hx : Function.Injective x)
    (h : IsBary x w) (i : Fin m) : w i ≠ 0 := by
  obtain ⟨c, hc, hw⟩ := h
  rw [hw]
  exact mul_ne_zero hc (Lagrange.nodalWeight_ne_zero hx.injOn (Finset.mem_univ i))

theorem IsBary.div {m : ℕ} {x w : Fin m → ℝ} (h : IsBary x w) {s : ℝ} (hs : s ≠ 0) :
    IsBary x (fun i => w i / s) := by
  obtain ⟨c, hc, hw⟩ := h
  exact ⟨c / s, div_ne_zero hc hs, fun i => by simp only [hw]; ring⟩

theorem isBary_div_maxAbs {m : ℕ} {x w : Fin m → ℝ} (hx : Function.Injective x)
    (h : IsBary x w) {s : ℝ} (hs : (npMax fun i => |w i|) = .ok s) :
    IsBary x (fun i => w i / s) := by
  obtain ⟨-, i, hi⟩ := npMax_ok hs
  refine h.div ?_
  rw [← hi]
  exact abs_ne_zero.mpr (h.weights_ne_zero hx i)

theorem isBary_chebfun {m : ℕ} {x w : Fin m → ℝ} (hx : Function.Injective x) (hm : 2 ≤ m)
    (h : chebfunWeights x = .ok w) : IsBary x w := by
  simp only [chebfunWeights, bind, Except.bind, pure, Except.pure] at h
  split at h
  · simp at h
  rename_i xMax hMax
  split at h
  · simp at h
  rename_i xMin hMin
  split at h
  · simp at h
  rename_i nrm hnrm
  have h := Except.ok.inj h
  subst h
  obtain ⟨hMax1, -⟩ := npMax_ok hMax
  obtain ⟨hMin1, -⟩ := npMin_ok hMin
  have hne : xMax - xMin ≠ 0 := by
    intro h0
    have h01 : x ⟨0, by omega⟩ = x ⟨1, by omega⟩ := by
      have a := hMax1 ⟨0, by omega⟩
      have b := hMin1 ⟨0, by omega⟩
      have c := hMax1 ⟨1, by omega⟩
      have d := hMin1 ⟨1, by omega⟩
      linarith
    have := hx h01
    simp at this
  set s := 4 / (xMax - xMin) with hs
  have hs0 : s ≠ 0 := div_ne_zero (by norm_num) hne
  have hb : IsBary x (fun i => ((∏ j, npSign (wDiffs x i j * s)) *
      Real.exp (∑ j, Real.log |wDiffs x i j * s|))⁻¹) := by
    refine ⟨(s ^ m)⁻¹, inv_ne_zero (pow_ne_zero _ hs0), fun i => ?_⟩
    beta_reduce
    rw [exp_sum_log_mul_sign fun j => mul_ne_zero (wDiffs_ne_zero hx i j) hs0,
      Finset.prod_mul_distrib, ← analyticWeights_eq, analyticWeights]
    simp [mul_comm]
  exact isBary_div_maxAbs hx hb hnrm

theorem isBary_computeWeights {m : ℕ} {x w : Fin m → ℝ} (hx : Function.Injective x)
    {wc sr : String} (hcheb : wc = "CHEBFUN" → 2 ≤ m)
    (h : computeWeights wc sr x = .ok w) : IsBary x w := by
  unfold computeWeights at h
  split_ifs at h with h1 h2 h3 h4 h5
  · exact isBary_logScale hx h
  · rw [← Except.ok.inj h]; exact isBary_analytic x
  · rw [← Except.ok.inj h]; exact isBary_analytic x
  · exact isBary_logScale hx h
  · exact isBary_chebfun hx (hcheb h5) h

theorem isBary_scaleW {m : ℕ} {x w w' : Fin m → ℝ} (hx : Function.Injective x)
    (hw : IsBary x w) {b : Bool} (h : scaleW b w = .ok w') : IsBary x w' := by
  unfold scaleW at h
  cases b
  · rw [← Except.ok.inj h]; exact hw
  · simp only [if_true, bind, Except.bind, pure, Except.pure] at h
    split at h
    · simp at h
    · rename_i s hs
      rw [← Except.ok.inj h]
      exact isBary_div_maxAbs hx hw hs

/-! ## np.unique -/

theorem npUnique_strictMono {n : ℕ} (points : Fin n → ℝ) : StrictMono (npUnique points) :=
  ((Finset.univ.image points).orderEmbOfFin rfl).strictMono

theorem npUnique_inverse {n : ℕ} (points : Fin n → ℝ) (i : Fin n) :
    npUnique points (npUniqueInverse points i) = points i := by
  unfold npUnique npUniqueInverse
  rw [← Finset.coe_orderIsoOfFin_apply]
  simp

theorem npUniqueInverse_eq_of {n : ℕ} (points : Fin n → ℝ) {i : Fin n}
    {j : Fin (npUniqueSize points)} (h : points i = npUnique points j) :
    npUniqueInverse points i = j :=
  (npUnique_strictMono points).injective (by rw [npUnique_inverse, h])

theorem points_npUniqueFirst {n : ℕ} (points : Fin n → ℝ) (j) :
    points (npUniqueFirst points j) = npUnique points j := by
  have := Finset.min'_mem _ (npUnique_fiber_nonempty points j)
  exact (Finset.mem_filter.mp this).2

theorem points_npUniqueLast {n : ℕ} (points : Fin n → ℝ) (j) :
    points (npUniqueLast points j) = npUnique points j := by
  have := Finset.max'_mem _ (npUnique_fiber_nonempty points j)
  exact (Finset.mem_filter.mp this).2

theorem npUniqueSize_eq_iff {n : ℕ} (points : Fin n → ℝ) :
    npUniqueSize points = n ↔ Function.Injective points := by
  unfold npUniqueSize
  constructor
  · intro h
    have := Finset.card_image_iff.mp (h.trans (Finset.card_fin n).symm)
    simpa using this
  · intro h
    rw [Finset.card_image_of_injective _ h, Finset.card_fin]

theorem npUniqueSize_pos {n : ℕ} (points : Fin n → ℝ) (hn : 0 < n) : 0 < npUniqueSize points := by
  unfold npUniqueSize
  exact Finset.card_pos.mpr ⟨points ⟨0, hn⟩, Finset.mem_image_of_mem _ (Finset.mem_univ _)⟩

theorem npUnique_eq_of_strictMono {n : ℕ} {points : Fin n → ℝ} (h : StrictMono points)
    (hn : npUniqueSize points = n) (i : Fin n) :
    npUnique points (Fin.cast hn.symm i) = points i := by
  have hcard : (Finset.univ.image points).card = n := hn
  have := Finset.orderEmbOfFin_unique hcard (f := points)
    (fun x => Finset.mem_image_of_mem _ (Finset.mem_univ x)) h
  conv_rhs => rw [this]
  unfold npUnique
  simp only [Finset.orderEmbOfFin_apply]
  rfl

end QMat
