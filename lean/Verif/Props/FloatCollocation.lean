import Verif.Lemmas.FloatCollocation
import Mathlib.Analysis.Real.Pi.Bounds
import Verif.Props.Lebesgue
import Verif.Lemmas.NodesGapAll

/-!
# C94: collocation methods in floating point arithmetic
-/

namespace QMat

open Polynomial Spec NodesGenerator

/-! ### Nodes -/

theorem Rounding.fl_bounds (R : Rounding) {x : ℝ} (hx : 0 ≤ x) : (1 - R.u) * x ≤ R.fl x ∧ R.fl x ≤ (1 + R.u) * x := by
  have h := abs_le.1 (R.err x)
  rw [abs_of_nonneg hx] at h
  constructor <;> linarith [h.1, h.2]

theorem Rounding.abs_fl_bounds (R : Rounding) (x : ℝ) : (1 - R.u) * |x| ≤ |R.fl x| ∧ |R.fl x| ≤ (1 + R.u) * |x| := by
  have h := R.err x
  have h1 := abs_sub_abs_le_abs_sub (R.fl x) x
  have h2 := abs_sub_abs_le_abs_sub x (R.fl x)
  rw [abs_sub_comm x] at h2
  constructor <;> linarith

theorem isClose_tol (R : Rounding) (hu : R.u ≤ 1 / 100) (v : ℝ) :
    1 / (2 * 10 ^ 8) * (1 + R.u) ≤ R.fl (R.fl (1 / 10 ^ 8) + R.fl (R.fl (1 / 10 ^ 5) * |v|)) ∧
    R.fl (R.fl (1 / 10 ^ 8) + R.fl (R.fl (1 / 10 ^ 5) * |v|)) ≤ 2 * (1 / 10 ^ 8 + 1 / 10 ^ 5 * |v|) * (1 - R.u) := by
  have u0 := R.u_nonneg
  have hv := abs_nonneg v
  obtain ⟨a1, a2⟩ := R.fl_bounds (x := 1 / 10 ^ 8) (by norm_num)
  obtain ⟨b1, b2⟩ := R.fl_bounds (x := 1 / 10 ^ 5) (by norm_num)
  have b0 : 0 ≤ R.fl (1 / 10 ^ 5) := le_trans (by apply mul_nonneg <;> [linarith; norm_num]) b1
  have a0 : 0 ≤ R.fl (1 / 10 ^ 8) := le_trans (by apply mul_nonneg <;> [linarith; norm_num]) a1
  obtain ⟨c1, c2⟩ := R.fl_bounds (x := R.fl (1 / 10 ^ 5) * |v|) (by positivity)
  have c0 : 0 ≤ R.fl (R.fl (1 / 10 ^ 5) * |v|) := le_trans (mul_nonneg (by linarith) (by positivity)) c1
  obtain ⟨d1, d2⟩ := R.fl_bounds (x := R.fl (1 / 10 ^ 8) + R.fl (R.fl (1 / 10 ^ 5) * |v|)) (by positivity)
  set A := R.fl (1 / 10 ^ 8)
  set B := R.fl (1 / 10 ^ 5)
  set Cc := R.fl (B * |v|)
  constructor
  · refine le_trans ?_ d1
    have h1 : (1 - 1 / 100) * (A + Cc) ≤ (1 - R.u) * (A + Cc) := mul_le_mul_of_nonneg_right (by linarith) (by positivity)
    have h2 : (1 - 1 / 100) * (1 / 10 ^ 8) ≤ A := le_trans (mul_le_mul_of_nonneg_right (by linarith) (by norm_num)) a1
    refine le_trans ?_ h1
    have h3 : 1 / (2 * 10 ^ 8) * (1 + R.u) ≤ 1 / (2 * 10 ^ 8) * (1 + 1 / 100) := mul_le_mul_of_nonneg_left (by linarith) (by norm_num)
    refine h3.trans ?_
    norm_num at h2 ⊢
    linarith
  · refine d2.trans ?_
    have h1 : (1 + R.u) * (A + Cc) ≤ (1 + 1 / 100) * (A + Cc) := mul_le_mul_of_nonneg_right (by linarith) (by positivity)
    have h2 : A ≤ (1 + 1 / 100) * (1 / 10 ^ 8) := a2.trans (mul_le_mul_of_nonneg_right (by linarith) (by norm_num))
    have h3 : B ≤ (1 + 1 / 100) * (1 / 10 ^ 5) := b2.trans (mul_le_mul_of_nonneg_right (by linarith) (by norm_num))
    have h4 : Cc ≤ (1 + 1 / 100) * (B * |v|) := c2.trans (mul_le_mul_of_nonneg_right (by linarith) (by positivity))
    have h5 : B * |v| ≤ (1 + 1 / 100) * (1 / 10 ^ 5) * |v| := mul_le_mul_of_nonneg_right h3 hv
    have h6 : 2 * (1 / 10 ^ 8 + 1 / 10 ^ 5 * |v|) * (1 - 1 / 100) ≤ 2 * (1 / 10 ^ 8 + 1 / 10 ^ 5 * |v|) * (1 - R.u) :=
      mul_le_mul_of_nonneg_left (by linarith) (by positivity)
    refine le_trans ?_ h6
    refine h1.trans ?_
    norm_num at h2 h4 h5 ⊢
    linarith

theorem isClose_imp (R : Rounding) (hu : R.u ≤ 1 / 100) {t v : ℝ} (h : R.isClose t v) :
    |t - v| ≤ 2 * (1 / 10 ^ 8 + 1 / 10 ^ 5 * |v|) := by
  have h1 := (R.abs_fl_bounds (t - v)).1
  have h2 := (isClose_tol R hu v).2
  have h3 : 0 < 1 - R.u := by linarith
  have h4 : (1 - R.u) * |t - v| ≤ (1 - R.u) * (2 * (1 / 10 ^ 8 + 1 / 10 ^ 5 * |v|)) := by
    rw [mul_comm (1 - R.u) (2 * _)]
    exact (h1.trans h).trans h2
  exact le_of_mul_le_mul_left h4 h3

theorem isClose_of (R : Rounding) (hu : R.u ≤ 1 / 100) {t v : ℝ} (h : |t - v| ≤ 1 / (2 * 10 ^ 8)) : R.isClose t v := by
  have h1 := (R.abs_fl_bounds (t - v)).2
  refine h1.trans (le_trans ?_ (isClose_tol R hu v).1)
  rw [mul_comm]
  exact mul_le_mul_of_nonneg_right h (by linarith [R.u_nonneg])

theorem snapAt_err (R : Rounding) (hu : R.u ≤ 1 / 100) {M : ℕ} {t δ : ℝ} {k : Fin M} {v z : Fin M → ℝ} (hδ : 0 ≤ δ) (h : ∀ i, |v i - z i| ≤ δ)
    (hk : z k = t ∨ 2 * (1 / 10 ^ 8 + 1 / 10 ^ 5 * (|z k| + δ)) + δ < |t - z k|) (i : Fin M) : |R.snapAt t k v i - z i| ≤ δ := by
  unfold Rounding.snapAt
  split_ifs with hc
  · rcases eq_or_ne i k with rfl | hne
    · rw [Function.update_self]
      rcases hk with hk | hk
      · rw [hk, sub_self, abs_zero]; exact hδ
      · exfalso
        have h1 := isClose_imp R hu hc
        have h2 := h i
        have h3 : |v i| ≤ |z i| + δ := by
          have := abs_add_le (z i) (v i - z i)
          rw [add_sub_cancel] at this
          linarith
        have h4 : |t - z i| ≤ |t - v i| + |v i - z i| := abs_sub_le _ _ _
        linarith
    · rw [Function.update_of_ne hne]; exact h i
  · exact h i

theorem snapAt_eq (R : Rounding) (hu : R.u ≤ 1 / 100) {M : ℕ} {t δ : ℝ} {k : Fin M} {v z : Fin M → ℝ} (h : ∀ i, |v i - z i| ≤ δ)
    (hδ : δ ≤ 1 / (2 * 10 ^ 8)) (hk : z k = t) : R.snapAt t k v k = t := by
  unfold Rounding.snapAt
  rw [if_pos (isClose_of R hu ?_), Function.update_self]
  rw [← hk, abs_sub_comm]
  exact (h k).trans hδ

theorem scaleNodes_err (R : Rounding) (h5 : (5 : ℕ) * R.u < 1) {M : ℕ} {a b e : ℝ} (hab : a < b) {raw ξ : Fin M → ℝ}
    (hξ : ∀ i, ξ i ∈ Set.Icc (-1 : ℝ) 1) (h : ∀ i, |raw i - ξ i| ≤ e) (i : Fin M) :
    |R.scaleNodes a b raw i - (a + (b - a) * ((ξ i + 1) / 2))| ≤
      (b - a) * (e / 2) + gamma R.u 5 * ((b - a) * (1 + e / 2) + |a|) := by
  obtain ⟨φ1, h1, p1⟩ := R.fl_eq (raw i + 1)
  obtain ⟨φ2, h2, p2⟩ := R.fl_eq ((raw i + 1) * φ1 / 2)
  obtain ⟨φ3, h3, p3⟩ := R.fl_eq (b - a)
  obtain ⟨φ4, h4, p4⟩ := R.fl_eq ((raw i + 1) * φ1 / 2 * φ2 * ((b - a) * φ3))
  obtain ⟨φ5, h5', p5⟩ := R.fl_eq ((raw i + 1) * φ1 / 2 * φ2 * ((b - a) * φ3) * φ4 + a)
  have e0 : R.scaleNodes a b raw i = (raw i + 1) / 2 * (b - a) * (φ1 * φ2 * φ3 * φ4 * φ5) + a * φ5 := by
    rw [Rounding.scaleNodes, p1, p2, p3, p4, p5]; ring
  have hω := R.ω_nonneg
  have e1 := R.rel_err h5 (((((h1.mul h2).mul h3).mul h4).mul h5').mono (le_of_eq (by push_cast; ring)))
    (a := (raw i + 1) / 2 * (b - a))
  have e2 := R.rel_err h5 (h5'.mono (by push_cast; linarith)) (a := a)
  have hba : 0 < b - a := sub_pos.2 hab
  have hi := h i
  have hr : |raw i + 1| ≤ 2 + e := by
    have := abs_le.1 hi
    have := hξ i
    rw [abs_le]
    constructor <;> linarith [this.1, this.2]
  have e3 : |(raw i + 1) / 2 * (b - a)| ≤ (b - a) * (1 + e / 2) := by
    rw [abs_mul, abs_div, abs_two, abs_of_pos hba, mul_comm]
    exact mul_le_mul_of_nonneg_left (by linarith) hba.le
  have e4 : |(raw i + 1) / 2 * (b - a) - (b - a) * ((ξ i + 1) / 2)| ≤ (b - a) * (e / 2) := by
    rw [show (raw i + 1) / 2 * (b - a) - (b - a) * ((ξ i + 1) / 2) = (b - a) * ((raw i - ξ i) / 2) by ring, abs_mul, abs_of_pos hba,
      abs_div, abs_two]
    exact mul_le_mul_of_nonneg_left (by linarith) hba.le
  have hg : 0 ≤ gamma R.u 5 := by
    have := R.u_nonneg
    rw [gamma]
    exact div_nonneg (by positivity) (by linarith)
  have e5 := mul_le_mul_of_nonneg_left e3 hg
  have e6 : R.scaleNodes a b raw i - (a + (b - a) * ((ξ i + 1) / 2)) =
      ((raw i + 1) / 2 * (b - a) * (φ1 * φ2 * φ3 * φ4 * φ5) - (raw i + 1) / 2 * (b - a)) + (a * φ5 - a)
      + ((raw i + 1) / 2 * (b - a) - (b - a) * ((ξ i + 1) / 2)) := by rw [e0]; ring
  rw [e6]
  refine (abs_add_le _ _).trans ?_
  have := abs_add_le ((raw i + 1) / 2 * (b - a) * (φ1 * φ2 * φ3 * φ4 * φ5) - (raw i + 1) / 2 * (b - a)) (a * φ5 - a)
  linarith

theorem overwriteEnds_err {nt qt : String} (hnt : nt ∈ NODE_TYPES) (hqt : qt ∈ QUAD_TYPES) {M : ℕ} (hM : 0 < M) {ξ raw : Fin M → ℝ}
    (hξ : getNodes ⟨nt, qt⟩ M = .ok ξ) {e : ℝ} (h : ∀ i, |raw i - ξ i| ≤ e) (i : Fin M) : |overwriteEnds qt hM raw i - ξ i| ≤ e := by
  have he : 0 ≤ e := (abs_nonneg _).trans (h i)
  obtain ⟨y, hy, hs, hr, hl, hrr⟩ := getNodes_all hnt hqt (validSize_of_getNodes hξ)
  rw [hξ] at hy
  cases hy
  have hfirst : qt = "LOBATTO" ∨ qt = "RADAU-LEFT" → ξ ⟨0, hM⟩ = -1 := fun hq => by
    obtain ⟨k, hk⟩ := hl.mpr hq.symm
    refine le_antisymm ?_ (hr _).1
    rw [← hk]
    exact hs.monotone (Fin.mk_le_of_le_val (Nat.zero_le _))
  have hlast : qt = "LOBATTO" ∨ qt = "RADAU-RIGHT" → ξ ⟨M - 1, by omega⟩ = 1 := fun hq => by
    obtain ⟨k, hk⟩ := hrr.mpr hq.symm
    refine le_antisymm (hr _).2 ?_
    rw [← hk]
    exact hs.monotone (Fin.le_def.2 (by simp; omega))
  have step : ∀ (k : Fin M) (c : ℝ) (v : Fin M → ℝ), ξ k = c → (∀ i, |v i - ξ i| ≤ e) → ∀ i, |Function.update v k c i - ξ i| ≤ e :=
    fun k c v hk hv i => by
      rcases eq_or_ne i k with rfl | hne
      · rw [Function.update_self, hk, sub_self, abs_zero]; exact he
      · rw [Function.update_of_ne hne]; exact hv i
  unfold overwriteEnds
  split_ifs with h1 h2 h2
  · exact step _ _ _ (hfirst h1) (step _ _ _ (hlast h2) h) i
  · exact step _ _ _ (hfirst h1) h i
  · exact step _ _ _ (hlast h2) h i
  · exact h i

theorem lebesgue_scaled {M : ℕ} {B a b : ℝ} (hab : a < b) {x z : Fin M → ℝ} (hz : ∀ i, z i = a + (b - a) * ((x i + 1) / 2))
    (hL : ∀ t, |t| ≤ 1 → lebesgue x t ≤ B) {t : ℝ} (ht : t ∈ Set.Icc a b) : lebesgue z t ≤ B := by
  have hba : 0 < b - a := sub_pos.2 hab
  have key : lebesgue z t = lebesgue x (2 * (t - a) / (b - a) - 1) := by
    unfold lebesgue
    refine Finset.sum_congr rfl fun j _ => ?_
    congr 1
    unfold Lagrange.basis
    rw [eval_prod, eval_prod]
    refine Finset.prod_congr rfl fun k _ => ?_
    simp only [Lagrange.basisDivisor, eval_mul, eval_C, eval_sub, eval_X]
    rw [hz, hz, ← div_eq_inv_mul, ← div_eq_inv_mul,
      show a + (b - a) * ((x j + 1) / 2) - (a + (b - a) * ((x k + 1) / 2)) = (b - a) / 2 * (x j - x k) by ring,
      show t - (a + (b - a) * ((x k + 1) / 2)) = (b - a) / 2 * (2 * (t - a) / (b - a) - 1 - x k) by field_simp; ring]
    exact mul_div_mul_left _ _ (by positivity)
  rw [key]
  refine hL _ (abs_le.2 ⟨?_, ?_⟩)
  · have : 0 ≤ 2 * (t - a) / (b - a) := div_nonneg (by linarith [ht.1]) hba.le
    linarith
  · have : 2 * (t - a) / (b - a) ≤ 2 := by rw [div_le_iff₀ hba]; linarith [ht.2]
    linarith

/-- What the theorems of this file assume of the rounding, the errors of the eigenvalues (`e`), the errors of the nodes (`δ`), the errors of the
evaluation times (`τ`) and the errors of the weights of Fejér's rule (`η`). -/
structure CollocationHyps (R : Rounding) (F : FejerOps) (M m : ℕ) (a b B e δ τ η : ℝ) : Prop where
  small : R.u ≤ 1 / 100
  exactInt : ∀ k : ℕ, k ≤ 2 * M → R.fl k = k
  odd : m = M - (M + 1) % 2
  node : (b - a) * (e / 2) + gamma R.u 5 * ((b - a) * (1 + e / 2) + |a|) ≤ δ
  wide : 4 * (M : ℝ) ^ 2 * (2 * (1 / 10 ^ 8 + 1 / 10 ^ 5 * (max |a| |b| + δ)) + δ) < b - a
  stable : 16 * ((M - 1 : ℕ) : ℝ) ^ 2 * B * δ ≤ b - a
  fejer : η = 4 * F.κ / m + 4 * (1 + F.κ) * F.ρ / √m
  fejerSmall : η ≤ 1 / 10 ^ 15
  time : (b - a + 2 * δ) / 2 * (gamma R.u 4 * (1 + (F.v + Real.pi * gamma R.u 3)) + (F.v + Real.pi * gamma R.u 3))
    + gamma R.u 3 * (max |a| |b| + δ) ≤ τ
  timeSmall : 8 * ((M - 1 : ℕ) : ℝ) ^ 2 * (δ + τ) ≤ b - a
  size : (3 * M + 3 : ℕ) * R.u < 1
  sum : gamma R.u (3 * M + 2) * (4 * B) < 1

/-- The nodes of a collocation method in rounded arithmetic, and the exact ones. -/
theorem collocationNodes_err {R : Rounding} {F : FejerOps} {M m : ℕ} {nt qt : String} {a b B e δ τ η : ℝ}
    (H : CollocationHyps R F M m a b B e δ τ η) (hab : a < b) (hB : LebesgueType nt qt M B) (c : Collocation M)
    (hc : Collocation.new M nt qt a b = .ok c) (x : Fin M → ℝ) (hx : getNodes ⟨nt, qt⟩ M = .ok x) (hM : 0 < M)
    {raw : Fin M → ℝ} (he : ∀ i, |raw i - x i| ≤ e) :
    (∀ i, c.nodes i = a + (b - a) * ((x i + 1) / 2)) ∧ (∀ i, |R.collocationNodes qt hM raw a b i - c.nodes i| ≤ δ) ∧
    (δ ≤ 1 / (2 * 10 ^ 8) → (qt = "LOBATTO" ∨ qt = "RADAU-LEFT" → R.collocationNodes qt hM raw a b ⟨0, hM⟩ = a) ∧
      (qt = "LOBATTO" ∨ qt = "RADAU-RIGHT" → R.collocationNodes qt hM raw a b ⟨M - 1, by omega⟩ = b)) := by
  obtain ⟨x', hM', h⟩ := collocation_spec hc
  have := h.getNodes
  rw [hx] at this
  cases this
  have hba : 0 < b - a := sub_pos.2 hab
  have hu0 := R.u_nonneg
  have hM1 : (1:ℝ) ≤ M := by exact_mod_cast hM
  have h5 : ((5 : ℕ) : ℝ) * R.u < 1 := by push_cast; linarith [H.small]
  have hg : 0 ≤ gamma R.u 5 := by
    rw [gamma]; exact div_nonneg (by positivity) (by linarith)
  have he0 : 0 ≤ e := (abs_nonneg _).trans (he ⟨0, hM⟩)
  have hδ0 : 0 ≤ δ := le_trans (by positivity) H.node
  obtain ⟨gl, gr⟩ := nodes_gap_all hB.ortho h.hqt x hx hM
  obtain ⟨y, hy, hs, hr, hl, hrr⟩ := getNodes_all h.hnt h.hqt (validSize_of_getNodes hx)
  rw [hx] at hy
  cases hy
  have wide : 2 * (1 / 10 ^ 8 + 1 / 10 ^ 5 * (max |a| |b| + δ)) + δ < (b - a) * (1 / (2 * (M:ℝ) ^ 2) / 2) := by
    have h4 : (0:ℝ) < 4 * (M:ℝ) ^ 2 := by positivity
    have := H.wide
    rw [mul_comm, ← lt_div_iff₀ h4] at this
    refine this.trans_eq ?_
    field_simp
    ring
  set z : Fin M → ℝ := fun i => a + (b - a) * ((x i + 1) / 2) with hz
  have hzI : ∀ i, z i ∈ Set.Icc a b := fun i => by
    obtain ⟨h1, h2⟩ := hr i
    constructor
    · have : 0 ≤ (b - a) * ((x i + 1) / 2) := mul_nonneg hba.le (by linarith)
      simp only [hz]; linarith
    · have : (b - a) * ((x i + 1) / 2) ≤ (b - a) * 1 := mul_le_mul_of_nonneg_left (by linarith) hba.le
      simp only [hz]; linarith
  have hzm : ∀ i, |z i| ≤ max |a| |b| := fun i => abs_le_max_abs_abs (hzI i).1 (hzI i).2
  have kl : z ⟨0, hM⟩ = a ∨ 2 * (1 / 10 ^ 8 + 1 / 10 ^ 5 * (|z ⟨0, hM⟩| + δ)) + δ < |a - z ⟨0, hM⟩| := by
    rcases gl with g | g
    · left; simp only [hz, g]; ring
    · right
      have e1 : |a - z ⟨0, hM⟩| = (b - a) * ((1 + x ⟨0, hM⟩) / 2) := by
        rw [abs_sub_comm, abs_of_nonneg (sub_nonneg.2 (hzI _).1)]; simp only [hz]; ring
      rw [e1]
      have := mul_le_mul_of_nonneg_left (div_le_div_of_nonneg_right g zero_le_two) hba.le
      have := hzm ⟨0, hM⟩
      linarith
  have kr : z ⟨M - 1, by omega⟩ = b ∨
      2 * (1 / 10 ^ 8 + 1 / 10 ^ 5 * (|z ⟨M - 1, by omega⟩| + δ)) + δ < |b - z ⟨M - 1, by omega⟩| := by
    rcases gr with g | g
    · left; simp only [hz, g]; ring
    · right
      have e1 : |b - z ⟨M - 1, by omega⟩| = (b - a) * ((1 - x ⟨M - 1, by omega⟩) / 2) := by
        rw [abs_of_nonneg (sub_nonneg.2 (hzI _).2)]; simp only [hz]; ring
      rw [e1]
      have := mul_le_mul_of_nonneg_left (div_le_div_of_nonneg_right g zero_le_two) hba.le
      have := hzm ⟨M - 1, by omega⟩
      linarith
  have hun : ∀ i, c.nodes i = z i := by
    refine nodes_unsnapped c hc x hx hM ?_ ?_
    · rcases gl with g | g
      · exact Or.inl g
      · right
        intro hclose
        rcases kl with k | k
        · have : 0 < (b - a) * ((1 + x ⟨0, hM⟩) / 2) := by
            have : (0:ℝ) < 1 / (2 * (M:ℝ) ^ 2) := by positivity
            have : 0 < 1 + x ⟨0, hM⟩ := by linarith
            positivity
          simp only [hz] at k
          linarith
        · unfold npIsClose at hclose
          change |a - z ⟨0, hM⟩| ≤ 1 / 10 ^ 8 + 1 / 10 ^ 5 * |z ⟨0, hM⟩| at hclose
          have := abs_nonneg (z ⟨0, hM⟩)
          linarith
    · rcases gr with g | g
      · exact Or.inl g
      · right
        intro hclose
        rcases kr with k | k
        · have : 0 < (b - a) * ((1 - x ⟨M - 1, by omega⟩) / 2) := by
            have : (0:ℝ) < 1 / (2 * (M:ℝ) ^ 2) := by positivity
            have : 0 < 1 - x ⟨M - 1, by omega⟩ := by linarith
            positivity
          simp only [hz] at k
          linarith
        · unfold npIsClose at hclose
          change |b - z ⟨M - 1, by omega⟩| ≤ 1 / 10 ^ 8 + 1 / 10 ^ 5 * |z ⟨M - 1, by omega⟩| at hclose
          have := abs_nonneg (z ⟨M - 1, by omega⟩)
          linarith
  have s0 : ∀ i, |R.scaleNodes a b (overwriteEnds qt hM raw) i - z i| ≤ δ := fun i =>
    (scaleNodes_err R h5 hab hr (overwriteEnds_err h.hnt h.hqt hM hx he) i).trans H.node
  have s1 := snapAt_err R H.small hδ0 s0 kl
  have s2 := snapAt_err R H.small hδ0 s1 kr
  refine ⟨hun, fun i => by rw [hun]; exact s2 i, fun hδ => ⟨fun hq => ?_, fun hq => ?_⟩⟩
  · have z0 : z ⟨0, hM⟩ = a := by
      obtain ⟨k, hk⟩ := hl.mpr hq.symm
      have : x ⟨0, hM⟩ = -1 := by
        refine le_antisymm ?_ (hr _).1
        rw [← hk]
        exact hs.monotone (Fin.mk_le_of_le_val (Nat.zero_le _))
      simp only [hz, this]; ring
    have t1 := snapAt_eq R H.small s0 hδ z0
    have hv := validSize_of_getNodes hx
    have hM2 : 2 ≤ M := hv.2 hq
    rw [Rounding.collocationNodes, Rounding.snapAt]
    split_ifs
    · rw [Function.update_of_ne (fun hh => by rw [Fin.mk.injEq] at hh; omega)]; exact t1
    · exact t1
  · have z0 : z ⟨M - 1, by omega⟩ = b := by
      obtain ⟨k, hk⟩ := hrr.mpr hq.symm
      have : x ⟨M - 1, by omega⟩ = 1 := by
        refine le_antisymm (hr _).2 ?_
        rw [← hk]
        exact hs.monotone (Fin.le_def.2 (by simp; omega))
      simp only [hz, this]; ring
    exact snapAt_eq R H.small s1 hδ z0

theorem integral_basis_of_exact {M : ℕ} {z row : Fin M → ℝ} (hz : Function.Injective z) {l u : ℝ}
    (hex : ∀ p : ℝ[X], p.degree < M → ∑ j, row j * p.eval (z j) = ∫ t in l..u, p.eval t) (j : Fin M) :
    row j = ∫ t in l..u, (Lagrange.basis Finset.univ z j).eval t := by
  rw [← hex _ (degree_basis_lt hz j), Finset.sum_eq_single j]
  · rw [Lagrange.eval_basis_self hz.injOn (Finset.mem_univ j), mul_one]
  · intro k _ hk
    rw [Lagrange.eval_basis_of_ne hk.symm (Finset.mem_univ k), mul_zero]
  · exact fun h => absurd (Finset.mem_univ j) h

/-- C94: in rounded arithmetic, with eigenvalues of errors of at most `e`, the constructor of `Collocation` computes nodes, `Q`, `weights` and `S`
with errors of at most `δ` and `collocationErr`, and end nodes asked for are exactly the ends of the interval. -/
theorem C94_collocation {R : Rounding} {F : FejerOps} {M m : ℕ} {nt qt : String} {a b B e δ τ η : ℝ}
    (H : CollocationHyps R F M m a b B e δ τ η) (hab : a < b) (hB : LebesgueType nt qt M B) (c : Collocation M)
    (hc : Collocation.new M nt qt a b = .ok c) (x : Fin M → ℝ) (hx : getNodes ⟨nt, qt⟩ M = .ok x) (hM : 0 < M)
    {raw : Fin M → ℝ} (he : ∀ i, |raw i - x i| ≤ e) :
    ∃ S, c.S = .ok S ∧
    (∃ nodes Q' w' S', R.CollocationArrays F qt hM raw a b nodes Q' w' ∧ R.CollocationS F a nodes S') ∧
    ∀ nodes Q' w' S', R.CollocationArrays F qt hM raw a b nodes Q' w' → R.CollocationS F a nodes S' →
      (∀ i, |nodes i - c.nodes i| ≤ δ) ∧ (∀ i j, |Q' i j - c.Q i j| ≤ collocationErr R.u M m (b - a) B δ τ η) ∧
      (∀ j, |w' j - c.weights j| ≤ collocationErr R.u M m (b - a) B δ τ η) ∧
      (∀ i j, |S' i j - S i j| ≤ collocationErr R.u M m (b - a) B δ τ η) ∧
      (δ ≤ 1 / (2 * 10 ^ 8) → (qt = "LOBATTO" ∨ qt = "RADAU-LEFT" → nodes ⟨0, hM⟩ = a) ∧
        (qt = "LOBATTO" ∨ qt = "RADAU-RIGHT" → nodes ⟨M - 1, by omega⟩ = b)) := by
  obtain ⟨hun, hnode, hends⟩ := collocationNodes_err H hab hB c hc x hx hM he
  obtain ⟨x', hM', h⟩ := collocation_spec hc
  have := h.getNodes
  rw [hx] at this
  cases this
  have hs := h.strictMono hab
  have hI := (h.snapped hab).2
  have hL : ∀ t ∈ Set.Icc a b, lebesgue c.nodes t ≤ B := fun t ht =>
    lebesgue_scaled hab hun (fun s hs => lebesgue_of_type hB h.hqt x hx hs) ht
  obtain ⟨c', S, hc', hS, hex⟩ := C22_collocation_exact h.hnt h.hqt (validSize_of_getNodes hx) hab
  rw [hc] at hc'
  cases hc'
  set y := R.collocationNodes qt hM raw a b with hy
  have hδ0 : 0 ≤ δ := (abs_nonneg _).trans (hnode ⟨0, hM⟩)
  have row : ∀ {w : Fin M → ℝ}, R.Analytic y w → ∀ {l u l' u' : ℝ}, l ∈ Set.Icc a b → u ∈ Set.Icc a b → |l' - l| ≤ δ → |u' - u| ≤ δ →
      ∀ j, (∃ Q, R.FejerRow F y w l' u' Q) ∧ ∀ Q, R.FejerRow F y w l' u' Q →
        |Q j - ∫ t in l..u, (Lagrange.basis Finset.univ c.nodes j).eval t| ≤ collocationErr R.u M m (b - a) B δ τ η :=
    fun {_} hw {l u l' u'} hl hu hl' hu' j =>
      fejerRow_error R F hs.injective hab hI hL hnode H.stable hw H.exactInt H.odd hl hu hl' hu' rfl H.fejer H.fejerSmall H.time
        H.timeSmall H.size H.sum j
  have ha : a ∈ Set.Icc a b := ⟨le_rfl, hab.le⟩
  have hb : b ∈ Set.Icc a b := ⟨hab.le, le_rfl⟩
  have za : |a - a| ≤ δ := by rw [sub_self, abs_zero]; exact hδ0
  have zb : |b - b| ≤ δ := by rw [sub_self, abs_zero]; exact hδ0
  have hlI : ∀ i : Fin M, (if h : 0 < (i : ℕ) then c.nodes ⟨i - 1, by omega⟩ else a) ∈ Set.Icc a b := fun i => by
    by_cases hi : 0 < (i : ℕ)
    · rw [dif_pos hi]; exact hI _
    · rw [dif_neg hi]; exact ha
  have hlS : ∀ i : Fin M, |(if h : 0 < (i : ℕ) then y ⟨i - 1, by omega⟩ else a) -
      (if h : 0 < (i : ℕ) then c.nodes ⟨i - 1, by omega⟩ else a)| ≤ δ := fun i => by
    by_cases hi : 0 < (i : ℕ)
    · rw [dif_pos hi, dif_pos hi]; exact hnode _
    · rw [dif_neg hi, dif_neg hi]; exact za
  refine ⟨S, hS, ?_, ?_⟩
  · obtain ⟨w, hw⟩ := Rounding.Analytic.exists R y
    choose Q' hQ' using fun i => (row hw ha (hI i) za (hnode i) ⟨0, hM⟩).1
    obtain ⟨w', hw'⟩ := (row hw ha hb za zb ⟨0, hM⟩).1
    choose S' hS' using fun i => (row hw (hlI i) (hI i) (hlS i) (hnode i) ⟨0, hM⟩).1
    exact ⟨y, Q', w', S', ⟨rfl, w, hw, hQ', hw'⟩, w, hw, hS'⟩
  · rintro nodes Q' w' S' ⟨rfl, w, hw, hQ', hw'⟩ ⟨v, hv, hS'⟩
    refine ⟨hnode, fun i j => ?_, fun j => ?_, fun i j => ?_, hends⟩
    · rw [integral_basis_of_exact hs.injective (fun p hp => (hex p hp).1 i) j]
      exact (row hw ha (hI i) za (hnode i) j).2 _ (hQ' i)
    · rw [integral_basis_of_exact hs.injective (fun p hp => (hex p hp).2.1) j]
      exact (row hw ha hb za zb j).2 _ hw'
    · rw [integral_basis_of_exact hs.injective (fun p hp => (hex p hp).2.2 i) j]
      exact (row hv (hlI i) (hI i) (hlS i) (hnode i) j).2 _ (hS' i)

/-! ### Double precision, `[0, 1]` -/

theorem gamma_double {k : ℕ} (hk : k ≤ 400) : 0 ≤ gamma double.u k ∧ gamma double.u k ≤ k * (12 / 10 ^ 17) := by
  have hk' : (k:ℝ) ≤ 400 := by exact_mod_cast hk
  have hk0 : (0:ℝ) ≤ k := Nat.cast_nonneg k
  have hd : (0:ℝ) < 1 - k * double.u := by
    rw [double_u]
    have : (k:ℝ) * (1 / 2 ^ 53) ≤ 400 * (1 / 2 ^ 53) := mul_le_mul_of_nonneg_right hk' (by norm_num)
    norm_num at this ⊢
    linarith
  have hu : (0:ℝ) ≤ double.u := double.u_nonneg
  constructor
  · rw [gamma]; exact div_nonneg (by positivity) hd.le
  · rw [gamma, div_le_iff₀ hd, mul_assoc]
    refine mul_le_mul_of_nonneg_left ?_ hk0
    have : (k:ℝ) * double.u ≤ 400 * double.u := mul_le_mul_of_nonneg_right hk' hu
    rw [double_u] at this ⊢
    norm_num at this ⊢
    linarith

theorem collocationHyps_double {F : FejerOps} (hv : F.v ≤ 1 / 10 ^ 15) {e : ℝ} (he0 : 0 ≤ e) (he : e ≤ 1 / 10 ^ 9) {B : ℝ} (hB0 : 0 ≤ B)
    (hB : B ≤ 1200) {M m : ℕ} (h1 : 1 ≤ M) (hM : M ≤ 100) (hm : m = M - (M + 1) % 2)
    {η : ℝ} (hη : η = 4 * F.κ / m + 4 * (1 + F.κ) * F.ρ / √m) (hη' : η ≤ 1 / 10 ^ 15) :
    CollocationHyps double F M m 0 1 B e (e / 2 + 1 / 10 ^ 15) (2 / 10 ^ 15) η := by
  have hMr : (M:ℝ) ≤ 100 := by exact_mod_cast hM
  have h1r : (1:ℝ) ≤ M := by exact_mod_cast h1
  have hM' : ((M - 1 : ℕ) : ℝ) ≤ 100 := by exact_mod_cast (by omega : M - 1 ≤ 100)
  have hM0 : (0:ℝ) ≤ ((M - 1 : ℕ) : ℝ) := Nat.cast_nonneg _
  have hsq : ((M - 1 : ℕ) : ℝ) ^ 2 ≤ 10000 := by nlinarith
  have hsq0 : (0:ℝ) ≤ ((M - 1 : ℕ) : ℝ) ^ 2 := sq_nonneg _
  have hv0 := F.v_nonneg
  obtain ⟨g3, g3'⟩ := gamma_double (k := 3) (by norm_num)
  obtain ⟨g4, g4'⟩ := gamma_double (k := 4) (by norm_num)
  obtain ⟨g5, g5'⟩ := gamma_double (k := 5) (by norm_num)
  obtain ⟨gM, gM'⟩ := gamma_double (k := 3 * M + 2) (by omega)
  push_cast at g3' g4' g5' gM'
  have hpi := Real.pi_lt_d2
  have hpi0 := Real.pi_pos
  refine ⟨?_, fun k hk => double_nat (by omega), hm, ?_, ?_, ?_, hη, hη', ?_, ?_, ?_, ?_⟩
  · rw [double_u]; norm_num
  · rw [abs_zero]
    have h6 : gamma double.u 5 * (1 + e / 2) ≤ 5 * (12 / 10 ^ 17) * (1 + 1 / 10 ^ 9) :=
      mul_le_mul g5' (by linarith) (by linarith) (by norm_num)
    norm_num at h6 ⊢
    linarith
  · rw [abs_zero, abs_one]
    have h6 : (M:ℝ) ^ 2 ≤ 10000 := by nlinarith
    have h7 : 2 * (1 / 10 ^ 8 + 1 / 10 ^ 5 * (max 0 1 + (e / 2 + 1 / 10 ^ 15))) + (e / 2 + 1 / 10 ^ 15) ≤ (21 / 10 ^ 6 : ℝ) := by
      norm_num at he ⊢
      linarith
    refine (mul_le_mul (mul_le_mul_of_nonneg_left h6 (by norm_num)) h7 (by positivity) (by norm_num)).trans_lt ?_
    norm_num
  · have : ((M - 1 : ℕ) : ℝ) ^ 2 * B ≤ 10000 * 1200 := mul_le_mul hsq hB hB0 (by norm_num)
    have h7 : e / 2 + 1 / 10 ^ 15 ≤ (1 / 10 ^ 9 : ℝ) := by
      norm_num at he ⊢
      linarith
    have h8 := mul_le_mul this h7 (by positivity) (by norm_num)
    norm_num at h8 ⊢
    linarith
  · rw [abs_zero, abs_one]
    set G3 := gamma double.u 3
    set G4 := gamma double.u 4
    have hp : Real.pi * G3 ≤ 3.15 * (3 * (12 / 10 ^ 17)) := mul_le_mul hpi.le g3' g3 (by norm_num)
    have hp0 : 0 ≤ Real.pi * G3 := by positivity
    set E := F.v + Real.pi * G3 with hE
    have hE' : E ≤ 22 / 10 ^ 16 := by
      norm_num at hp hv ⊢
      linarith
    have hE0 : 0 ≤ E := by positivity
    have h4 : G4 * (1 + E) ≤ 5 / 10 ^ 16 := by
      refine (mul_le_mul g4' (by linarith : 1 + E ≤ 1 + 22 / 10 ^ 16) (by linarith) (by norm_num)).trans ?_
      norm_num
    have h5 : 0 ≤ G4 * (1 + E) + E := by positivity
    have h7 : e / 2 + 1 / 10 ^ 15 ≤ (1 / 10 ^ 9 : ℝ) := by
      norm_num at he ⊢
      linarith
    have h8 : (1 - 0 + 2 * (e / 2 + 1 / 10 ^ 15)) / 2 * (G4 * (1 + E) + E) ≤ (1 / 2 + 1 / 10 ^ 9) * (5 / 10 ^ 16 + 22 / 10 ^ 16) :=
      mul_le_mul (by linarith) (by linarith) h5 (by norm_num)
    have h9 : G3 * (max 0 1 + (e / 2 + 1 / 10 ^ 15)) ≤ 3 * (12 / 10 ^ 17) * (1 + 1 / 10 ^ 9) :=
      mul_le_mul g3' (by rw [max_eq_right zero_le_one]; linarith) (by positivity) (by norm_num)
    refine (add_le_add h8 h9).trans ?_
    norm_num
  · have h7 : e / 2 + 1 / 10 ^ 15 + 2 / 10 ^ 15 ≤ (1 / 10 ^ 9 : ℝ) := by
      norm_num at he ⊢
      linarith
    have h8 := mul_le_mul hsq h7 (by positivity) (by norm_num)
    norm_num at h8 ⊢
    linarith
  · rw [double_u]
    push_cast
    norm_num
    linarith
  · have : gamma double.u (3 * M + 2) ≤ 302 * (12 / 10 ^ 17) := gM'.trans (by
      apply mul_le_mul_of_nonneg_right <;> [linarith; norm_num])
    refine (mul_le_mul this (by linarith : 4 * B ≤ 4800) (by linarith) (by norm_num)).trans_lt ?_
    norm_num

set_option maxHeartbeats 600000 in
theorem collocationErr_double {e : ℝ} (he0 : 0 ≤ e) (he : e ≤ 1 / 10 ^ 9) {B : ℝ} (hB1 : 1 ≤ B) (hB : B ≤ 1200) {M m : ℕ} (h1 : 1 ≤ M)
    (hM : M ≤ 100) (hm : m ≤ M) {η : ℝ} (hη : η ≤ 1 / 10 ^ 15) (hη0 : 0 ≤ η) :
    collocationErr double.u M m (1 - 0) B (e / 2 + 1 / 10 ^ 15) (2 / 10 ^ 15) η ≤ (M:ℝ) ^ 2 * B ^ 2 * (12 * e + 1 / 10 ^ 13) := by
  have hMr : (M:ℝ) ≤ 100 := by exact_mod_cast hM
  have h1r : (1:ℝ) ≤ M := by exact_mod_cast h1
  have hmr : (m:ℝ) ≤ M := by exact_mod_cast hm
  have hm0 : (0:ℝ) ≤ m := Nat.cast_nonneg m
  have hM' : ((M - 1 : ℕ) : ℝ) ≤ M := by exact_mod_cast Nat.sub_le M 1
  have hM0 : (0:ℝ) ≤ ((M - 1 : ℕ) : ℝ) := Nat.cast_nonneg _
  have hsq : ((M - 1 : ℕ) : ℝ) ^ 2 ≤ (M:ℝ) ^ 2 := by nlinarith
  have hsq0 : (0:ℝ) ≤ ((M - 1 : ℕ) : ℝ) ^ 2 := sq_nonneg _
  obtain ⟨g, g'⟩ := gamma_double (k := 3 * M + 2) (by omega)
  obtain ⟨q, q'⟩ := gamma_double (k := m + 3) (by omega)
  push_cast at g' q'
  unfold collocationErr
  set G := gamma double.u (3 * M + 2)
  set K := gamma double.u (m + 3)
  set D := ((M - 1 : ℕ) : ℝ) ^ 2
  set x : ℝ := (M:ℝ)
  have hG : G ≤ 6 / 10 ^ 16 * x := by
    refine g'.trans ?_
    norm_num
    linarith
  have hK : K ≤ 48 / 10 ^ 17 * x := by
    refine q'.trans ?_
    norm_num
    linarith
  have hGx : G * (4 * B) ≤ 1 / 100 := by
    have : G * (4 * B) ≤ 6 / 10 ^ 16 * 100 * (4 * 1200) := by
      apply mul_le_mul <;> linarith
    norm_num at this ⊢
    linarith
  have hden : (0:ℝ) < 1 - G * (4 * B) := by linarith
  set P := G * (1 + 4 * B) / (1 - G * (4 * B)) with hP
  have hP0 : 0 ≤ P := div_nonneg (by positivity) hden.le
  have hxB0 : 0 ≤ x * B := by positivity
  have hxB : x * B ≤ 100 * 1200 := mul_le_mul hMr hB (by linarith) (by norm_num)
  have hP1 : P ≤ 31 / 10 ^ 16 * (x * B) := by
    rw [hP, div_le_iff₀ hden]
    have e1 : G * (1 + 4 * B) ≤ 6 / 10 ^ 16 * x * (5 * B) := by
      apply mul_le_mul <;> linarith
    have e2 : 31 / 10 ^ 16 * (x * B) * (99 / 100) ≤ 31 / 10 ^ 16 * (x * B) * (1 - G * (4 * B)) :=
      mul_le_mul_of_nonneg_left (by linarith) (by positivity)
    refine e1.trans (le_trans ?_ e2)
    have e3 : 6 / 10 ^ 16 * x * (5 * B) = 30 / 10 ^ 16 * (x * B) := by ring
    rw [e3]
    norm_num
    linarith
  have hP2 : 1 + P ≤ 101 / 100 := by
    norm_num at hP1 hxB ⊢
    linarith
  have hmη : m * η ≤ x * (1 / 10 ^ 15) := by apply mul_le_mul <;> first | assumption | linarith
  have hmη0 : 0 ≤ m * η := by positivity
  have i1 : (2 + m * η) * K + m * η ≤ 2 / 10 ^ 15 * x := by
    have : (2 + m * η) * K ≤ (201 / 100) * (48 / 10 ^ 17 * x) := by
      refine mul_le_mul ?_ hK q (by norm_num)
      norm_num at hmη ⊢
      linarith
    norm_num at this hmη ⊢
    linarith
  have i2 : (1 + P) * (4 * B) * ((2 + m * η) * K + m * η) ≤ 101 / 100 * (4 * B) * (2 / 10 ^ 15 * x) := by
    refine mul_le_mul (mul_le_mul_of_nonneg_right hP2 (by linarith)) i1 (by positivity) (by positivity)
  have i3 : P * (4 * B) ≤ 31 / 10 ^ 16 * (x * B) * (4 * B) := mul_le_mul_of_nonneg_right hP1 (by linarith)
  have i4 : 16 * D * B / (1 - 0) * (2 / 10 ^ 15) ≤ 32 / 10 ^ 15 * (x ^ 2 * B) := by
    have : D * B ≤ x ^ 2 * B := mul_le_mul_of_nonneg_right hsq (by linarith)
    norm_num at this ⊢
    linarith
  have i5 : D * B ^ 2 ≤ x ^ 2 * B ^ 2 := mul_le_mul_of_nonneg_right hsq (by positivity)
  have bb : B ≤ B ^ 2 := by nlinarith
  have xx : x ≤ x ^ 2 := by nlinarith
  have x2 : 1 ≤ x ^ 2 := by nlinarith
  set W := x ^ 2 * B ^ 2 with hW
  have w1 : x * B ≤ W := mul_le_mul xx bb (by linarith) (by positivity)
  have w2 : x * B ^ 2 ≤ W := mul_le_mul_of_nonneg_right xx (by positivity)
  have w3 : x ^ 2 * B ≤ W := mul_le_mul_of_nonneg_left bb (by positivity)
  have w4 : B ≤ W := bb.trans (le_mul_of_one_le_left (by positivity) x2)
  have w0 : 0 ≤ W := by positivity
  set T := (1 + P) * (4 * B) * ((2 + m * η) * K + m * η) + 2 * (P * (4 * B) + 16 * D * B / (1 - 0) * (2 / 10 ^ 15)) with hT
  have hTle : T ≤ 98 / 10 ^ 15 * W := by
    have e2 : 101 / 100 * (4 * B) * (2 / 10 ^ 15 * x) = 808 / 10 ^ 17 * (x * B) := by ring
    have e3 : 31 / 10 ^ 16 * (x * B) * (4 * B) = 124 / 10 ^ 16 * (x * B ^ 2) := by ring
    rw [e2] at i2
    rw [e3] at i3
    norm_num at i2 i3 i4 hT ⊢
    linarith
  have h7 : e / 2 + 1 / 10 ^ 15 ≤ (1 / 10 ^ 9 : ℝ) := by
    norm_num at he ⊢
    linarith
  have hT0 : 0 ≤ T := by
    have : 0 ≤ 16 * D * B / (1 - 0) * (2 / 10 ^ 15) := by
      rw [sub_zero, div_one]; positivity
    have : 0 ≤ P * (4 * B) := by positivity
    have : 0 ≤ (1 + P) * (4 * B) * ((2 + m * η) * K + m * η) := by positivity
    linarith
  have hfin : (1 - 0 + 2 * (e / 2 + 1 / 10 ^ 15)) / 2 * T ≤ 50 / 100 * (98 / 10 ^ 15 * W) + 1 / 10 ^ 16 * W := by
    refine (mul_le_mul (by linarith : (1 - 0 + 2 * (e / 2 + 1 / 10 ^ 15)) / 2 ≤ 1 / 2 + 1 / 10 ^ 9) hTle hT0 (by norm_num)).trans ?_
    norm_num
    linarith
  have e6 : (8 * B + 16 * D * B ^ 2) * (e / 2 + 1 / 10 ^ 15) ≤ 24 * W * (e / 2 + 1 / 10 ^ 15) := by
    exact mul_le_mul_of_nonneg_right (by linarith) (by positivity)
  refine (add_le_add hfin e6).trans ?_
  norm_num
  linarith

theorem LebesgueType.bounds {nt qt : String} {M : ℕ} {B : ℝ} (h : LebesgueType nt qt M B) (h1 : 1 ≤ M) (hM : M ≤ 100) : 1 ≤ B ∧ B ≤ 1200 := by
  have hMr : (M:ℝ) ≤ 100 := by exact_mod_cast hM
  have h1r : (1:ℝ) ≤ M := by exact_mod_cast h1
  have h2 : (M:ℝ) ^ 2 ≤ 10000 := by nlinarith
  have h2' : (1:ℝ) ≤ (M:ℝ) ^ 2 := by nlinarith
  have sq : ∀ {y : ℝ}, 1 ≤ y → y ≤ 1200 ^ 2 → 1 ≤ √y ∧ √y ≤ 1200 := fun {y} h3 h4 =>
    ⟨Real.one_le_sqrt.2 h3, Real.sqrt_le_iff.2 ⟨by norm_num, h4⟩⟩
  rcases h with ⟨-, rfl⟩ | ⟨-, -, rfl⟩ | ⟨-, rfl⟩ | ⟨-, rfl⟩ | ⟨-, rfl⟩
  · exact ⟨h1r, by linarith⟩
  · exact sq h1r (by linarith)
  · exact sq (by linarith) (by linarith)
  · have h3 : (M:ℝ) * (M + 1) ≤ 10100 := by nlinarith
    have h3' : 2 ≤ (M:ℝ) * (M + 1) := by nlinarith
    refine sq ?_ ?_
    · rw [le_div_iff₀ (by norm_num)]; nlinarith
    · rw [div_le_iff₀ (by norm_num)]; nlinarith
  · refine sq ?_ ?_
    · rw [le_div_iff₀ (by norm_num)]; nlinarith
    · rw [div_le_iff₀ (by norm_num)]; nlinarith

/-- C94, double precision: on `[0, 1]`, up to a hundred nodes computed with errors of at most `e ≤ 10⁻⁹` in `[-1, 1]` give nodes with errors of at most
`e / 2 + 10⁻¹⁵`, end nodes that are exactly `0` and `1` where they are asked for, and `Q`, `weights` and `S` with errors of at most
`M² B² (12 e + 10⁻¹³)`, where `B` is the bound of the Lebesgue function. -/
theorem C94_double {F : FejerOps} (hv : F.v ≤ 1 / 10 ^ 15) {M m : ℕ} (hM : 0 < M) (hM' : M ≤ 100) (hm : m = M - (M + 1) % 2)
    (hη : 4 * F.κ / m + 4 * (1 + F.κ) * F.ρ / √m ≤ 1 / 10 ^ 15) {nt qt : String} {B : ℝ} (hB : LebesgueType nt qt M B) (c : Collocation M)
    (hc : Collocation.new M nt qt 0 1 = .ok c) (x : Fin M → ℝ) (hx : getNodes ⟨nt, qt⟩ M = .ok x)
    {raw : Fin M → ℝ} {e : ℝ} (he' : e ≤ 1 / 10 ^ 9) (he : ∀ i, |raw i - x i| ≤ e) :
    ∃ S, c.S = .ok S ∧
    (∃ nodes Q' w' S', double.CollocationArrays F qt hM raw 0 1 nodes Q' w' ∧ double.CollocationS F 0 nodes S') ∧
    ∀ nodes Q' w' S', double.CollocationArrays F qt hM raw 0 1 nodes Q' w' → double.CollocationS F 0 nodes S' →
      (∀ i, |nodes i - c.nodes i| ≤ e / 2 + 1 / 10 ^ 15) ∧ (∀ i j, |Q' i j - c.Q i j| ≤ (M:ℝ) ^ 2 * B ^ 2 * (12 * e + 1 / 10 ^ 13)) ∧
      (∀ j, |w' j - c.weights j| ≤ (M:ℝ) ^ 2 * B ^ 2 * (12 * e + 1 / 10 ^ 13)) ∧
      (∀ i j, |S' i j - S i j| ≤ (M:ℝ) ^ 2 * B ^ 2 * (12 * e + 1 / 10 ^ 13)) ∧
      (qt = "LOBATTO" ∨ qt = "RADAU-LEFT" → nodes ⟨0, hM⟩ = 0) ∧
      (qt = "LOBATTO" ∨ qt = "RADAU-RIGHT" → nodes ⟨M - 1, by omega⟩ = 1) := by
  have he0 : 0 ≤ e := (abs_nonneg _).trans (he ⟨0, hM⟩)
  obtain ⟨hB1, hB2⟩ := hB.bounds hM hM'
  obtain ⟨S, hS, hex, h⟩ := C94_collocation (collocationHyps_double hv he0 he' (by linarith) hB2 hM hM' hm rfl hη) zero_lt_one hB c hc x hx hM he
  refine ⟨S, hS, hex, fun nodes Q' w' S' h1 h2 => ?_⟩
  obtain ⟨hn, hQ, hw, hS', hends⟩ := h nodes Q' w' S' h1 h2
  have hη0 : 0 ≤ 4 * F.κ / m + 4 * (1 + F.κ) * F.ρ / √m := by
    have := F.κ_nonneg
    have := F.ρ_nonneg
    positivity
  have hb := collocationErr_double he0 he' hB1 hB2 (M := M) (m := m) hM hM' (by omega) hη hη0
  exact ⟨hn, fun i j => (hQ i j).trans hb, fun j => (hw j).trans hb, fun i j => (hS' i j).trans hb, hends (by norm_num at he' ⊢; linarith)⟩

/-- Instance: five Radau nodes on `[0, 1]` in double precision. -/
example : ∃ c : Collocation 5, Collocation.new 5 "LEGENDRE" "RADAU-RIGHT" 0 1 = .ok c ∧
    ∃ x, getNodes ⟨"LEGENDRE", "RADAU-RIGHT"⟩ 5 = .ok x ∧
    ∃ nodes Q w, double.CollocationArrays double.fejerOps "RADAU-RIGHT" (by norm_num) x 0 1 nodes Q w ∧ nodes 4 = 1 ∧
      ∀ i j, |Q i j - c.Q i j| ≤ 1 / 10 ^ 10 := by
  obtain ⟨c, hc⟩ := collocation_new_ok (M := 5) (nt := "LEGENDRE") (qt := "RADAU-RIGHT") (by decide) (by decide)
    ⟨by norm_num, fun _ => by norm_num⟩ 0 1
  obtain ⟨x, hM, h⟩ := collocation_spec hc
  obtain ⟨S, hS, ⟨nodes, Q, w, S', h1, h2⟩, hall⟩ := C94_double (F := double.fejerOps)
    (by show double.u ≤ _; rw [double_u]; norm_num) (by norm_num) (by norm_num) (m := 5) rfl
    (by show 4 * double.u / (5:ℕ) + 4 * (1 + double.u) * 0 / √(5:ℕ) ≤ _; rw [double_u]; norm_num) (Or.inl ⟨rfl, rfl⟩) c hc x h.getNodes
    (raw := x) (e := 0) (by norm_num) (fun i => by rw [sub_self, abs_zero])
  obtain ⟨-, hQ, -, -, -, hr⟩ := hall nodes Q w S' h1 h2
  refine ⟨c, hc, x, h.getNodes, nodes, Q, w, h1, hr (Or.inr rfl), fun i j => (hQ i j).trans ?_⟩
  norm_num

end QMat
