import Verif.Lemmas.Rounding
import Verif.Lemmas.Deriv
import Verif.Lemmas.Lagrange
import Verif.Spec.Rounding

/-!
# Rounding errors of the barycentric formulas
-/

namespace QMat

open Finset Polynomial LagrangeApproximation

theorem Rounding.exp_sub_one_le (R : Rounding) {k : ℕ} (hk : k * R.u < 1) :
    Real.exp (k * R.ω) - 1 ≤ Spec.gamma R.u k := by
  have hu : 0 < 1 - R.u := by linarith [R.u_lt_one]
  have h1 : Real.exp (k * R.ω) = 1 / (1 - R.u) ^ k := by
    rw [mul_comm, Real.exp_mul, Real.rpow_natCast, R.exp_ω, div_pow, one_pow]
  have h2 : 1 - k * R.u ≤ (1 - R.u) ^ k := by
    have := one_add_mul_le_pow (a := -R.u) (by linarith [R.u_lt_one]) k
    calc 1 - k * R.u = 1 + k * -R.u := by ring
      _ ≤ (1 + -R.u) ^ k := this
      _ = _ := by ring_nf
  have h3 : 1 / (1 - R.u) ^ k ≤ 1 / (1 - k * R.u) := one_div_le_one_div_of_le (by linarith) h2
  have h4 : Spec.gamma R.u k = 1 / (1 - k * R.u) - 1 := by
    unfold Spec.gamma
    field_simp [show (1 - k * R.u) ≠ 0 by linarith]
    ring
  rw [h1, h4]
  linarith

/-- Relative error of a quantity known up to a factor. -/
theorem Rounding.rel_err (R : Rounding) {k : ℕ} (hk : k * R.u < 1) {φ a : ℝ} (h : Within (k * R.ω) φ) :
    |a * φ - a| ≤ Spec.gamma R.u k * |a| := by
  rw [← mul_sub_one, abs_mul, mul_comm]
  exact mul_le_mul_of_nonneg_right (h.abs_sub_one_le.trans (R.exp_sub_one_le hk)) (abs_nonneg _)

/-- Weights up to a common factor and factors near one. -/
def ApproxW {n : ℕ} (x : Fin n → ℝ) (ε : ℝ) (w : Fin n → ℝ) : Prop :=
  ∃ c : ℝ, c ≠ 0 ∧ ∀ j, ∃ φ, Within ε φ ∧ w j = c * Lagrange.nodalWeight univ x j * φ

variable {R : Rounding} {n : ℕ} {x w : Fin n → ℝ}

theorem diffs_eq (x : Fin n → ℝ) (i j : Fin n) :
    ∃ φ, Within (if i = j then 0 else R.ω) φ ∧ R.diffs x i j = wDiffs x i j * φ := by
  by_cases h : i = j
  · exact ⟨1, by simpa [h] using Within.one le_rfl, by simp [Rounding.diffs, wDiffs, h]⟩
  · obtain ⟨φ, h1, h2⟩ := R.fl_eq (x i - x j)
    exact ⟨φ, by simpa [h] using h1, by simpa [Rounding.diffs, wDiffs, h] using h2⟩

theorem analytic_eq (h : R.Analytic x w) (i : Fin n) :
    ∃ φ, Within ((2 * n - 1) * R.ω) φ ∧ w i = Lagrange.nodalWeight univ x i * φ := by
  obtain ⟨p, hp, hw⟩ := h i
  obtain ⟨φ, h1, h2⟩ := hp.prod (by simpa using i.pos)
  choose ψ hψ hd using diffs_eq (R := R) x i
  obtain ⟨χ, h3, h4⟩ := R.fl_eq (1 / p)
  refine ⟨((∏ j, ψ j) * φ)⁻¹ * χ, ?_, ?_⟩
  · refine (((Within.prod fun j _ => hψ j).mul h1).inv.mul h3).mono (le_of_eq ?_)
    have : ∑ j : Fin n, (if i = j then 0 else R.ω) = (n - 1) * R.ω := by
      have h5 : ∀ j, (if i = j then 0 else R.ω) = R.ω - if i = j then R.ω else 0 := fun j => by split_ifs <;> simp
      rw [Finset.sum_congr rfl fun j _ => h5 j, Finset.sum_sub_distrib, Finset.sum_ite_eq, if_pos (Finset.mem_univ _)]
      simp
      ring
    rw [this, Fintype.card_fin]
    ring
  · rw [hw, h4, h2, ← analyticWeights_eq, analyticWeights, Finset.prod_congr rfl fun j _ => hd j,
      Finset.prod_mul_distrib]
    rw [one_div, mul_inv, mul_inv, mul_inv]
    ring

theorem analytic_approx (h : R.Analytic x w) : ApproxW x ((2 * n - 1) * R.ω) w :=
  ⟨1, one_ne_zero, fun j => by simpa using analytic_eq h j⟩

theorem approx_ne_zero (hx : Function.Injective x) {ε : ℝ} (h : ApproxW x ε w) (j : Fin n) : w j ≠ 0 := by
  obtain ⟨c, hc, h⟩ := h
  obtain ⟨φ, h1, h2⟩ := h j
  rw [h2]
  exact mul_ne_zero (mul_ne_zero hc (Lagrange.nodalWeight_ne_zero hx.injOn (Finset.mem_univ j))) h1.ne

/-- The maximum of the absolute values is not zero. -/
theorem sup_pos (hx : Function.Injective x) {ε : ℝ} (h : ApproxW x ε w) (i : Fin n) : 0 < ⨆ j, |w j| :=
  (abs_pos.2 (approx_ne_zero hx h i)).trans_le (le_ciSup (Set.finite_range fun j => |w j|).bddAbove i)

theorem scaled_approx (hx : Function.Injective x) {ε : ℝ} (h : ApproxW x ε w) : ApproxW x (ε + R.ω) (R.scaled w) := by
  rcases n.eq_zero_or_pos with rfl | hn
  · exact ⟨1, one_ne_zero, fun j => j.elim0⟩
  have hs := sup_pos hx h ⟨0, hn⟩
  obtain ⟨c, hc, h⟩ := h
  refine ⟨c / ⨆ j, |w j|, div_ne_zero hc hs.ne', fun j => ?_⟩
  obtain ⟨φ, h1, h2⟩ := h j
  obtain ⟨χ, h3, h4⟩ := R.fl_eq (w j / ⨆ j, |w j|)
  refine ⟨φ * χ, h1.mul h3, ?_⟩
  rw [Rounding.scaled, h4]
  nth_rewrite 1 [h2]
  ring

/-! ## Weights by logarithms -/

theorem sum_erase_const (i : Fin n) (a : ℝ) : ∑ _j ∈ univ.erase i, a = (n - 1) * a := by
  rw [Finset.sum_const, Finset.card_erase_of_mem (Finset.mem_univ i), Finset.card_univ, Fintype.card_fin, nsmul_eq_mul,
    Nat.cast_sub i.pos, Nat.cast_one]

/-- Errors of `wLog`. -/
theorem wLog_err (F : Rounding.Elementary) (hx : Function.Injective x) {T : ℝ} {i : Fin n}
    (hT : ∑ k ∈ univ.erase i, |Real.log (|x i - x k|)| ≤ T) {s : ℝ} (hs : R.NpSum (fun j => F.log |R.diffs x i j|) s) :
    let g := Real.exp (-Real.log (1 - F.v) + (n - 1) * R.ω) - 1
    |s - ∑ k ∈ univ.erase i, Real.log (|x i - x k|)| ≤ g * T + (n - 1) * (R.ω * (1 + g)) := by
  intro g
  have hω := R.ω_nonneg
  obtain ⟨ψ, hψ, hse⟩ := hs.sum (by simpa using i.pos)
  rw [Fintype.card_fin] at hψ
  have h0 : F.log |R.diffs x i i| = 0 := by
    have := F.log_err 1
    rw [Real.log_one, abs_zero, mul_zero, sub_zero, abs_nonpos_iff] at this
    rw [Rounding.diffs, if_pos rfl, abs_one, this]
  have hterm : ∀ k ∈ univ.erase i, |F.log |R.diffs x i k| * ψ k - Real.log (|x i - x k|)|
      ≤ g * |Real.log (|x i - x k|)| + R.ω * (1 + g) := by
    intro k hk
    have hki := (Finset.ne_of_mem_erase hk).symm
    have hd : x i - x k ≠ 0 := sub_ne_zero.2 fun e => hki (hx e)
    obtain ⟨φ, h1, h2⟩ := R.fl_eq (x i - x k)
    have h3 : Real.log |R.diffs x i k| = Real.log (|x i - x k|) + Real.log φ := by
      rw [Rounding.diffs, if_neg hki, h2, abs_mul, abs_of_pos h1.1, Real.log_mul (abs_ne_zero.2 hd) h1.ne]
    set l := Real.log (|x i - x k|) with hl
    obtain ⟨θ, h4, h5⟩ : ∃ θ, Within (-Real.log (1 - F.v)) θ ∧ F.log |R.diffs x i k| = (l + Real.log φ) * θ := by
      have he := F.log_err |R.diffs x i k|
      rw [h3] at he
      by_cases hz : l + Real.log φ = 0
      · rw [hz, abs_zero, mul_zero, sub_zero, abs_nonpos_iff] at he
        refine ⟨1, Rounding.within_of_err F.v_lt_one (by simpa using F.v_nonneg), by rw [he, hz, zero_mul]⟩
      · refine ⟨F.log |R.diffs x i k| / (l + Real.log φ), Rounding.within_of_err F.v_lt_one ?_, by field_simp⟩
        have : F.log |R.diffs x i k| / (l + Real.log φ) - 1
            = (F.log |R.diffs x i k| - (l + Real.log φ)) / (l + Real.log φ) := by field_simp
        rw [this, abs_div, div_le_iff₀ (abs_pos.2 hz)]
        exact he
    have h6 := (h4.mul (hψ k)).abs_sub_one_le
    have h7 : 0 ≤ g := (abs_nonneg _).trans h6
    have h8 : θ * ψ k ≤ 1 + g := by linarith [(h4.mul (hψ k)).le]
    have e : F.log |R.diffs x i k| * ψ k - l = l * (θ * ψ k - 1) + Real.log φ * (θ * ψ k) := by rw [h5]; ring
    rw [e]
    refine (abs_add_le _ _).trans (add_le_add ?_ ?_)
    · rw [abs_mul, mul_comm]
      exact mul_le_mul_of_nonneg_right h6 (abs_nonneg _)
    · rw [abs_mul, abs_of_pos (h4.mul (hψ k)).1]
      exact mul_le_mul h1.2 h8 (h4.mul (hψ k)).1.le hω
  have hg : 0 ≤ g := by
    have : 0 ≤ -Real.log (1 - F.v) + (n - 1) * R.ω := by
      have h1 := Real.log_nonpos (by linarith [F.v_lt_one]) (by linarith [F.v_nonneg] : 1 - F.v ≤ 1)
      have h2 : (1 : ℝ) ≤ n := by exact_mod_cast i.pos
      nlinarith
    have := Real.one_le_exp this
    linarith
  rw [hse, ← Finset.add_sum_erase _ _ (Finset.mem_univ i), h0, zero_mul, zero_add, ← Finset.sum_sub_distrib]
  calc _ ≤ ∑ k ∈ univ.erase i, (g * |Real.log (|x i - x k|)| + R.ω * (1 + g)) :=
        (Finset.abs_sum_le_sum_abs _ _).trans (Finset.sum_le_sum hterm)
    _ = g * ∑ k ∈ univ.erase i, |Real.log (|x i - x k|)| + (n - 1) * (R.ω * (1 + g)) := by
        rw [Finset.sum_add_distrib, ← Finset.mul_sum, sum_erase_const]
    _ ≤ _ := by
        have := mul_le_mul_of_nonneg_left hT hg
        linarith

theorem npSign_one : npSign 1 = 1 := by simp [npSign]

theorem npSign_mul_pos (a : ℝ) {φ : ℝ} (h : 0 < φ) : npSign (a * φ) = npSign a := by
  unfold npSign
  simp only [mul_pos_iff_of_pos_right h, mul_neg_iff, h, h.not_gt, and_false, and_true, or_false, false_or]

theorem logScale_approx {F : Rounding.Elementary} {scaleRef : String} (hx : Function.Injective x)
    (hw : R.LogScale F scaleRef x w) {T : ℝ} (hT : ∀ j, ∑ k ∈ univ.erase j, |Real.log (|x j - x k|)| ≤ T) :
    ∃ c : ℝ, 0 < c ∧ ∀ j, ∃ φ, Within (Spec.logScaleErr R.u F.v n T) φ ∧ w j = c * Lagrange.nodalWeight univ x j * φ := by
  obtain ⟨wLog, hl, k, -, hwe⟩ := hw
  set g := Real.exp (-Real.log (1 - F.v) + (n - 1) * R.ω) - 1 with hg
  set η := g * T + (n - 1) * (R.ω * (1 + g)) with hη
  have herr : ∀ i, |wLog i - -∑ k ∈ univ.erase i, Real.log (|x i - x k|)| ≤ η := by
    intro i
    obtain ⟨s, hs, he⟩ := hl i
    have := wLog_err F hx (hT i) hs
    rw [he, neg_sub_neg, abs_sub_comm]
    exact this
  have hsize : ∀ i, |wLog i| ≤ T + η := by
    intro i
    have h1 : |-∑ k ∈ univ.erase i, Real.log (|x i - x k|)| ≤ T := by
      rw [abs_neg]
      exact (Finset.abs_sum_le_sum_abs _ _).trans (hT i)
    have : wLog i = (wLog i - -∑ k ∈ univ.erase i, Real.log (|x i - x k|)) + -∑ k ∈ univ.erase i, Real.log (|x i - x k|) := by
      ring
    rw [this]
    refine (abs_add_le _ _).trans ?_
    linarith [herr i]
  refine ⟨Real.exp (-wLog k), Real.exp_pos _, fun i => ?_⟩
  have hd : ∀ j ∈ univ.erase i, x i - x j ≠ 0 := fun j hj => sub_ne_zero.2 fun e => (Finset.ne_of_mem_erase hj).symm (hx e)
  -- the signs
  have hsign : ∏ j, npSign (R.diffs x i j) = ∏ j ∈ univ.erase i, npSign (x i - x j) := by
    rw [← Finset.mul_prod_erase _ _ (Finset.mem_univ i), Rounding.diffs, if_pos rfl, npSign_one, one_mul]
    refine Finset.prod_congr rfl fun j hj => ?_
    obtain ⟨φ, h1, h2⟩ := R.fl_eq (x i - x j)
    rw [Rounding.diffs, if_neg (Finset.ne_of_mem_erase hj).symm, h2, npSign_mul_pos _ h1.1]
  have hnod : Lagrange.nodalWeight univ x i =
      Real.exp (-∑ k ∈ univ.erase i, Real.log (|x i - x k|)) * ∏ j ∈ univ.erase i, npSign (x i - x j) := by
    rw [Lagrange.nodalWeight, Real.exp_neg, Real.exp_sum, ← Finset.prod_inv_distrib, ← Finset.prod_mul_distrib]
    refine Finset.prod_congr rfl fun j hj => ?_
    have h := hd j hj
    rw [Real.exp_log (abs_pos.2 h)]
    have h1 := npSign_mul_abs (x i - x j)
    have h2 := npSign_inv h
    rw [← h2, ← mul_inv, mul_comm, h1]
  set e1 := wLog i - -∑ k ∈ univ.erase i, Real.log (|x i - x k|) with he1
  obtain ⟨e2, he2, hfl⟩ : ∃ e2, |e2| ≤ R.u * (2 * (T + η)) ∧ R.fl (wLog i - wLog k) = wLog i - wLog k + e2 := by
    refine ⟨R.fl (wLog i - wLog k) - (wLog i - wLog k), (R.err _).trans ?_, by ring⟩
    refine mul_le_mul_of_nonneg_left ((abs_sub _ _).trans ?_) R.u_nonneg
    linarith [hsize i, hsize k]
  obtain ⟨θ, h4, h5⟩ : ∃ θ, Within (-Real.log (1 - F.v)) θ ∧
      F.exp (R.fl (wLog i - wLog k)) = Real.exp (R.fl (wLog i - wLog k)) * θ := by
    have he := F.exp_err (R.fl (wLog i - wLog k))
    have hp := Real.exp_pos (R.fl (wLog i - wLog k))
    refine ⟨F.exp (R.fl (wLog i - wLog k)) / Real.exp (R.fl (wLog i - wLog k)), Rounding.within_of_err F.v_lt_one ?_,
      by field_simp⟩
    have : F.exp (R.fl (wLog i - wLog k)) / Real.exp (R.fl (wLog i - wLog k)) - 1
        = (F.exp (R.fl (wLog i - wLog k)) - Real.exp (R.fl (wLog i - wLog k))) / Real.exp (R.fl (wLog i - wLog k)) := by
      field_simp
    rw [this, abs_div, abs_of_pos hp, div_le_iff₀ hp]
    exact he
  obtain ⟨χ, h6, h7⟩ := R.fl_eq (F.exp (R.fl (wLog i - wLog k)) * ∏ j, npSign (R.diffs x i j))
  refine ⟨Real.exp e1 * Real.exp e2 * θ * χ,
    (((Within.of_exp (herr i)).mul (Within.of_exp he2)).mul h4).mul h6, ?_⟩
  rw [hwe, h7, h5, hfl, hsign, hnod]
  have : Real.exp (wLog i - wLog k + e2) = Real.exp (-wLog k) * Real.exp (-∑ k ∈ univ.erase i, Real.log (|x i - x k|))
      * (Real.exp e1 * Real.exp e2) := by
    rw [← Real.exp_add, ← Real.exp_add, ← Real.exp_add]
    congr 1
    rw [he1]; ring
  rw [this]
  ring

/-! ## Interpolation -/

/-- A row away from the points: perturbed numerators over a perturbed sum. -/
theorem row_eq {ε : ℝ} (h : ApproxW x ε w) {t : ℝ} (ht : ∀ j, t ≠ x j) {P : Fin n → ℝ}
    (hn : 0 < n) (hP : R.InterpolationRow x w t P) :
    ∃ φ ψ : Fin n → ℝ, (∀ j, Within (ε + 4 * R.ω) (φ j)) ∧ (∀ j, Within (ε + (n + 2) * R.ω) (ψ j)) ∧
      ∀ j, P j = (Lagrange.basis univ x j).eval t * φ j / ∑ k, (Lagrange.basis univ x k).eval t * ψ k := by
  obtain ⟨c, hc, h⟩ := h
  obtain ⟨S, hS, hP⟩ := hP
  have hd : ∀ j, t - x j ≠ 0 := fun j => sub_ne_zero.2 (ht j)
  have hno : ¬ ∃ k, R.fl (t - x k) = 0 := by
    rintro ⟨k, hk⟩
    exact hd k (R.fl_eq_zero.1 hk)
  set L := (Lagrange.nodal univ x).eval t with hL
  have hL0 : L ≠ 0 := by
    rw [hL, Lagrange.eval_nodal]
    exact Finset.prod_ne_zero_iff.2 fun j _ => hd j
  have hterm : ∀ j, ∃ φ, Within (ε + 3 * R.ω) φ ∧
      R.rowTerms x w t j = c / L * ((Lagrange.basis univ x j).eval t * φ) := by
    intro j
    obtain ⟨φ, h1, h2⟩ := h j
    obtain ⟨a, a1, a2⟩ := R.fl_eq (t - x j)
    obtain ⟨b, b1, b2⟩ := R.fl_eq (1 / R.fl (t - x j))
    obtain ⟨d, d1, d2⟩ := R.fl_eq (R.fl (1 / R.fl (t - x j)) * w j)
    refine ⟨φ * a⁻¹ * b * d, (((h1.mul a1.inv).mul b1).mul d1).mono (by linarith), ?_⟩
    rw [Rounding.rowTerms, if_neg hno, d2, b2, a2, h2,
      Lagrange.eval_basis_not_at_node (Finset.mem_univ j) (ht j), ← hL]
    field_simp
  choose φ hφ hrow using hterm
  obtain ⟨ψ, hψ, hSe⟩ := hS.sum (by simpa using hn)
  have hq : ∀ j, ∃ χ, Within R.ω χ ∧ P j = R.rowTerms x w t j / S * χ := fun j => by
    obtain ⟨χ, h1, h2⟩ := R.fl_eq (R.rowTerms x w t j / S)
    exact ⟨χ, h1, by rw [hP, h2]⟩
  choose χ hχ hPe using hq
  refine ⟨fun j => φ j * χ j, fun j => φ j * ψ j, fun j => ((hφ j).mul (hχ j)).mono (by linarith), fun j => ?_, fun j => ?_⟩
  · refine ((hφ j).mul (hψ j)).mono (le_of_eq ?_)
    rw [Fintype.card_fin]
    ring
  · have hS' : S = c / L * ∑ k, (Lagrange.basis univ x k).eval t * (φ k * ψ k) := by
      rw [hSe, Finset.mul_sum]
      refine Finset.sum_congr rfl fun k _ => ?_
      rw [hrow]; ring
    rw [hPe, hS', hrow]
    have hcL : c / L ≠ 0 := div_ne_zero hc hL0
    rw [mul_div_mul_left _ _ hcL]
    ring

/-- The bound of a perturbed quotient. -/
theorem quotient_bound {l : Fin n → ℝ} (hl : ∑ j, l j = 1) {g : ℝ} {φ ψ : Fin n → ℝ} (hφ : ∀ j, |φ j - 1| ≤ g)
    (hψ : ∀ j, |ψ j - 1| ≤ g) (hg : g * ∑ j, |l j| < 1) (f : Fin n → ℝ) :
    |∑ j, l j * φ j / (∑ k, l k * ψ k) * f j - ∑ j, l j * f j|
      ≤ g * (1 + ∑ j, |l j|) / (1 - g * ∑ j, |l j|) * ∑ j, |l j| * |f j| := by
  set S := ∑ k, l k * ψ k with hS
  set Λ := ∑ j, |l j| with hΛ
  have hS1 : |S - 1| ≤ g * Λ := by
    have : S - 1 = ∑ k, l k * (ψ k - 1) := by
      have h1 : S - 1 = S - ∑ k, l k := by rw [hl]
      rw [h1, hS, ← Finset.sum_sub_distrib]
      exact Finset.sum_congr rfl fun k _ => by ring
    rw [this, hΛ, Finset.mul_sum]
    refine (Finset.abs_sum_le_sum_abs _ _).trans (Finset.sum_le_sum fun k _ => ?_)
    rw [abs_mul, mul_comm]
    exact mul_le_mul_of_nonneg_right (hψ k) (abs_nonneg _)
  have hSpos : 1 - g * Λ ≤ S := by linarith [(abs_le.1 hS1).1]
  have hS0 : 0 < S := by linarith
  have hden : 0 < 1 - g * Λ := by linarith
  have hd : ∑ j, l j * φ j / S * f j - ∑ j, l j * f j = ∑ j, l j * f j * ((φ j - S) / S) := by
    rw [← Finset.sum_sub_distrib]
    refine Finset.sum_congr rfl fun j _ => ?_
    field_simp
  rw [hd, Finset.mul_sum]
  refine (Finset.abs_sum_le_sum_abs _ _).trans (Finset.sum_le_sum fun j _ => ?_)
  rw [abs_mul, abs_mul, mul_comm]
  refine mul_le_mul_of_nonneg_right ?_ (by positivity)
  rw [abs_div, abs_of_pos hS0]
  have h1 : |φ j - S| ≤ g * (1 + Λ) := by
    have : φ j - S = (φ j - 1) - (S - 1) := by ring
    rw [this]
    refine (abs_sub _ _).trans ?_
    linarith [hφ j]
  exact div_le_div₀ ((abs_nonneg _).trans h1) h1 hden hSpos

/-! ## Derivatives -/

theorem dDiff_eq (hx : Function.Injective x) {i j : Fin n} (hij : i ≠ j) :
    ∃ φ, Within (2 * R.ω) φ ∧ R.dDiff x i j = 1 / (x i - x j) * φ := by
  have hd : x i - x j ≠ 0 := sub_ne_zero.2 fun e => hij (hx e)
  obtain ⟨a, a1, a2⟩ := R.fl_eq (x i - x j)
  obtain ⟨b, b1, b2⟩ := R.fl_eq (1 / R.fl (x i - x j))
  refine ⟨a⁻¹ * b, (a1.inv.mul b1).mono (by linarith), ?_⟩
  rw [Rounding.dDiff, if_neg (fun h => hd (R.fl_eq_zero.1 h)), b2, a2]
  rw [one_div, mul_inv]
  ring

theorem dBase_eq (hx : Function.Injective x) {ε : ℝ} (h : ApproxW x ε w) {i j : Fin n} (hij : i ≠ j) :
    ∃ φ, Within (2 * ε + 4 * R.ω) φ ∧
      R.dBase x w i j = (derivative (Lagrange.basis univ x j)).eval (x i) * φ := by
  obtain ⟨c, hc, h⟩ := h
  obtain ⟨φ, h1, h2⟩ := h i
  obtain ⟨ψ, h3, h4⟩ := h j
  obtain ⟨a, a1, a2⟩ := dDiff_eq (R := R) hx hij
  obtain ⟨b, b1, b2⟩ := R.fl_eq (w j / w i)
  obtain ⟨d, d1, d2⟩ := R.fl_eq (R.fl (w j / w i) * R.dDiff x i j)
  refine ⟨ψ * φ⁻¹ * b * a * d, ((((h3.mul h1.inv).mul b1).mul a1).mul d1).mono (by linarith), ?_⟩
  rw [Rounding.dBase, d2, b2, a2, h2, h4, eval_derivative_basis_ne hx hij, mul_assoc c, mul_assoc c, mul_div_mul_left _ _ hc]
  rw [mul_div_mul_comm]
  ring

theorem dBase_self_zero (i : Fin n) : R.dBase x w i i = 0 := by
  rw [Rounding.dBase, Rounding.dDiff, sub_self, R.fl_zero, if_pos rfl, mul_zero, R.fl_zero]

/-- Entries of the second derivative matrix off the diagonal. -/
theorem d2_eq (hx : Function.Injective x) {ε : ℝ} (h : ApproxW x ε w) {i j : Fin n} (hij : i ≠ j) {S : ℝ}
    (hS : R.NpSum (R.dBase x w i) S) :
    ∃ (χ : ℝ) (φ : Fin n → ℝ), Within (4 * ε + (n + 10) * R.ω) χ ∧ (∀ k, Within (4 * ε + (n + 10) * R.ω) (φ k)) ∧
      R.fl (R.fl (-2 * R.dBase x w i j) * R.fl (R.dDiff x i j + S))
        = -2 * (derivative (Lagrange.basis univ x j)).eval (x i) *
          (1 / (x i - x j) * χ + ∑ k ∈ univ.erase i, (derivative (Lagrange.basis univ x k)).eval (x i) * φ k) := by
  have hε : 0 ≤ ε := by
    obtain ⟨c, hc, h⟩ := h
    obtain ⟨φ, h1, -⟩ := h i
    exact h1.nonneg
  have hω := R.ω_nonneg
  have hn : (1 : ℝ) ≤ n := by exact_mod_cast i.pos
  obtain ⟨b, b1, b2⟩ := dBase_eq (R := R) hx h hij
  have hk : ∀ k, ∃ φ, Within (2 * ε + 4 * R.ω) φ ∧
      (k ≠ i → R.dBase x w i k = (derivative (Lagrange.basis univ x k)).eval (x i) * φ) := fun k => by
    by_cases hki : k = i
    · exact ⟨1, .one (by linarith), fun h => absurd hki h⟩
    · obtain ⟨φ, h1, h2⟩ := dBase_eq (R := R) hx h (Ne.symm hki)
      exact ⟨φ, h1, fun _ => h2⟩
  choose φ hφ hb using hk
  obtain ⟨ψ, hψ, hSe⟩ := hS.sum (by simpa using i.pos)
  rw [Fintype.card_fin] at hψ
  have hsum : S = ∑ k ∈ univ.erase i, (derivative (Lagrange.basis univ x k)).eval (x i) * (φ k * ψ k) := by
    rw [hSe, ← Finset.add_sum_erase _ _ (Finset.mem_univ i), dBase_self_zero, zero_mul, zero_add]
    refine Finset.sum_congr rfl fun k hk => ?_
    rw [hb k (Finset.ne_of_mem_erase hk), mul_assoc]
  obtain ⟨d, d1, d2⟩ := dDiff_eq (R := R) hx hij
  obtain ⟨p, p1, p2⟩ := R.fl_eq (-2 * R.dBase x w i j)
  obtain ⟨q, q1, q2⟩ := R.fl_eq (R.dDiff x i j + S)
  obtain ⟨r, r1, r2⟩ := R.fl_eq (R.fl (-2 * R.dBase x w i j) * R.fl (R.dDiff x i j + S))
  refine ⟨d * (b * p * q * r), fun k => φ k * ψ k * (b * p * q * r), ?_, fun k => ?_, ?_⟩
  · refine (d1.mul (((b1.mul p1).mul q1).mul r1)).mono ?_
    nlinarith
  · refine (((hφ k).mul (hψ k)).mul (((b1.mul p1).mul q1).mul r1)).mono ?_
    nlinarith
  · have : ∑ k ∈ univ.erase i, (derivative (Lagrange.basis univ x k)).eval (x i) * (φ k * ψ k * (b * p * q * r))
        = S * (b * p * q * r) := by
      rw [hsum, Finset.sum_mul]
      exact Finset.sum_congr rfl fun k _ => by ring
    rw [this, r2, q2, p2, b2, d2]
    ring

end QMat
