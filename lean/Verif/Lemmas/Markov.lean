import Mathlib.Analysis.SpecialFunctions.Trigonometric.Chebyshev.Extremal
import Mathlib.Analysis.Calculus.Deriv.Polynomial
import Mathlib.Analysis.Calculus.MeanValue
import Mathlib.Topology.Algebra.Polynomial

/-!
# Markov's inequality up to a factor of two, and polynomials on slightly larger intervals

Mathlib has the extremal property of Chebyshev polynomials outside `(-1, 1)`; applied on the part of the interval on one side of a point it
gives bounds of derivatives in the interval.
-/

namespace QMat

open Polynomial

theorem T_derivative_one (d : ℕ) : (derivative (Chebyshev.T ℝ d)).eval 1 = (d : ℝ) ^ 2 := by
  rw [Chebyshev.T_derivative_eq_U]
  simp [Chebyshev.U_eval_one]
  ring

/-- At the right end. -/
theorem markov_one {p : ℝ[X]} {d : ℕ} (hd : p.degree ≤ d) {M : ℝ} (hM : ∀ x ∈ Set.Icc (-1 : ℝ) 1, |p.eval x| ≤ M) :
    (derivative p).eval 1 ≤ (d : ℝ) ^ 2 * M := by
  have hM0 : 0 ≤ M := (abs_nonneg _).trans (hM 1 ⟨by norm_num, le_refl _⟩)
  have key : ∀ K : ℝ, M < K → (derivative p).eval 1 ≤ (d : ℝ) ^ 2 * K := fun K hK => by
    have hK0 : 0 < K := hM0.trans_lt hK
    have h := Chebyshev.eval_iterate_derivative_le_of_forall_abs_le_one (n := d) (P := C (K⁻¹) * p) (k := 1) (x := 1) le_rfl
      ((degree_C_mul_of_isUnit (isUnit_iff_ne_zero.2 (inv_ne_zero hK0.ne')) p).le.trans hd) (fun x hx => by
        rw [eval_mul, eval_C, abs_mul, abs_inv, abs_of_pos hK0, inv_mul_le_iff₀ hK0, mul_one]
        exact (hM x hx).trans hK.le)
    rw [Function.iterate_one, derivative_C_mul, eval_mul, eval_C, T_derivative_one, inv_mul_le_iff₀ hK0] at h
    linarith
  have hlim : Filter.Tendsto (fun K : ℝ => (d : ℝ) ^ 2 * K) (nhdsWithin M (Set.Ioi M)) (nhds ((d : ℝ) ^ 2 * M)) :=
    (Continuous.tendsto (by fun_prop) M).mono_left nhdsWithin_le_nhds
  exact ge_of_tendsto hlim (eventually_nhdsWithin_of_forall fun K hK => key K hK)

/-- At the right end of an interval. -/
theorem markov_right {p : ℝ[X]} {d : ℕ} (hd : p.degree ≤ d) {a b M : ℝ} (hab : a < b)
    (hM : ∀ x ∈ Set.Icc a b, |p.eval x| ≤ M) : (derivative p).eval b ≤ 2 * (d : ℝ) ^ 2 * M / (b - a) := by
  have hba : 0 < b - a := sub_pos.2 hab
  set q : ℝ[X] := C ((b - a) / 2) * X + C ((a + b) / 2) with hq
  have hqd : q.natDegree ≤ 1 := natDegree_linear_le
  have hpd : p.natDegree ≤ d := natDegree_le_of_degree_le hd
  have hdeg : (p.comp q).degree ≤ d := by
    refine degree_le_of_natDegree_le (natDegree_comp_le.trans ?_)
    calc p.natDegree * q.natDegree ≤ d * 1 := Nat.mul_le_mul hpd hqd
      _ = d := mul_one d
  have h := markov_one hdeg (M := M) fun x hx => by
    rw [eval_comp]
    refine hM _ ?_
    simp only [hq, eval_add, eval_mul, eval_C, eval_X]
    constructor <;> nlinarith [hx.1, hx.2]
  rw [derivative_comp, eval_mul, eval_comp] at h
  have e1 : q.eval 1 = b := by simp only [hq, eval_add, eval_mul, eval_C, eval_X]; ring
  have e2 : (derivative q).eval 1 = (b - a) / 2 := by simp [hq]
  rw [e1, e2] at h
  rw [le_div_iff₀ hba]
  linarith

theorem markov_right_abs {p : ℝ[X]} {d : ℕ} (hd : p.degree ≤ d) {a b M : ℝ} (hab : a < b)
    (hM : ∀ x ∈ Set.Icc a b, |p.eval x| ≤ M) : |(derivative p).eval b| ≤ 2 * (d : ℝ) ^ 2 * M / (b - a) := by
  rw [abs_le']
  refine ⟨markov_right hd hab hM, ?_⟩
  have := markov_right (p := -p) (d := d) (by rwa [degree_neg]) hab (M := M) (fun x hx => by rw [eval_neg, abs_neg]; exact hM x hx)
  rwa [derivative_neg, eval_neg] at this

theorem markov_left_abs {p : ℝ[X]} {d : ℕ} (hd : p.degree ≤ d) {a b M : ℝ} (hab : a < b)
    (hM : ∀ x ∈ Set.Icc a b, |p.eval x| ≤ M) : |(derivative p).eval a| ≤ 2 * (d : ℝ) ^ 2 * M / (b - a) := by
  have hpd : p.natDegree ≤ d := natDegree_le_of_degree_le hd
  have h := markov_right_abs (p := p.comp (-X)) (d := d) (by
    refine degree_le_of_natDegree_le (natDegree_comp_le.trans ?_)
    rw [natDegree_neg, natDegree_X, mul_one]
    exact hpd) (neg_lt_neg hab) (M := M) (fun x hx => by
      rw [eval_comp, eval_neg, eval_X]
      exact hM _ ⟨by linarith [hx.2], by linarith [hx.1]⟩)
  rw [derivative_comp, eval_mul, eval_comp, derivative_neg, derivative_X, eval_neg, eval_neg, eval_one, eval_X, neg_neg, abs_mul,
    abs_neg, abs_one, one_mul] at h
  rwa [show -a - -b = b - a by ring] at h

/-- Markov's inequality, with an additional factor of two. -/
theorem markov {p : ℝ[X]} {d : ℕ} (hd : p.degree ≤ d) {a b M : ℝ} (hab : a < b) (hM : ∀ x ∈ Set.Icc a b, |p.eval x| ≤ M)
    {x : ℝ} (hx : x ∈ Set.Icc a b) : |(derivative p).eval x| ≤ 4 * (d : ℝ) ^ 2 * M / (b - a) := by
  have hM0 : 0 ≤ M := (abs_nonneg _).trans (hM x hx)
  have hba : 0 < b - a := sub_pos.2 hab
  have hnum : 0 ≤ 2 * (d : ℝ) ^ 2 * M := by positivity
  have e : 4 * (d : ℝ) ^ 2 * M / (b - a) = 2 * (d : ℝ) ^ 2 * M / ((b - a) / 2) := by field_simp; ring
  rw [e]
  rcases le_total ((a + b) / 2) x with h | h
  · have hax : a < x := by linarith
    refine (markov_right_abs hd hax (fun y hy => hM y ⟨hy.1, hy.2.trans hx.2⟩)).trans ?_
    exact div_le_div_of_nonneg_left hnum (by linarith) (by linarith)
  · have hxb : x < b := by linarith
    refine (markov_left_abs hd hxb (fun y hy => hM y ⟨hx.1.trans hy.1, hy.2⟩)).trans ?_
    exact div_le_div_of_nonneg_left hnum (by linarith) (by linarith)

/-- Mean value theorem for polynomials. -/
theorem poly_sub_le {p : ℝ[X]} {a b D x y : ℝ} (hD : ∀ s ∈ Set.Icc a b, |(derivative p).eval s| ≤ D)
    (hx : x ∈ Set.Icc a b) (hy : y ∈ Set.Icc a b) : |p.eval x - p.eval y| ≤ D * |x - y| := by
  have := Convex.norm_image_sub_le_of_norm_deriv_le (f := fun s => p.eval s) (C := D) (s := Set.Icc a b) (fun s _ => p.differentiableAt)
    (fun s hs => by rw [Polynomial.deriv, Real.norm_eq_abs]; exact hD s hs) (convex_Icc a b) hy hx
  simpa [Real.norm_eq_abs] using this

/-- On an interval that is larger by a small margin a polynomial is at most twice as large, with the corresponding bound of its
derivative. -/
theorem poly_extend {p : ℝ[X]} {d : ℕ} (hd : p.degree ≤ d) {a b M δ : ℝ} (hab : a < b) (hδ : 0 ≤ δ)
    (hsmall : 8 * (d : ℝ) ^ 2 * δ ≤ b - a) (hM : ∀ x ∈ Set.Icc a b, |p.eval x| ≤ M) :
    (∀ x ∈ Set.Icc (a - δ) (b + δ), |p.eval x| ≤ 2 * M) ∧
    ∀ x ∈ Set.Icc (a - δ) (b + δ), |(derivative p).eval x| ≤ 8 * (d : ℝ) ^ 2 * M / (b - a) := by
  have hba : 0 < b - a := sub_pos.2 hab
  obtain ⟨z, hz, hzmax⟩ := (isCompact_Icc (a := a - δ) (b := b + δ)).exists_isMaxOn ⟨a, by constructor <;> linarith⟩
    (f := fun x => |p.eval x|) p.continuous.abs.continuousOn
  set N := |p.eval z| with hN
  have hN0 : 0 ≤ N := abs_nonneg _
  have hle : ∀ x ∈ Set.Icc (a - δ) (b + δ), |p.eval x| ≤ N := fun x hx => hzmax hx
  have hder : ∀ x ∈ Set.Icc (a - δ) (b + δ), |(derivative p).eval x| ≤ 4 * (d : ℝ) ^ 2 * N / (b - a) := fun x hx => by
    refine (markov hd (by linarith) hle hx).trans ?_
    exact div_le_div_of_nonneg_left (by positivity) hba (by linarith)
  -- the closest point of the small interval
  obtain ⟨y, hy, hyz⟩ : ∃ y ∈ Set.Icc a b, |z - y| ≤ δ := by
    rcases le_total z a with h | h
    · exact ⟨a, ⟨le_refl _, hab.le⟩, by rw [abs_sub_comm, abs_of_nonneg (by linarith)]; linarith [hz.1]⟩
    · rcases le_total z b with h' | h'
      · exact ⟨z, ⟨h, h'⟩, by simpa using hδ⟩
      · exact ⟨b, ⟨hab.le, le_refl _⟩, by rw [abs_of_nonneg (by linarith)]; linarith [hz.2]⟩
  have hsub := poly_sub_le hder hz (y := y) ⟨by linarith [hy.1], by linarith [hy.2]⟩
  have h1 : N ≤ M + N / 2 := by
    have h2 : N - M ≤ |p.eval z - p.eval y| := by
      have := abs_sub_abs_le_abs_sub (p.eval z) (p.eval y)
      have := hM y hy
      linarith
    have h3 : 4 * (d : ℝ) ^ 2 * N / (b - a) * |z - y| ≤ N / 2 := by
      have h4 : 4 * (d : ℝ) ^ 2 * N / (b - a) * |z - y| ≤ 4 * (d : ℝ) ^ 2 * N / (b - a) * δ :=
        mul_le_mul_of_nonneg_left hyz (by positivity)
      refine h4.trans ?_
      rw [div_mul_eq_mul_div, div_le_iff₀ hba]
      nlinarith
    linarith
  have hNM : N ≤ 2 * M := by linarith
  refine ⟨fun x hx => (hle x hx).trans hNM, fun x hx => (hder x hx).trans ?_⟩
  refine div_le_div_of_nonneg_right ?_ hba.le
  have : 0 ≤ (d : ℝ) ^ 2 := by positivity
  nlinarith

end QMat
