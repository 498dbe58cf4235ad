import Verif.Lemmas.InterpError
import Verif.Props.CollOrder
import Verif.Props.Collocation
import Verif.Props.Integration
import Verif.Props.Lagrange
import Mathlib.Analysis.SpecialFunctions.Exp
import Mathlib.Analysis.SpecialFunctions.ExpDeriv
import Mathlib.Analysis.SpecialFunctions.Integrals.Basic
import Mathlib.Analysis.Calculus.IteratedDeriv.Lemmas
import Mathlib.Analysis.Complex.ExponentialBounds

/-!
# C91: errors for functions that are not polynomials

The matrices are exact for polynomials (C01, C04, C07, C22, C28).  Users apply them to smooth functions.
These theorems bound the error made then, for every number of points, all intervals and all functions
with enough derivatives; the constants are the classical ones, and `C91_sharp` shows that they cannot
be improved.
-/

namespace QMat

open Polynomial Matrix LagrangeApproximation
open Set (Icc)

/-- The polynomial of degree below `n` through the values of `f`. -/
theorem exists_interpolant {n : ℕ} {x : Fin n → ℝ} (hx : Function.Injective x) (f : ℝ → ℝ) :
    ∃ p : ℝ[X], p.degree < n ∧ (∀ i, p.eval (x i) = f (x i)) ∧ Spec.vals p x = fun i => f (x i) := by
  have h : ∀ i, (Lagrange.interpolate Finset.univ x fun i => f (x i)).eval (x i) = f (x i) := fun i =>
    Lagrange.eval_interpolate_at_node _ (hx.injOn) (Finset.mem_univ i)
  refine ⟨Lagrange.interpolate Finset.univ x fun i => f (x i), ?_, h, funext h⟩
  simpa using Lagrange.degree_interpolate_lt (s := Finset.univ) (v := x) (fun i => f (x i)) hx.injOn

theorem abs_remainder {n : ℕ} {D K w : ℝ} (h : |D| ≤ K) :
    |D / n.factorial * w| ≤ K / n.factorial * |w| := by
  rw [abs_mul, abs_div, Nat.abs_cast]
  gcongr

/-- C91 (interpolation): the interpolation matrix applied to the values of a function with `n`
derivatives misses its value at a time `t` by at most `max |f⁽ⁿ⁾| / n! · ∏ |t - x_j|`. -/
theorem C91_interpolation {n r : ℕ} (points : Fin n → ℝ) (hinc : StrictMono points)
    (wc : String) (sw : Bool) (sr dupl : String) (fv) (hcheb : wc = "CHEBFUN" → 2 ≤ n)
    (L : LagrangeApproximation n) (hL : LagrangeApproximation.new points wc sw sr dupl fv = .ok L)
    {a b : ℝ} (hab : a < b) (hpt : ∀ j, points j ∈ Icc a b) (times : Fin r → ℝ)
    (ht : ∀ i, times i ∈ Icc a b) (f : ℝ → ℝ) (hf : ContDiffOn ℝ n f (Icc a b)) (K : ℝ)
    (hK : ∀ ξ ∈ Icc a b, |iteratedDerivWithin n f (Icc a b) ξ| ≤ K) (i : Fin r) :
    |(L.getInterpolationMatrix times *ᵥ fun j => f (points j)) i - f (times i)| ≤
      K / n.factorial * ∏ j, |times i - points j| := by
  obtain ⟨p, hp, hm, hv⟩ := exists_interpolant hinc.injective f
  rw [← hv, C01_interpolation_exact points hinc wc sw sr dupl fv hcheb L hL times p hp, Spec.vals]
  obtain ⟨ξ, hξ, h⟩ := InterpError.interp hab hf hinc.injective hpt hp hm (ht i)
  rw [abs_sub_comm, h, ← Finset.abs_prod]
  exact abs_remainder (hK ξ hξ)

/-- C91 (best approximation): whatever the function, the interpolated value is as good as the best
polynomial of degree below `n`, up to the factor `1 + ∑ |row|` (the Lebesgue function). -/
theorem C91_best_interpolation {n r : ℕ} (points : Fin n → ℝ) (hinc : StrictMono points)
    (wc : String) (sw : Bool) (sr dupl : String) (fv) (hcheb : wc = "CHEBFUN" → 2 ≤ n)
    (L : LagrangeApproximation n) (hL : LagrangeApproximation.new points wc sw sr dupl fv = .ok L)
    (times : Fin r → ℝ) (f : ℝ → ℝ) (q : ℝ[X]) (hq : q.degree < n) (ε : ℝ)
    (hpt : ∀ j, |f (points j) - q.eval (points j)| ≤ ε) (i : Fin r)
    (ht : |f (times i) - q.eval (times i)| ≤ ε) :
    |(L.getInterpolationMatrix times *ᵥ fun j => f (points j)) i - f (times i)| ≤
      (1 + ∑ j, |L.getInterpolationMatrix times i j|) * ε := by
  have h := congrFun (C01_interpolation_exact points hinc wc sw sr dupl fv hcheb L hL times q hq) i
  simp only [mulVec, dotProduct, Spec.vals] at h ⊢
  have e : ∑ j, L.getInterpolationMatrix times i j * f (points j) - f (times i)
      = ∑ j, L.getInterpolationMatrix times i j * (f (points j) - q.eval (points j))
        - (f (times i) - q.eval (times i)) := by
    simp only [mul_sub, Finset.sum_sub_distrib]
    rw [h]; ring
  rw [e]
  have h1 : |∑ j, L.getInterpolationMatrix times i j * (f (points j) - q.eval (points j))| ≤
      ∑ j, |L.getInterpolationMatrix times i j| * ε := by
    refine (Finset.abs_sum_le_sum_abs _ _).trans (Finset.sum_le_sum fun j _ => ?_)
    rw [abs_mul]
    exact mul_le_mul_of_nonneg_left (hpt j) (abs_nonneg _)
  rw [← Finset.sum_mul] at h1
  refine (abs_sub _ _).trans ?_
  linarith

/-- The integral of the remainder. -/
theorem integral_remainder {n : ℕ} {x : Fin n → ℝ} (hx : Function.Injective x) {a b : ℝ}
    (hab : a < b) (hpt : ∀ j, x j ∈ Icc a b) {f : ℝ → ℝ} (hf : ContDiffOn ℝ n f (Icc a b)) {K : ℝ}
    (hK : ∀ ξ ∈ Icc a b, |iteratedDerivWithin n f (Icc a b) ξ| ≤ K) {p : ℝ[X]} (hp : p.degree < n)
    (hm : ∀ i, p.eval (x i) = f (x i)) {l u : ℝ} (hl : l ∈ Icc a b) (hu : u ∈ Icc a b) :
    |(∫ t in l..u, p.eval t) - ∫ t in l..u, f t| ≤
      K / n.factorial * |∫ t in l..u, (∏ j, |t - x j|)| := by
  have hsub : Set.uIcc l u ⊆ Icc a b := Set.uIcc_subset_Icc hl hu
  have hfi : IntervalIntegrable f MeasureTheory.volume l u :=
    (hf.continuousOn.mono hsub).intervalIntegrable
  have hpi : IntervalIntegrable (fun t => p.eval t) MeasureTheory.volume l u :=
    p.continuous.intervalIntegrable _ _
  have hK0 : 0 ≤ K := (abs_nonneg _).trans (hK l hl)
  rw [← intervalIntegral.integral_sub hpi hfi]
  have hg : IntervalIntegrable (fun t => K / n.factorial * ∏ j, |t - x j|) MeasureTheory.volume l u :=
    Continuous.intervalIntegrable (by fun_prop) _ _
  have := intervalIntegral.norm_integral_le_abs_of_norm_le (f := fun t => p.eval t - f t)
    (g := fun t => K / n.factorial * ∏ j, |t - x j|) (μ := MeasureTheory.volume) (a := l) (b := u)
    (by
      refine (MeasureTheory.ae_restrict_iff' measurableSet_uIoc).2 (Filter.Eventually.of_forall ?_)
      intro t ht
      obtain ⟨ξ, hξ, h⟩ := InterpError.interp hab hf hx hpt hp hm (hsub (Set.uIoc_subset_uIcc ht))
      rw [Real.norm_eq_abs, abs_sub_comm, h, ← Finset.abs_prod]
      exact abs_remainder (hK ξ hξ)) hg
  rw [Real.norm_eq_abs, intervalIntegral.integral_const_mul, abs_mul,
    abs_of_nonneg (div_nonneg hK0 (Nat.cast_nonneg _))] at this
  exact this

/-- C91 (integration): the integration matrix applied to the values of a function with `n` derivatives
misses its integral over an interval by at most `max |f⁽ⁿ⁾| / n! · |∫ ∏ |t - x_j| dt|`. -/
theorem C91_integration {n r : ℕ} (points : Fin n → ℝ) (hp : StrictMono points) (hn : 0 < n)
    (wc : String) (sw : Bool) (sr dupl : String) (fv) (hcheb : wc = "CHEBFUN" → 2 ≤ n)
    (L : LagrangeApproximation n) (hL : LagrangeApproximation.new points wc sw sr dupl fv = .ok L)
    (ext : ExternalQuad) (numQuad : String)
    (hnq : numQuad ∈ ["LEGENDRE_NUMPY", "LEGENDRE_SCIPY", "FEJER"])
    (hext : numQuad ≠ "FEJER" → ext.Exact) (intervals : Fin r → ℝ × ℝ)
    {a b : ℝ} (hab : a < b) (hpt : ∀ j, points j ∈ Icc a b)
    (hI : ∀ i, (intervals i).1 ∈ Icc a b ∧ (intervals i).2 ∈ Icc a b)
    (f : ℝ → ℝ) (hf : ContDiffOn ℝ n f (Icc a b)) (K : ℝ)
    (hK : ∀ ξ ∈ Icc a b, |iteratedDerivWithin n f (Icc a b) ξ| ≤ K) :
    ∃ Q, L.getIntegrationMatrix ext intervals numQuad = .ok Q ∧ ∀ i,
      |(Q *ᵥ fun j => f (points j)) i - ∫ t in (intervals i).1..(intervals i).2, f t| ≤
        K / n.factorial * |∫ t in (intervals i).1..(intervals i).2, (∏ j, |t - points j|)| := by
  obtain ⟨Q, hQ, hex⟩ := C04_integration_exact points hp hn wc sw sr dupl fv hcheb L hL ext numQuad
    hnq hext intervals
  obtain ⟨p, hpd, hm, hv⟩ := exists_interpolant hp.injective f
  refine ⟨Q, hQ, fun i => ?_⟩
  rw [← hv, hex p hpd i]
  exact integral_remainder hp.injective hab hpt hf hK hpd hm (hI i).1 (hI i).2

/-- C91 (derivatives): the first derivative matrix misses the derivative at the node `x_i` by at most
`max |f⁽ⁿ⁾| / n! · ∏_{j ≠ i} |x_i - x_j|`. -/
theorem C91_derivative {n : ℕ} (points : Fin n → ℝ) (hinc : StrictMono points)
    (wc : String) (sw : Bool) (sr dupl : String) (fv) (hcheb : wc = "CHEBFUN" → 2 ≤ n)
    (L : LagrangeApproximation n)
    (hL : LagrangeApproximation.new points wc sw sr dupl fv = .ok L)
    {a b : ℝ} (hab : a < b) (hpt : ∀ j, points j ∈ Icc a b)
    (f : ℝ → ℝ) (hf : ContDiffOn ℝ n f (Icc a b)) (K : ℝ)
    (hK : ∀ ξ ∈ Icc a b, |iteratedDerivWithin n f (Icc a b) ξ| ≤ K) :
    ∃ (h : L.nUniquePoints = n) (D1 : Matrix (Fin L.nUniquePoints) (Fin n) ℝ),
      L.getDerivativeMatrix (.int 1) = .ok (.single D1) ∧ ∀ i,
        |(D1 *ᵥ fun j => f (points j)) i - derivWithin f (Icc a b) (points (Fin.cast h i))| ≤
          K / n.factorial * ∏ j ∈ Finset.univ.erase (Fin.cast h i), |points (Fin.cast h i) - points j| := by
  obtain ⟨h, D1, D2, hD1, -, -, hex, -⟩ :=
    C07_derivative_exact points hinc wc sw sr dupl fv hcheb L hL
  obtain ⟨p, hpd, hm, hv⟩ := exists_interpolant hinc.injective f
  refine ⟨h, D1, hD1, fun i => ?_⟩
  rw [← hv, (hex p hpd i).1]
  obtain ⟨ξ, hξ, e⟩ := InterpError.interp_deriv hab hf hinc.injective hpt hpd hm (Fin.cast h i)
  rw [abs_sub_comm, e, ← Finset.abs_prod]
  exact abs_remainder (hK ξ hξ)

/-- C91 (second derivatives): the second derivative matrix misses the second derivative at a node by at
most `max |f⁽ⁿ⁾| / n! · |ω''| + 2 max |f⁽ⁿ⁺¹⁾| / (n+1)! · |ω'|`, `ω = ∏ (X - x_j)`. -/
theorem C91_second {n : ℕ} (points : Fin n → ℝ) (hinc : StrictMono points)
    (wc : String) (sw : Bool) (sr dupl : String) (fv) (hcheb : wc = "CHEBFUN" → 2 ≤ n)
    (L : LagrangeApproximation n)
    (hL : LagrangeApproximation.new points wc sw sr dupl fv = .ok L)
    {a b : ℝ} (hab : a < b) (hpt : ∀ j, points j ∈ Icc a b)
    (f : ℝ → ℝ) (hf : ContDiffOn ℝ (n + 1) f (Icc a b)) (K K' : ℝ)
    (hK : ∀ ξ ∈ Icc a b, |iteratedDerivWithin n f (Icc a b) ξ| ≤ K)
    (hK' : ∀ ξ ∈ Icc a b, |iteratedDerivWithin (n + 1) f (Icc a b) ξ| ≤ K') :
    ∃ (h : L.nUniquePoints = n) (D2 : Matrix (Fin L.nUniquePoints) (Fin n) ℝ),
      L.getDerivativeMatrix (.int 2) = .ok (.single D2) ∧ ∀ i,
        |(D2 *ᵥ fun j => f (points j)) i - iteratedDerivWithin 2 f (Icc a b) (points (Fin.cast h i))| ≤
          K / n.factorial *
              |(derivative (derivative (∏ j, (X - C (points j))))).eval (points (Fin.cast h i))|
            + 2 * (K' / (n + 1).factorial) *
              ∏ j ∈ Finset.univ.erase (Fin.cast h i), |points (Fin.cast h i) - points j| := by
  obtain ⟨h, D1, D2, -, hD2, -, hex, -⟩ :=
    C07_derivative_exact points hinc wc sw sr dupl fv hcheb L hL
  obtain ⟨p, hpd, hm, hv⟩ := exists_interpolant hinc.injective f
  refine ⟨h, D2, hD2, fun i => ?_⟩
  rw [← hv, (hex p hpd i).2]
  obtain ⟨ξ, hξ, η, hη, e⟩ :=
    InterpError.interp_deriv2 hab hf hinc.injective hpt hpd hm (Fin.cast h i)
  rw [abs_sub_comm, e, ← Finset.abs_prod]
  refine (abs_add_le _ _).trans (add_le_add (abs_remainder (hK ξ hξ)) ?_)
  rw [mul_assoc, abs_mul, abs_two, mul_assoc]
  exact mul_le_mul_of_nonneg_left (abs_remainder (hK' η hη)) (by norm_num)

/-- C91 (the constants are sharp): for `f = X ^ n`, whose `n`-th derivative is `n!`, the interpolation
and integration errors are exactly `∏ (t - x_j)` and its integral. -/
theorem C91_sharp {n r : ℕ} (points : Fin n → ℝ) (hp : StrictMono points) (hn : 0 < n)
    (wc : String) (sw : Bool) (sr dupl : String) (fv) (hcheb : wc = "CHEBFUN" → 2 ≤ n)
    (L : LagrangeApproximation n) (hL : LagrangeApproximation.new points wc sw sr dupl fv = .ok L)
    (times : Fin r → ℝ) (intervals : Fin r → ℝ × ℝ) (ext : ExternalQuad) :
    (∀ i, times i ^ n - (L.getInterpolationMatrix times *ᵥ fun j => points j ^ n) i =
      ∏ j, (times i - points j)) ∧
    ∃ Q, L.getIntegrationMatrix ext intervals "FEJER" = .ok Q ∧ ∀ i,
      (∫ t in (intervals i).1..(intervals i).2, t ^ n) - (Q *ᵥ fun j => points j ^ n) i =
        ∫ t in (intervals i).1..(intervals i).2, ∏ j, (t - points j) := by
  set p : ℝ[X] := X ^ n - InterpError.node points with hpdef
  have hdeg : p.degree < n := by
    have h1 := InterpError.node_monic points
    have h2 := InterpError.node_natDegree points
    have h3 : (X ^ n : ℝ[X]).degree = n := degree_X_pow n
    have h4 : (InterpError.node points).degree = n := by rw [degree_eq_natDegree h1.ne_zero, h2]
    have := degree_sub_lt_left (p := (X ^ n : ℝ[X])) (q := InterpError.node points) (by rw [h3, h4])
      (pow_ne_zero _ X_ne_zero) (by rw [(monic_X_pow n).leadingCoeff, h1.leadingCoeff])
    rw [h3] at this
    exact this
  have hev : ∀ t, p.eval t = t ^ n - ∏ j, (t - points j) := fun t => by
    rw [hpdef, eval_sub, InterpError.node_eval, eval_pow, eval_X]
  have hv : Spec.vals p points = fun j => points j ^ n := funext fun j => by
    rw [Spec.vals, hev, Finset.prod_eq_zero (Finset.mem_univ j) (sub_self _), sub_zero]
  constructor
  · intro i
    rw [← hv, C01_interpolation_exact points hp wc sw sr dupl fv hcheb L hL times p hdeg, Spec.vals, hev]
    ring
  · obtain ⟨Q, hQ, hex⟩ := C04_integration_exact points hp hn wc sw sr dupl fv hcheb L hL ext "FEJER"
      (by decide) (fun h => absurd rfl h) intervals
    refine ⟨Q, hQ, fun i => ?_⟩
    rw [← hv, hex p hdeg i]
    simp only [hev]
    rw [intervalIntegral.integral_sub (Continuous.intervalIntegrable (by fun_prop) _ _)
      (Continuous.intervalIntegrable (by fun_prop) _ _)]
    ring

/-- C91 (collocation): the errors of `Q`, `weights` and `S` of a `Collocation` on smooth functions. -/
theorem C91_collocation {M : ℕ} {nt qt : String} {a b : ℝ} (hab : a < b) (c : Collocation M)
    (hc : Collocation.new M nt qt a b = .ok c) (f : ℝ → ℝ) (hf : ContDiffOn ℝ M f (Icc a b)) (K : ℝ)
    (hK : ∀ ξ ∈ Icc a b, |iteratedDerivWithin M f (Icc a b) ξ| ≤ K) :
    ∃ S, c.S = .ok S ∧
      (∀ i, |∑ j, c.Q i j * f (c.nodes j) - ∫ t in a..c.nodes i, f t| ≤
        K / M.factorial * ∫ t in a..c.nodes i, ∏ j, |t - c.nodes j|) ∧
      (|∑ j, c.weights j * f (c.nodes j) - ∫ t in a..b, f t| ≤
        K / M.factorial * ∫ t in a..b, ∏ j, |t - c.nodes j|) ∧
      (∀ i, |∑ j, S i j * f (c.nodes j) -
          ∫ t in (if h : 0 < (i : ℕ) then c.nodes ⟨i - 1, by omega⟩ else a)..c.nodes i, f t| ≤
        K / M.factorial *
          ∫ t in (if h : 0 < (i : ℕ) then c.nodes ⟨i - 1, by omega⟩ else a)..c.nodes i,
            ∏ j, |t - c.nodes j|) := by
  obtain ⟨x, hM, h⟩ := collocation_spec hc
  have hs := h.strictMono hab
  have hI := (h.snapped hab).2
  obtain ⟨c', S, hc', hS, hex⟩ :=
    C22_collocation_exact h.hnt h.hqt (validSize_of_getNodes h.getNodes) hab
  rw [hc] at hc'
  cases hc'
  obtain ⟨p, hpd, hm, hv⟩ := exists_interpolant hs.injective f
  obtain ⟨e1, e2, e3⟩ := hex p hpd
  simp only [hm] at e1 e2 e3
  have ha : a ∈ Icc a b := ⟨le_refl _, hab.le⟩
  have hb : b ∈ Icc a b := ⟨hab.le, le_refl _⟩
  have pos : ∀ {l u : ℝ}, l ≤ u → |∫ t in l..u, (∏ j, |t - c.nodes j|)| =
      ∫ t in l..u, ∏ j, |t - c.nodes j| :=
    fun hlu => abs_of_nonneg (intervalIntegral.integral_nonneg hlu fun t _ =>
      Finset.prod_nonneg fun j _ => abs_nonneg _)
  refine ⟨S, hS, fun i => ?_, ?_, fun i => ?_⟩
  · rw [e1, ← pos (hI i).1]
    exact integral_remainder hs.injective hab hI hf hK hpd hm ha (hI i)
  · rw [e2, ← pos hab.le]
    exact integral_remainder hs.injective hab hI hf hK hpd hm ha hb
  · rw [e3]
    by_cases hi : 0 < (i : ℕ)
    · simp only [dif_pos hi]
      rw [← pos (hs.monotone (by rw [Fin.le_def]; simp))]
      exact integral_remainder hs.injective hab hI hf hK hpd hm (hI _) (hI i)
    · simp only [dif_neg hi]
      rw [← pos (hI i).1]
      exact integral_remainder hs.injective hab hI hf hK hpd hm ha (hI i)

/-- A rule exact below degree `p` is as good as the best polynomial of degree below `p`. -/
theorem quadrature_best {M p : ℕ} {a b : ℝ} (hab : a ≤ b) {x w : Fin M → ℝ}
    (hex : ∀ q : ℝ[X], q.degree < p → ∑ j, w j * q.eval (x j) = ∫ t in a..b, q.eval t)
    (hI : ∀ j, x j ∈ Icc a b) {f : ℝ → ℝ} (hf : ContinuousOn f (Icc a b)) {q : ℝ[X]}
    (hq : q.degree < p) {ε : ℝ} (hε : ∀ t ∈ Icc a b, |f t - q.eval t| ≤ ε) :
    |∑ j, w j * f (x j) - ∫ t in a..b, f t| ≤ (b - a + ∑ j, |w j|) * ε := by
  have hfi : IntervalIntegrable f MeasureTheory.volume a b := by
    refine ContinuousOn.intervalIntegrable ?_
    rwa [Set.uIcc_of_le hab]
  have hqi : IntervalIntegrable (fun t => q.eval t) MeasureTheory.volume a b :=
    q.continuous.intervalIntegrable _ _
  have e : ∑ j, w j * f (x j) - ∫ t in a..b, f t
      = ∑ j, w j * (f (x j) - q.eval (x j)) - ∫ t in a..b, (f t - q.eval t) := by
    rw [intervalIntegral.integral_sub hfi hqi]
    simp only [mul_sub, Finset.sum_sub_distrib]
    rw [hex q hq]; ring
  rw [e]
  have h1 : |∑ j, w j * (f (x j) - q.eval (x j))| ≤ ∑ j, |w j| * ε := by
    refine (Finset.abs_sum_le_sum_abs _ _).trans (Finset.sum_le_sum fun j _ => ?_)
    rw [abs_mul]
    exact mul_le_mul_of_nonneg_left (hε _ (hI j)) (abs_nonneg _)
  have h2 : |∫ t in a..b, (f t - q.eval t)| ≤ ε * |b - a| := by
    rw [← Real.norm_eq_abs]
    refine intervalIntegral.norm_integral_le_of_norm_le_const fun t ht => ?_
    rw [Set.uIoc_of_le hab] at ht
    exact hε t ⟨ht.1.le, ht.2⟩
  rw [← Finset.sum_mul] at h1
  rw [abs_of_nonneg (sub_nonneg.2 hab)] at h2
  refine (abs_sub _ _).trans ?_
  linarith

/-- Equally spaced points in `[a, b]`. -/
theorem exists_points {a b : ℝ} (hab : a < b) (p : ℕ) :
    ∃ x : Fin p → ℝ, Function.Injective x ∧ ∀ i, x i ∈ Icc a b := by
  refine ⟨fun i => a + (b - a) * ((i : ℕ) / p), fun i j h => ?_, fun i => ?_⟩
  · have hp : (p:ℝ) ≠ 0 := by have := i.pos; positivity
    have hba : b - a ≠ 0 := by linarith
    simp only [add_right_inj] at h
    have h := mul_left_cancel₀ hba h
    rw [div_left_inj' hp] at h
    exact Fin.ext (by exact_mod_cast h)
  · have hp : (0:ℝ) < p := by have := i.pos; exact_mod_cast this
    have h1 : ((i : ℕ) : ℝ) / p ≤ 1 := by
      rw [div_le_one hp]; exact_mod_cast i.isLt.le
    have h0 : (0:ℝ) ≤ ((i : ℕ) : ℝ) / p := by positivity
    constructor
    · have := mul_nonneg (sub_nonneg.2 hab.le) h0
      linarith
    · have := mul_le_mul_of_nonneg_left h1 (sub_nonneg.2 hab.le)
      linarith

/-- A function with `p` derivatives is within `max |f⁽ᵖ⁾| (b - a)ᵖ / p!` of a polynomial of degree
below `p`. -/
theorem exists_near {a b : ℝ} (hab : a < b) (p : ℕ) {f : ℝ → ℝ} (hf : ContDiffOn ℝ p f (Icc a b))
    {K : ℝ} (hK : ∀ ξ ∈ Icc a b, |iteratedDerivWithin p f (Icc a b) ξ| ≤ K) :
    ∃ q : ℝ[X], q.degree < p ∧ ∀ t ∈ Icc a b, |f t - q.eval t| ≤ K / p.factorial * (b - a) ^ p := by
  obtain ⟨x, hx, hI⟩ := exists_points hab p
  obtain ⟨q, hq, hm, -⟩ := exists_interpolant hx f
  refine ⟨q, hq, fun t ht => ?_⟩
  obtain ⟨ξ, hξ, h⟩ := InterpError.interp hab hf hx hI hq hm ht
  rw [h]
  refine (abs_remainder (hK ξ hξ)).trans ?_
  have hK0 : 0 ≤ K := (abs_nonneg _).trans (hK ξ hξ)
  refine mul_le_mul_of_nonneg_left ?_ (div_nonneg hK0 (Nat.cast_nonneg _))
  rw [Finset.abs_prod]
  calc ∏ j, |t - x j| ≤ ∏ _j : Fin p, (b - a) := by
        refine Finset.prod_le_prod (fun j _ => abs_nonneg _) fun j _ => ?_
        have h1 := hI j
        rw [abs_le]
        constructor <;> linarith [ht.1, ht.2, h1.1, h1.2]
    _ = (b - a) ^ p := by simp

/-- C91 (quadrature): with the order `p` that the `Collocation` reports, its weights integrate every
function with `p` derivatives up to `(b - a + ∑ |w|) · max |f⁽ᵖ⁾| (b - a)ᵖ / p!`, and every continuous
function up to `b - a + ∑ |w|` times its distance to the polynomials of degree below `p`. -/
theorem C91_quadrature {M : ℕ} {nt qt : String} {a b : ℝ} (hw : Wide M a b) (c : Collocation M)
    (hc : Collocation.new M nt qt a b = .ok c) :
    ∃ p, c.order = some p ∧ M ≤ p ∧
      (∀ (f : ℝ → ℝ) (K : ℝ), ContDiffOn ℝ p f (Icc a b) →
        (∀ ξ ∈ Icc a b, |iteratedDerivWithin p f (Icc a b) ξ| ≤ K) →
        |∑ j, c.weights j * f (c.nodes j) - ∫ t in a..b, f t| ≤
          (b - a + ∑ j, |c.weights j|) * (K / p.factorial * (b - a) ^ p)) ∧
      ∀ (f : ℝ → ℝ) (q : ℝ[X]) (ε : ℝ), ContinuousOn f (Icc a b) → q.degree < p →
        (∀ t ∈ Icc a b, |f t - q.eval t| ≤ ε) →
        |∑ j, c.weights j * f (c.nodes j) - ∫ t in a..b, f t| ≤ (b - a + ∑ j, |c.weights j|) * ε := by
  have hab : a < b := by
    unfold Wide at hw
    have hmax : 0 ≤ max |a| |b| := le_max_of_le_left (abs_nonneg a)
    have : 0 ≤ 4 * (M:ℝ) ^ 2 * (1 / 10 ^ 8 + 1 / 10 ^ 5 * max |a| |b|) := by positivity
    linarith
  obtain ⟨p, hp, hMp, hex⟩ := C28_quadrature_order hw c hc
  obtain ⟨x, hM, h⟩ := collocation_spec hc
  have hI := (h.snapped hab).2
  refine ⟨p, hp, hMp, fun f K hf hK => ?_, fun f q ε hf hq hε => ?_⟩
  · obtain ⟨q, hq, hε⟩ := exists_near hab p hf hK
    exact quadrature_best hab.le hex hI hf.continuousOn hq hε
  · exact quadrature_best hab.le hex hI hf hq hε

/-- `[0, 1]` is wide enough for up to 158 nodes. -/
theorem wide_unit {M : ℕ} (hM : M ≤ 158) : Wide M 0 1 := by
  have : (M:ℝ) ≤ 158 := by exact_mod_cast hM
  have h0 : (0:ℝ) ≤ M := by positivity
  unfold Wide
  norm_num
  nlinarith

/-- C91 (one step): scaled to a step `[t0, t0 + h]`, the weights of a `Collocation` on `[0, 1]` of
order `p` integrate every function with `p` derivatives with an error `O(h ^ (p + 1))`, with an explicit
constant that depends on neither the step nor the function. -/
theorem C91_step {M : ℕ} {nt qt : String} (hM : M ≤ 158) (c : Collocation M)
    (hc : Collocation.new M nt qt 0 1 = .ok c) :
    ∃ p, c.order = some p ∧ M ≤ p ∧
      ∀ (f : ℝ → ℝ) (K t0 h : ℝ), 0 < h → ContDiffOn ℝ p f (Icc t0 (t0 + h)) →
        (∀ ξ ∈ Icc t0 (t0 + h), |iteratedDerivWithin p f (Icc t0 (t0 + h)) ξ| ≤ K) →
        |h * ∑ j, c.weights j * f (t0 + h * c.nodes j) - ∫ t in t0..t0 + h, f t| ≤
          (1 + ∑ j, |c.weights j|) * K / p.factorial * h ^ (p + 1) := by
  have hw : Wide M 0 1 := wide_unit hM
  obtain ⟨p, hp, hMp, -, hbest⟩ := C91_quadrature hw c hc
  refine ⟨p, hp, hMp, fun f K t0 h hh hf hK => ?_⟩
  obtain ⟨q, hq, hε⟩ := exists_near (a := t0) (b := t0 + h) (by linarith) p hf hK
  rw [add_sub_cancel_left] at hε
  have hmem : ∀ s ∈ Icc (0:ℝ) 1, t0 + h * s ∈ Icc t0 (t0 + h) := fun s hs =>
    ⟨by nlinarith [hs.1], by nlinarith [hs.2]⟩
  have key := hbest (fun s => f (t0 + h * s)) (q.comp (C t0 + C h * X)) (K / p.factorial * h ^ p)
    (hf.continuousOn.comp (by fun_prop) hmem)
    (by
      refine lt_of_le_of_lt ?_ hq
      by_cases h0 : q = 0
      · simp [h0]
      have hlin : (C t0 + C h * X : ℝ[X]).natDegree ≤ 1 := by
        refine natDegree_add_le_of_degree_le (by simp) ((natDegree_C_mul_le _ _).trans natDegree_X_le)
      refine degree_le_of_natDegree_le ?_ |>.trans (degree_eq_natDegree h0).ge
      refine natDegree_comp_le.trans ?_
      calc q.natDegree * (C t0 + C h * X : ℝ[X]).natDegree ≤ q.natDegree * 1 :=
            Nat.mul_le_mul_left _ hlin
        _ = q.natDegree := mul_one _)
    (by
      intro s hs
      have := hε _ (hmem s hs)
      simpa [eval_comp] using this)
  have hint : ∫ t in t0..t0 + h, f t = h * ∫ s in (0:ℝ)..1, f (t0 + h * s) := by
    have := intervalIntegral.mul_integral_comp_add_mul (a := 0) (b := 1) (f := f) h t0
    simpa using this.symm
  rw [hint, ← mul_sub, abs_mul, abs_of_pos hh]
  calc h * _ ≤ h * _ := mul_le_mul_of_nonneg_left key hh.le
    _ = _ := by ring

/-! ## Examples -/

theorem exp_deriv_bound (n : ℕ) {ξ : ℝ} (h : ξ ∈ Icc (0:ℝ) 1) :
    |iteratedDerivWithin n Real.exp (Icc 0 1) ξ| ≤ 3 := by
  rw [iteratedDerivWithin_eq_iteratedDeriv (uniqueDiffOn_Icc zero_lt_one)
    Real.contDiff_exp.contDiffAt h, iteratedDeriv_eq_iterate, Real.iter_deriv_exp,
    abs_of_pos (Real.exp_pos _)]
  have := Real.exp_one_lt_d9
  exact (Real.exp_le_exp.2 h.2).trans (by linarith)

/-- Instance: the exponential through `0, 1/2, 1`, evaluated at `1/4`. -/
example : ∃ L, LagrangeApproximation.new ![(0:ℝ), 1/2, 1] = .ok L ∧
    |(L.getInterpolationMatrix ![(1/4:ℝ)] *ᵥ fun j => Real.exp (![(0:ℝ), 1/2, 1] j)) 0 - Real.exp (1/4)| ≤
      3 / 128 := by
  obtain ⟨L, hL⟩ := C01_constructor_total (n := 3) (by norm_num) ![(0:ℝ), 1/2, 1] "AUTO" false
    "MAX" "USE_LEFT" ⟨by simp, by simp, by simp, by simp⟩
  refine ⟨L, hL, ?_⟩
  have := C91_interpolation ![(0:ℝ), 1/2, 1] strictMono_ex "AUTO" false "MAX" "USE_LEFT" none (by simp) L hL
    (zero_lt_one' ℝ) (fun j => by fin_cases j <;> norm_num) ![(1/4:ℝ)]
    (fun i => by fin_cases i; norm_num) Real.exp Real.contDiff_exp.contDiffOn 3
    (fun ξ h => exp_deriv_bound 3 h) 0
  refine this.trans ?_
  simp [Fin.prod_univ_three, Nat.factorial]
  norm_num [abs_of_pos, abs_of_neg]

/-- Instance: the first derivative of the exponential from the values at `0, 1/2, 1`. -/
example : ∃ (L : LagrangeApproximation 3) (h : L.nUniquePoints = 3)
    (D : Matrix (Fin L.nUniquePoints) (Fin 3) ℝ), LagrangeApproximation.new ![(0:ℝ), 1/2, 1] = .ok L ∧
    L.getDerivativeMatrix (.int 1) = .ok (.single D) ∧ ∀ i,
    |(D *ᵥ fun j => Real.exp (![(0:ℝ), 1/2, 1] j)) i
      - derivWithin Real.exp (Icc 0 1) (![(0:ℝ), 1/2, 1] (Fin.cast h i))| ≤ 1 / 4 := by
  obtain ⟨L, hL⟩ := C01_constructor_total (n := 3) (by norm_num) ![(0:ℝ), 1/2, 1] "AUTO" false
    "MAX" "USE_LEFT" ⟨by simp, by simp, by simp, by simp⟩
  obtain ⟨h, D, hD, hb⟩ := C91_derivative ![(0:ℝ), 1/2, 1] strictMono_ex "AUTO" false "MAX" "USE_LEFT" none
    (by simp) L hL (zero_lt_one' ℝ) (fun j => by fin_cases j <;> norm_num) Real.exp
    Real.contDiff_exp.contDiffOn 3 (fun ξ h => exp_deriv_bound 3 h)
  refine ⟨L, h, D, hL, hD, fun i => (hb i).trans ?_⟩
  generalize Fin.cast h i = k
  have e0 : Finset.univ.erase (0 : Fin 3) = {1, 2} := by decide
  have e1 : Finset.univ.erase (1 : Fin 3) = {0, 2} := by decide
  have e2 : Finset.univ.erase (2 : Fin 3) = {0, 1} := by decide
  have e6 : ((Nat.succ 0).succ.succ.factorial : ℝ) = 6 := by norm_num [Nat.factorial]
  rw [e6]
  have v0 : ![(0:ℝ), 1/2, 1] 0 = 0 := rfl
  have v1 : ![(0:ℝ), 1/2, 1] 1 = 1/2 := rfl
  have v2 : ![(0:ℝ), 1/2, 1] 2 = 1 := rfl
  have hk : k = 0 ∨ k = 1 ∨ k = 2 := by
    fin_cases k <;> simp
  rcases hk with rfl | rfl | rfl
  · rw [e0, Finset.prod_pair (by decide), v0, v1, v2]
    norm_num [abs_of_pos, abs_of_neg]
  · rw [e1, Finset.prod_pair (by decide), v0, v1, v2]
    norm_num [abs_of_pos, abs_of_neg]
  · rw [e2, Finset.prod_pair (by decide), v0, v1, v2]
    norm_num [abs_of_pos, abs_of_neg]

/-- Instance: three Radau points integrate the exponential over steps `[0, h]`, `h ≤ 1`. -/
example : ∃ c : Collocation 3, Collocation.new 3 "LEGENDRE" "RADAU-RIGHT" 0 1 = .ok c ∧
    ∃ p, c.order = some p ∧ 3 ≤ p ∧ ∀ h : ℝ, 0 < h → h ≤ 1 →
      |h * ∑ j, c.weights j * Real.exp (0 + h * c.nodes j) - ∫ t in (0:ℝ)..0 + h, Real.exp t| ≤
        (1 + ∑ j, |c.weights j|) * 3 / p.factorial * h ^ (p + 1) := by
  obtain ⟨c, hc⟩ := collocation_new_ok (M := 3) (nt := "LEGENDRE") (qt := "RADAU-RIGHT") (by decide)
    (by decide) ⟨by norm_num, fun _ => by norm_num⟩ 0 1
  obtain ⟨p, hp, hM, hb⟩ := C91_step (by norm_num) c hc
  refine ⟨c, hc, p, hp, hM, fun h h0 h1 => ?_⟩
  refine hb Real.exp 3 0 h h0 Real.contDiff_exp.contDiffOn fun ξ hξ => ?_
  rw [zero_add] at hξ ⊢
  rw [iteratedDerivWithin_eq_iteratedDeriv (uniqueDiffOn_Icc h0)
    Real.contDiff_exp.contDiffAt hξ, iteratedDeriv_eq_iterate, Real.iter_deriv_exp,
    abs_of_pos (Real.exp_pos _)]
  have := Real.exp_one_lt_d9
  exact (Real.exp_le_exp.2 (hξ.2.trans h1)).trans (by linarith)

/-- Instance: second derivatives, integrals and sharpness with the points `0, 1/2, 1`. -/
example : ∃ (L : LagrangeApproximation 3) (h : L.nUniquePoints = 3)
    (D : Matrix (Fin L.nUniquePoints) (Fin 3) ℝ) (Q : Matrix (Fin 1) (Fin 3) ℝ),
    LagrangeApproximation.new ![(0:ℝ), 1/2, 1] = .ok L ∧
    L.getDerivativeMatrix (.int 2) = .ok (.single D) ∧
    L.getIntegrationMatrix noExternalQuad (fun _ => (0, 1)) "FEJER" = .ok Q ∧
    (∀ i, |(D *ᵥ fun j => Real.exp (![(0:ℝ), 1/2, 1] j)) i
      - iteratedDerivWithin 2 Real.exp (Icc 0 1) (![(0:ℝ), 1/2, 1] (Fin.cast h i))| ≤
        3 / (3:ℕ).factorial *
          |(derivative (derivative (∏ j, (X - C (![(0:ℝ), 1/2, 1] j))))).eval (![(0:ℝ), 1/2, 1] (Fin.cast h i))|
        + 2 * (3 / (3 + 1).factorial) * ∏ j ∈ Finset.univ.erase (Fin.cast h i),
          |![(0:ℝ), 1/2, 1] (Fin.cast h i) - ![(0:ℝ), 1/2, 1] j|) ∧
    (|(Q *ᵥ fun j => Real.exp (![(0:ℝ), 1/2, 1] j)) 0 - ∫ t in (0:ℝ)..1, Real.exp t| ≤
        3 / (3:ℕ).factorial * |∫ t in (0:ℝ)..1, (∏ j, |t - ![(0:ℝ), 1/2, 1] j|)|) ∧
    (∫ t in (0:ℝ)..1, t ^ 3) - (Q *ᵥ fun j => ![(0:ℝ), 1/2, 1] j ^ 3) 0 =
        ∫ t in (0:ℝ)..1, ∏ j, (t - ![(0:ℝ), 1/2, 1] j) := by
  obtain ⟨L, hL⟩ := C01_constructor_total (n := 3) (by norm_num) ![(0:ℝ), 1/2, 1] "AUTO" false
    "MAX" "USE_LEFT" ⟨by simp, by simp, by simp, by simp⟩
  have hpt : ∀ j, ![(0:ℝ), 1/2, 1] j ∈ Icc (0:ℝ) 1 := fun j => by fin_cases j <;> norm_num
  obtain ⟨h, D, hD, hb⟩ := C91_second ![(0:ℝ), 1/2, 1] strictMono_ex "AUTO" false "MAX" "USE_LEFT" none
    (by simp) L hL (zero_lt_one' ℝ) hpt Real.exp
    Real.contDiff_exp.contDiffOn 3 3 (fun ξ h => exp_deriv_bound 3 h) (fun ξ h => exp_deriv_bound 4 h)
  obtain ⟨Q, hQ, hq⟩ := C91_integration ![(0:ℝ), 1/2, 1] strictMono_ex (by norm_num) "AUTO" false "MAX"
    "USE_LEFT" none (by simp) L hL noExternalQuad "FEJER" (by simp) (fun h => absurd rfl h)
    (fun _ : Fin 1 => ((0:ℝ), (1:ℝ))) (zero_lt_one' ℝ) hpt (fun _ => by simp) Real.exp
    Real.contDiff_exp.contDiffOn 3 (fun ξ h => exp_deriv_bound 3 h)
  obtain ⟨-, Q', hQ', hs⟩ := C91_sharp ![(0:ℝ), 1/2, 1] strictMono_ex (by norm_num) "AUTO" false "MAX"
    "USE_LEFT" none (by simp) L hL (fun _ : Fin 1 => (0:ℝ)) (fun _ : Fin 1 => ((0:ℝ), (1:ℝ))) noExternalQuad
  rw [hQ] at hQ'
  cases hQ'
  exact ⟨L, h, D, Q, hL, hD, hQ, hb, hq 0, hs 0⟩

/-- Instance: the absolute value, which has no derivative at `1/2`, is within `1/4` of a constant. -/
example : ∃ L, LagrangeApproximation.new ![(0:ℝ), 1/2, 1] = .ok L ∧
    |(L.getInterpolationMatrix ![(1/4:ℝ)] *ᵥ fun j => (|![(0:ℝ), 1/2, 1] j - 1/2|)) 0 - (|(1/4:ℝ) - 1/2|)| ≤
      (1 + ∑ j, |L.getInterpolationMatrix ![(1/4:ℝ)] 0 j|) * (1/4) := by
  obtain ⟨L, hL⟩ := C01_constructor_total (n := 3) (by norm_num) ![(0:ℝ), 1/2, 1] "AUTO" false
    "MAX" "USE_LEFT" ⟨by simp, by simp, by simp, by simp⟩
  refine ⟨L, hL, C91_best_interpolation ![(0:ℝ), 1/2, 1] strictMono_ex "AUTO" false "MAX" "USE_LEFT" none
    (by simp) L hL ![(1/4:ℝ)] (fun t => |t - 1/2|) (C (1/4)) (degree_C_le.trans_lt (by norm_num)) (1/4)
    (fun j => ?_) 0 ?_⟩
  · fin_cases j <;> norm_num [abs_of_pos, abs_of_neg]
  · norm_num [abs_of_pos, abs_of_neg]

/-- Instance: `Q`, `weights` and `S` of five Lobatto points for the exponential, and the weights for
all functions. -/
example : ∃ (c : Collocation 5) (S : Matrix (Fin 5) (Fin 5) ℝ) (p : ℕ),
    Collocation.new 5 "LEGENDRE" "LOBATTO" 0 1 = .ok c ∧ c.S = .ok S ∧ c.order = some p ∧
    (∀ i, |∑ j, c.Q i j * Real.exp (c.nodes j) - ∫ t in (0:ℝ)..c.nodes i, Real.exp t| ≤
      3 / (5:ℕ).factorial * ∫ t in (0:ℝ)..c.nodes i, ∏ j, |t - c.nodes j|) ∧
    |∑ j, c.weights j * Real.exp (c.nodes j) - ∫ t in (0:ℝ)..1, Real.exp t| ≤
      (1 - 0 + ∑ j, |c.weights j|) * (3 / p.factorial * (1 - 0) ^ p) := by
  obtain ⟨c, hc⟩ := collocation_new_ok (M := 5) (nt := "LEGENDRE") (qt := "LOBATTO") (by decide)
    (by decide) ⟨by norm_num, fun _ => by norm_num⟩ 0 1
  obtain ⟨S, hS, h1, -⟩ := C91_collocation zero_lt_one c hc Real.exp Real.contDiff_exp.contDiffOn 3
    (fun ξ h => exp_deriv_bound 5 h)
  obtain ⟨p, hp, -, h2, -⟩ := C91_quadrature (wide_unit (by norm_num)) c hc
  exact ⟨c, S, p, hc, hS, hp, h1, h2 Real.exp 3 Real.contDiff_exp.contDiffOn
    (fun ξ h => exp_deriv_bound p h)⟩

end QMat
