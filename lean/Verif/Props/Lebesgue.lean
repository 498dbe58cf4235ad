import Verif.Lemmas.Hermite
import Verif.Lemmas.DoubleFail
import Verif.Props.Smooth
import Verif.Props.LagrangeDup
import Mathlib.Algebra.Order.Chebyshev

/-!
# C93: interpolation and integration with the nodes do not amplify perturbations

The amplification of errors of the values by an interpolation is the Lebesgue function of the points.
For all node types but `EQUID` it grows at most like a power of the number of nodes, for every number of
nodes and every quadrature type; for `LEGENDRE` nodes with `LOBATTO` no value at all is amplified.  For
`EQUID` nodes it grows exponentially.
-/

namespace QMat

open Polynomial Matrix LagrangeApproximation NodesGenerator
open Set (Icc)

/-- A polynomial of degree below `n` is bounded by its values at the points and the Lebesgue function. -/
theorem abs_eval_le_lebesgue {n : ℕ} {x : Fin n → ℝ} (hx : Function.Injective x) {q : ℝ[X]} (hq : q.degree < n) {B : ℝ}
    (hB : ∀ j, |q.eval (x j)| ≤ B) (t : ℝ) : |q.eval t| ≤ Spec.lebesgue x t * B := by
  have h := congrArg (eval t) (Lagrange.eq_interpolate (s := Finset.univ) hx.injOn (by simpa using hq))
  rw [h, Lagrange.interpolate_apply, eval_finsetSum, Spec.lebesgue, Finset.sum_mul]
  refine (Finset.abs_sum_le_sum_abs _ _).trans (Finset.sum_le_sum fun j _ => ?_)
  rw [eval_mul, eval_C, abs_mul, mul_comm]
  exact mul_le_mul_of_nonneg_left (hB j) (abs_nonneg _)

/-- The coefficients of a functional that is exact for polynomials, from bounds of the functional. -/
theorem sum_abs_le_of_exact {n : ℕ} {x w : Fin n → ℝ} (hx : Function.Injective x) {F : ℝ[X] → ℝ} {B : ℝ}
    (hex : ∀ q : ℝ[X], q.degree < n → ∑ j, w j * q.eval (x j) = F q)
    (hF : ∀ q : ℝ[X], q.degree < n → (∀ j, |q.eval (x j)| ≤ 1) → F q ≤ B) : ∑ j, |w j| ≤ B := by
  set q := Lagrange.interpolate Finset.univ x fun j => (SignType.sign (w j) : ℝ) with hqdef
  have hq : q.degree < n := by
    have := Lagrange.degree_interpolate_lt (s := Finset.univ) (v := x) (fun j => (SignType.sign (w j) : ℝ)) hx.injOn
    rwa [Finset.card_univ, Fintype.card_fin] at this
  have hv : ∀ j, q.eval (x j) = (SignType.sign (w j) : ℝ) := fun j =>
    Lagrange.eval_interpolate_at_node _ hx.injOn (Finset.mem_univ j)
  have h1 : ∀ j, |q.eval (x j)| ≤ 1 := fun j => by
    rw [hv]
    rcases lt_trichotomy (w j) 0 with h | h | h
    · simp [sign_neg h]
    · simp [h]
    · simp [sign_pos h]
  refine le_trans (le_of_eq ?_) (hF q hq h1)
  rw [← hex q hq]
  refine Finset.sum_congr rfl fun j _ => ?_
  rw [hv, self_mul_sign]

/-- C93 (interpolation): on `[-1, 1]`, the rows of the interpolation matrix based on the `n` nodes of a
type, whatever the quadrature type and the options of the approximation, have a sum of absolute values of at most `n` for
`LEGENDRE`, `√(2n-1)` for `CHEBY-1`, `√(n(n+1)(2n+1)/6)` for `CHEBY-2` and `√(n(4n²-1)/3)` for `CHEBY-3` and
`CHEBY-4`. -/
theorem C93_nodes {nt qt : String} (hqt : qt ∈ QUAD_TYPES) {n r : ℕ} (x : Fin n → ℝ) (hx : getNodes ⟨nt, qt⟩ n = .ok x)
    (wc : String) (sw : Bool) (sr dupl : String) (fv) (hcheb : wc = "CHEBFUN" → 2 ≤ n)
    (L : LagrangeApproximation n) (hL : LagrangeApproximation.new x wc sw sr dupl fv = .ok L)
    (times : Fin r → ℝ) (i : Fin r) (ht : |times i| ≤ 1) :
    (nt = "LEGENDRE" → ∑ j, |L.getInterpolationMatrix times i j| ≤ n) ∧
    (nt = "CHEBY-1" → ∑ j, |L.getInterpolationMatrix times i j| ≤ √(2 * n - 1)) ∧
    (nt = "CHEBY-2" → ∑ j, |L.getInterpolationMatrix times i j| ≤ √(n * (n + 1) * (2 * n + 1) / 6)) ∧
    (nt = "CHEBY-3" ∨ nt = "CHEBY-4" → ∑ j, |L.getInterpolationMatrix times i j| ≤ √(n * (4 * (n:ℝ) ^ 2 - 1) / 3)) := by
  have hn := validSize_of_getNodes hx
  have key : nt ∈ ORTHO_TYPES → ∑ j, |L.getInterpolationMatrix times i j| ≤ √(lebBound nt n) := fun hnt => by
    obtain ⟨y, hy, hs, -⟩ := getNodes_all (nt := nt) (List.mem_of_mem_tail (by exact hnt)) hqt hn
    rw [hx] at hy
    cases hy
    refine sum_abs_le_of_exact (F := fun q => q.eval (times i)) hs.injective (fun q hq => ?_) fun q hq h1 => ?_
    · exact congrFun (C01_interpolation_exact x hs wc sw sr dupl fv hcheb L hL times q hq) i
    · have h2 := abs_eval_le_lebesgue hs.injective hq h1 (times i)
      rw [mul_one] at h2
      exact (le_abs_self _).trans (h2.trans (Real.le_sqrt_of_sq_le (lebesgue_nodes_sq hnt hqt x hn hx ht)))
  refine ⟨?_, ?_, ?_, ?_⟩
  · rintro rfl
    have := key (by decide)
    rwa [lebBound, if_pos rfl, Real.sqrt_sq (Nat.cast_nonneg n)] at this
  · rintro rfl
    exact key (by decide)
  · rintro rfl
    exact key (by decide)
  · rintro (rfl | rfl)
    · exact key (by decide)
    · exact key (by decide)

/-- Ten `LEGENDRE` nodes of type `RADAU-RIGHT` and evaluation at `1/3`. -/
example : ∃ (x : Fin 10 → ℝ) (L : LagrangeApproximation 10), getNodes ⟨"LEGENDRE", "RADAU-RIGHT"⟩ 10 = .ok x ∧
    LagrangeApproximation.new x = .ok L ∧ ∑ j, |L.getInterpolationMatrix ![(1/3:ℝ)] 0 j| ≤ 10 := by
  obtain ⟨x, hx, -⟩ := getNodes_all (n := 10) (nt := "LEGENDRE") (qt := "RADAU-RIGHT") (by decide) (by decide)
    ⟨by norm_num, fun _ => by norm_num⟩
  obtain ⟨L, hL⟩ := C01_constructor_total (n := 10) (by norm_num) x "AUTO" false
    "MAX" "USE_LEFT" ⟨by simp, by simp, by simp, by simp⟩
  refine ⟨x, L, hx, hL, ?_⟩
  have := (C93_nodes (by decide) x hx _ _ _ _ _ (by simp) L hL ![(1/3:ℝ)] 0 (by norm_num [abs_of_pos])).1 rfl
  exact_mod_cast this

/-- The coefficients of a functional that is exact for polynomials are its values at the Lagrange polynomials. -/
theorem coeff_of_exact {n : ℕ} {x w : Fin n → ℝ} (hx : Function.Injective x) {F : ℝ[X] → ℝ}
    (hex : ∀ q : ℝ[X], q.degree < n → ∑ j, w j * q.eval (x j) = F q) (j : Fin n) : w j = F (Lagrange.basis Finset.univ x j) := by
  have hd : (Lagrange.basis Finset.univ x j).degree < n := by
    rw [Lagrange.degree_basis hx.injOn (Finset.mem_univ j), Finset.card_univ, Fintype.card_fin]
    exact Nat.cast_lt.2 (Nat.sub_lt j.pos one_pos)
  rw [← hex _ hd, Finset.sum_eq_single j]
  · rw [Lagrange.eval_basis_self hx.injOn (Finset.mem_univ j), mul_one]
  · intro k _ hk
    rw [Lagrange.eval_basis_of_ne (Ne.symm hk) (Finset.mem_univ k), mul_zero]
  · simp

/-- C93 (`LOBATTO`): with `LEGENDRE` nodes and `LOBATTO`, the squares of a row of the interpolation matrix add up to at most one on
`[-1, 1]`.  No entry is larger than one, the absolute values add up to at most `√n`, and an interpolated value is bounded by the Euclidean
norm of the given values. -/
theorem C93_lobatto {n r : ℕ} (x : Fin n → ℝ) (hx : getNodes ⟨"LEGENDRE", "LOBATTO"⟩ n = .ok x)
    (wc : String) (sw : Bool) (sr dupl : String) (fv) (hcheb : wc = "CHEBFUN" → 2 ≤ n)
    (L : LagrangeApproximation n) (hL : LagrangeApproximation.new x wc sw sr dupl fv = .ok L)
    (times : Fin r → ℝ) (i : Fin r) (ht : |times i| ≤ 1) :
    ∑ j, L.getInterpolationMatrix times i j ^ 2 ≤ 1 ∧ (∀ j, |L.getInterpolationMatrix times i j| ≤ 1) ∧
    ∑ j, |L.getInterpolationMatrix times i j| ≤ √n ∧
    ∀ v : Fin n → ℝ, |(L.getInterpolationMatrix times *ᵥ v) i| ≤ √(∑ j, v j ^ 2) := by
  have hn := validSize_of_getNodes hx
  obtain ⟨y, hy, hs, -⟩ := getNodes_all (nt := "LEGENDRE") (qt := "LOBATTO") (by decide) (by decide) hn
  rw [hx] at hy
  cases hy
  have he : ∀ j, L.getInterpolationMatrix times i j = (Lagrange.basis Finset.univ x j).eval (times i) := fun j =>
    coeff_of_exact (F := fun q => q.eval (times i)) hs.injective
      (fun q hq => congrFun (C01_interpolation_exact x hs wc sw sr dupl fv hcheb L hL times q hq) i) j
  have h1 : ∑ j, L.getInterpolationMatrix times i j ^ 2 ≤ 1 := by
    simp only [he]
    exact lobatto_sum_sq x hn hx ht
  refine ⟨h1, fun j => ?_, ?_, fun v => ?_⟩
  · rw [← sq_le_one_iff_abs_le_one]
    exact (Finset.single_le_sum (f := fun j => L.getInterpolationMatrix times i j ^ 2) (fun j _ => sq_nonneg _)
      (Finset.mem_univ j)).trans h1
  · refine Real.le_sqrt_of_sq_le ?_
    have := sq_sum_le_card_mul_sum_sq (s := Finset.univ) (f := fun j => |L.getInterpolationMatrix times i j|)
    rw [Finset.card_univ, Fintype.card_fin] at this
    simp only [sq_abs] at this
    have h0 : (0:ℝ) ≤ n := Nat.cast_nonneg n
    nlinarith
  · rw [← Real.sqrt_sq_eq_abs]
    refine Real.sqrt_le_sqrt ?_
    have := Finset.sum_mul_sq_le_sq_mul_sq Finset.univ (fun j => L.getInterpolationMatrix times i j) v
    have h0 : 0 ≤ ∑ j, v j ^ 2 := Finset.sum_nonneg fun j _ => sq_nonneg _
    simp only [mulVec, dotProduct]
    nlinarith

/-- Six Gauss-Lobatto nodes, evaluation at `1/3`. -/
example : ∃ (x : Fin 6 → ℝ) (L : LagrangeApproximation 6), getNodes ⟨"LEGENDRE", "LOBATTO"⟩ 6 = .ok x ∧
    LagrangeApproximation.new x = .ok L ∧ ∑ j, L.getInterpolationMatrix ![(1/3:ℝ)] 0 j ^ 2 ≤ 1 := by
  obtain ⟨x, hx, -⟩ := getNodes_all (n := 6) (nt := "LEGENDRE") (qt := "LOBATTO") (by decide) (by decide)
    ⟨by norm_num, fun _ => by norm_num⟩
  obtain ⟨L, hL⟩ := C01_constructor_total (n := 6) (by norm_num) x "AUTO" false
    "MAX" "USE_LEFT" ⟨by simp, by simp, by simp, by simp⟩
  exact ⟨x, L, hx, hL, (C93_lobatto x hx _ _ _ _ _ (by simp) L hL ![(1/3:ℝ)] 0 (by norm_num [abs_of_pos])).1⟩

/-- C93 (values): what `__call__` returns for values perturbed by at most `ε` differs by at most `n ε` with `LEGENDRE` nodes, by
`√(2n-1) ε` with `CHEBY-1` nodes, by `√(n(n+1)(2n+1)/6) ε` with `CHEBY-2` and by `√(n(4n²-1)/3) ε` with `CHEBY-3` and `CHEBY-4` nodes, anywhere in
`[-1, 1]`. -/
theorem C93_call {nt qt : String} (hqt : qt ∈ QUAD_TYPES) {n r : ℕ} (x : Fin n → ℝ) (hx : getNodes ⟨nt, qt⟩ n = .ok x)
    (wc : String) (sw : Bool) (sr dupl : String) (hcheb : wc = "CHEBFUN" → 2 ≤ n)
    (L : LagrangeApproximation n) (hL : LagrangeApproximation.new x wc sw sr dupl none = .ok L)
    (times : Fin r → ℝ) (ht : ∀ i, |times i| ≤ 1) (v v' : Fin n → ℝ) {ε : ℝ} (hv : ∀ j, |v j - v' j| ≤ ε) :
    ∃ f f', L.call times (some ⟨n, v⟩) = .ok f ∧ L.call times (some ⟨n, v'⟩) = .ok f' ∧
      (nt = "LEGENDRE" → ∀ i, |f i - f' i| ≤ n * ε) ∧ (nt = "CHEBY-1" → ∀ i, |f i - f' i| ≤ √(2 * n - 1) * ε) ∧
      (nt = "CHEBY-2" → ∀ i, |f i - f' i| ≤ √(n * (n + 1) * (2 * n + 1) / 6) * ε) ∧
      (nt = "CHEBY-3" ∨ nt = "CHEBY-4" → ∀ i, |f i - f' i| ≤ √(n * (4 * (n:ℝ) ^ 2 - 1) / 3) * ε) := by
  obtain ⟨hc, -⟩ := C11_call x wc sw sr dupl none L hL times
  have hb : ∀ i, |(L.getInterpolationMatrix times *ᵥ v) i - (L.getInterpolationMatrix times *ᵥ v') i| ≤
      (∑ j, |L.getInterpolationMatrix times i j|) * ε := fun i => by
    simp only [mulVec, dotProduct]
    rw [← Finset.sum_sub_distrib, Finset.sum_mul]
    refine (Finset.abs_sum_le_sum_abs _ _).trans (Finset.sum_le_sum fun j _ => ?_)
    rw [← mul_sub, abs_mul]
    exact mul_le_mul_of_nonneg_left (hv j) (abs_nonneg _)
  have hn := validSize_of_getNodes hx
  have hε : 0 ≤ ε := (abs_nonneg _).trans (hv ⟨0, hn.1⟩)
  have key := fun i => C93_nodes hqt x hx wc sw sr dupl none hcheb L hL times i (ht i)
  have fin : ∀ {i K}, ∑ j, |L.getInterpolationMatrix times i j| ≤ K →
      |(L.getInterpolationMatrix times *ᵥ v) i - (L.getInterpolationMatrix times *ᵥ v') i| ≤ K * ε := fun {i _} h =>
    (hb i).trans (mul_le_mul_of_nonneg_right h hε)
  exact ⟨_, _, hc v, hc v', fun h i => fin ((key i).1 h), fun h i => fin ((key i).2.1 h), fun h i => fin ((key i).2.2.1 h),
    fun h i => fin ((key i).2.2.2 h)⟩

/-- Five `CHEBY-1` Gauss nodes: values changed by at most `1/10` change interpolated values by at most `3/10`. -/
example : ∃ (x : Fin 5 → ℝ) (L : LagrangeApproximation 5), getNodes ⟨"CHEBY-1", "GAUSS"⟩ 5 = .ok x ∧
    LagrangeApproximation.new x = .ok L ∧ ∀ v v' : Fin 5 → ℝ, (∀ j, |v j - v' j| ≤ 1 / 10) →
    ∃ f f', L.call ![(1/3:ℝ), 1] (some ⟨5, v⟩) = .ok f ∧ L.call ![(1/3:ℝ), 1] (some ⟨5, v'⟩) = .ok f' ∧ ∀ i, |f i - f' i| ≤ 3 / 10 := by
  obtain ⟨x, hx, -⟩ := getNodes_all (n := 5) (nt := "CHEBY-1") (qt := "GAUSS") (by decide) (by decide)
    ⟨by norm_num, fun _ => by norm_num⟩
  obtain ⟨L, hL⟩ := C01_constructor_total (n := 5) (by norm_num) x "AUTO" false
    "MAX" "USE_LEFT" ⟨by simp, by simp, by simp, by simp⟩
  refine ⟨x, L, hx, hL, fun v v' hv => ?_⟩
  obtain ⟨f, f', h1, h2, -, h3, -⟩ := C93_call (by decide) x hx _ _ _ _ (by simp) L hL ![(1/3:ℝ), 1]
    (fun i => by fin_cases i <;> norm_num [abs_of_pos]) v v' hv
  refine ⟨f, f', h1, h2, fun i => (h3 rfl i).trans (le_of_eq ?_)⟩
  rw [show (2 * ((5:ℕ):ℝ) - 1) = 3 ^ 2 by norm_num, Real.sqrt_sq (by norm_num)]
  norm_num

/-- Polynomials bounded at scaled nodes are bounded on the scaled interval. -/
theorem abs_eval_le_scaled {n : ℕ} {x y : Fin n → ℝ} (hx : Function.Injective x) {a b B : ℝ} (hab : a < b)
    (hy : ∀ i, y i = a + (b - a) * ((x i + 1) / 2)) (hL : ∀ t, |t| ≤ 1 → Spec.lebesgue x t ≤ B) {q : ℝ[X]} (hq : q.degree < n)
    (h1 : ∀ j, |q.eval (y j)| ≤ 1) {t : ℝ} (ht : t ∈ Icc a b) : |q.eval t| ≤ B := by
  have hba : 0 < b - a := by linarith
  set s := 2 * (t - a) / (b - a) - 1 with hs
  have h := abs_eval_le_lebesgue hx (q := q.comp (C ((b - a) / 2) * X + C ((a + b) / 2))) (degree_comp_affine hq _ _) (B := 1)
    (fun j => by
      rw [eval_comp]
      have e : (C ((b - a) / 2) * X + C ((a + b) / 2)).eval (x j) = y j := by
        rw [hy]
        simp
        ring
      rw [e]
      exact h1 j) s
  rw [eval_comp, mul_one] at h
  have e : (C ((b - a) / 2) * X + C ((a + b) / 2)).eval s = t := by
    simp [hs]
    field_simp
    ring
  rw [e] at h
  refine h.trans (hL s (abs_le.2 ⟨?_, ?_⟩))
  · have : 0 ≤ 2 * (t - a) / (b - a) := div_nonneg (by linarith [ht.1]) hba.le
    linarith
  · have : 2 * (t - a) / (b - a) ≤ 2 := by
      rw [div_le_iff₀ hba]
      linarith [ht.2]
    linarith

theorem integral_le_of_bound {q : ℝ[X]} {l u B : ℝ} (hlu : l ≤ u) (h : ∀ t ∈ Icc l u, |q.eval t| ≤ B) :
    ∫ t in l..u, q.eval t ≤ B * (u - l) := by
  have := intervalIntegral.norm_integral_le_of_norm_le_const (a := l) (b := u) (f := fun t => q.eval t) (C := B) fun t ht => by
    rw [Set.uIoc_of_le hlu] at ht
    exact h t ⟨ht.1.le, ht.2⟩
  rw [abs_of_nonneg (sub_nonneg.2 hlu)] at this
  exact (le_abs_self _).trans this

/-- Node types, quadrature types and bounds of the Lebesgue functions of their nodes. -/
def LebesgueType (nt qt : String) (M : ℕ) (B : ℝ) : Prop :=
  nt = "LEGENDRE" ∧ B = M ∨ nt = "LEGENDRE" ∧ qt = "LOBATTO" ∧ B = √M ∨ nt = "CHEBY-1" ∧ B = √(2 * M - 1) ∨
    nt = "CHEBY-2" ∧ B = √(M * (M + 1) * (2 * M + 1) / 6) ∨ (nt = "CHEBY-3" ∨ nt = "CHEBY-4") ∧ B = √(M * (4 * (M:ℝ) ^ 2 - 1) / 3)

theorem LebesgueType.ortho {nt qt : String} {M : ℕ} {B : ℝ} (h : LebesgueType nt qt M B) : nt ∈ ORTHO_TYPES := by
  rcases h with ⟨rfl, _⟩ | ⟨rfl, _, _⟩ | ⟨rfl, _⟩ | ⟨rfl, _⟩ | ⟨rfl | rfl, _⟩ <;> decide

theorem lebesgue_of_type {nt qt : String} {M : ℕ} {B : ℝ} (hB : LebesgueType nt qt M B) (hqt : qt ∈ QUAD_TYPES) (x : Fin M → ℝ)
    (hx : getNodes ⟨nt, qt⟩ M = .ok x) {t : ℝ} (ht : |t| ≤ 1) : Spec.lebesgue x t ≤ B := by
  have hn := validSize_of_getNodes hx
  rcases hB with ⟨rfl, rfl⟩ | ⟨rfl, rfl, rfl⟩ | ⟨rfl, rfl⟩ | ⟨rfl, rfl⟩ | ⟨rfl | rfl, rfl⟩
  · have := lebesgue_nodes_sq (by decide) hqt x hn hx ht
    rw [lebBound, if_pos rfl] at this
    exact le_of_sq_le_sq this (Nat.cast_nonneg M)
  · refine Real.le_sqrt_of_sq_le ?_
    have := sq_sum_le_card_mul_sum_sq (s := Finset.univ) (f := fun j => |(Lagrange.basis Finset.univ x j).eval t|)
    rw [Finset.card_univ, Fintype.card_fin] at this
    simp only [sq_abs] at this
    have h1 := lobatto_sum_sq x hn hx ht
    have h0 : (0:ℝ) ≤ M := Nat.cast_nonneg M
    rw [Spec.lebesgue]
    nlinarith
  · exact Real.le_sqrt_of_sq_le (lebesgue_nodes_sq (nt := "CHEBY-1") (by decide) hqt x hn hx ht)
  · exact Real.le_sqrt_of_sq_le (lebesgue_nodes_sq (nt := "CHEBY-2") (by decide) hqt x hn hx ht)
  · exact Real.le_sqrt_of_sq_le (lebesgue_nodes_sq (nt := "CHEBY-3") (by decide) hqt x hn hx ht)
  · exact Real.le_sqrt_of_sq_le (lebesgue_nodes_sq (nt := "CHEBY-4") (by decide) hqt x hn hx ht)

/-- C93 (collocation): the rows of `Q` of a collocation method have a sum of absolute values of at most `c (node - tLeft)`, the
weights of at most `c (tRight - tLeft)`, and the rows of `S` of at most `c` times the distance of the nodes, with the bound `c` of the Lebesgue
function: `M` for `LEGENDRE`, `√M` for `LEGENDRE` with `LOBATTO`, `√(2M-1)` for `CHEBY-1`, ... -/
theorem C93_collocation {M : ℕ} {nt qt : String} {a b : ℝ} (hab : a < b) (c : Collocation M)
    (hc : Collocation.new M nt qt a b = .ok c) (x : Fin M → ℝ) (hx : getNodes ⟨nt, qt⟩ M = .ok x)
    (hun : ∀ i, c.nodes i = a + (b - a) * ((x i + 1) / 2)) {B : ℝ}
    (hB : LebesgueType nt qt M B) :
    ∃ S, c.S = .ok S ∧ (∀ i, ∑ j, |c.Q i j| ≤ B * (c.nodes i - a)) ∧ ∑ j, |c.weights j| ≤ B * (b - a) ∧
      ∀ i, ∑ j, |S i j| ≤ B * (c.nodes i - if h : 0 < (i : ℕ) then c.nodes ⟨i - 1, by omega⟩ else a) := by
  obtain ⟨x', hM, h⟩ := collocation_spec hc
  have := h.getNodes
  rw [hx] at this
  cases this
  have hn := validSize_of_getNodes hx
  have hs := h.strictMono hab
  have hI := (h.snapped hab).2
  have hL : ∀ t, |t| ≤ 1 → Spec.lebesgue x t ≤ B := fun t ht => lebesgue_of_type hB h.hqt x hx ht
  have key : ∀ q : ℝ[X], q.degree < M → (∀ j, |q.eval (c.nodes j)| ≤ 1) → ∀ t ∈ Icc a b, |q.eval t| ≤ B := fun q hq h1 t ht =>
    abs_eval_le_scaled h.base.1.injective hab hun hL hq h1 ht
  obtain ⟨c', S, hc', hS, hex⟩ := C22_collocation_exact h.hnt h.hqt hn hab
  rw [hc] at hc'
  cases hc'
  refine ⟨S, hS, fun i => ?_, ?_, fun i => ?_⟩
  · exact sum_abs_le_of_exact hs.injective (fun q hq => (hex q hq).1 i) fun q hq h1 =>
      integral_le_of_bound (hI i).1 fun t ht => key q hq h1 t ⟨ht.1, ht.2.trans (hI i).2⟩
  · exact sum_abs_le_of_exact hs.injective (fun q hq => (hex q hq).2.1) fun q hq h1 =>
      integral_le_of_bound hab.le fun t ht => key q hq h1 t ht
  · refine sum_abs_le_of_exact hs.injective (fun q hq => (hex q hq).2.2 i) fun q hq h1 => ?_
    by_cases hi : 0 < (i : ℕ)
    · simp only [dif_pos hi]
      exact integral_le_of_bound (hs.monotone (by rw [Fin.le_def]; simp)) fun t ht =>
        key q hq h1 t ⟨(hI _).1.trans ht.1, ht.2.trans (hI i).2⟩
    · simp only [dif_neg hi]
      exact integral_le_of_bound (hI i).1 fun t ht => key q hq h1 t ⟨ht.1, ht.2.trans (hI i).2⟩

/-- Five Radau nodes on `[0, 1]`. -/
example : ∃ c : Collocation 5, Collocation.new 5 "LEGENDRE" "RADAU-RIGHT" 0 1 = .ok c ∧
    (∀ i, ∑ j, |c.Q i j| ≤ 5 * c.nodes i) ∧ ∑ j, |c.weights j| ≤ 5 := by
  obtain ⟨c, hc⟩ := collocation_new_ok (M := 5) (nt := "LEGENDRE") (qt := "RADAU-RIGHT") (by decide)
    (by decide) ⟨by norm_num, fun _ => by norm_num⟩ 0 1
  obtain ⟨x, hM, h⟩ := collocation_spec hc
  have hx := h.getNodes
  obtain ⟨S, -, h1, h2, -⟩ := C93_collocation zero_lt_one c hc x hx
    (unsnapped_of_wide (wide_unit (by norm_num)) c hc (Or.inl ⟨rfl, by decide⟩) x hx) (Or.inl ⟨rfl, rfl⟩)
  exact ⟨c, hc, fun i => by simpa using h1 i, by simpa using h2⟩

/-! ### Equidistant nodes -/

theorem prod_half {m : ℕ} (hm : 1 ≤ m) : ((m - 1).factorial : ℝ) / 4 ≤ ∏ j ∈ Finset.range (m + 1), |1 / 2 - (j : ℝ)| := by
  induction m, hm using Nat.le_induction with
  | base => norm_num [Finset.prod_range_succ]
  | succ m hm ih =>
    rw [Finset.prod_range_succ, Nat.add_sub_cancel]
    obtain ⟨k, rfl⟩ : ∃ k, m = k + 1 := ⟨m - 1, by omega⟩
    rw [Nat.add_sub_cancel] at ih
    have h1 : ((k:ℝ) + 1) ≤ |1 / 2 - ((k + 1 + 1 : ℕ) : ℝ)| := by
      rw [abs_sub_comm]
      refine le_trans ?_ (le_abs_self _)
      push_cast
      linarith
    rw [Nat.factorial_succ]
    push_cast at h1 ⊢
    have h2 : (0:ℝ) ≤ k.factorial := Nat.cast_nonneg _
    have h3 : (0:ℝ) ≤ (k:ℝ) + 1 := by positivity
    calc ((k:ℝ) + 1) * k.factorial / 4 = (k.factorial / 4) * (k + 1) := by ring
      _ ≤ _ := mul_le_mul ih h1 h3 (Finset.prod_nonneg fun _ _ => abs_nonneg _)

/-- The Lebesgue function of equidistant points, in the middle of the first interval. -/
theorem lebesgue_equid {m : ℕ} (hm : 1 ≤ m) {c h : ℝ} (hh : 0 < h) {x : Fin (m + 1) → ℝ} (hx : ∀ i, x i = c + (i : ℕ) * h) :
    2 ^ m / (4 * (m:ℝ) ^ 2) ≤ Spec.lebesgue x (c + h / 2) := by
  have hm' : (0:ℝ) < m := by exact_mod_cast hm
  have key : ∀ k : Fin (m + 1), (m.choose k : ℝ) / (4 * (m:ℝ) ^ 2) ≤ |(Lagrange.basis Finset.univ x k).eval (c + h / 2)| := fun k => by
    have hk : (k : ℕ) ≤ m := by omega
    have e1 : |(Lagrange.basis Finset.univ x k).eval (c + h / 2)| =
        (∏ j ∈ Finset.univ.erase k, |c + h / 2 - x j|) / ∏ j ∈ Finset.univ.erase k, |(k : ℕ) * h - (j : ℕ) * h| := by
      rw [Lagrange.basis, eval_prod, Finset.abs_prod, ← Finset.prod_div_distrib]
      refine Finset.prod_congr rfl fun j _ => ?_
      rw [Lagrange.basisDivisor, eval_mul, eval_C, eval_sub, eval_X, eval_C, abs_mul, abs_inv, hx k, hx j, inv_mul_eq_div]
      congr 2
      ring
    rw [e1, Format.prod_equid hh.le]
    have e2 : ∏ j ∈ Finset.univ.erase k, |c + h / 2 - x j| = h ^ m * ∏ j ∈ Finset.univ.erase k, |1 / 2 - ((j : ℕ) : ℝ)| := by
      have : ∀ j ∈ Finset.univ.erase k, |c + h / 2 - x j| = h * |1 / 2 - ((j : ℕ) : ℝ)| := fun j _ => by
        rw [hx j, show c + h / 2 - (c + (j : ℕ) * h) = h * (1 / 2 - ((j : ℕ) : ℝ)) by ring, abs_mul, abs_of_pos hh]
      rw [Finset.prod_congr rfl this, Finset.prod_mul_distrib, Finset.prod_const, Finset.card_erase_of_mem (Finset.mem_univ k),
        Finset.card_univ, Fintype.card_fin, Nat.add_sub_cancel]
    have e3 : ((m - 1).factorial : ℝ) / 4 ≤ m * ∏ j ∈ Finset.univ.erase k, |1 / 2 - ((j : ℕ) : ℝ)| := by
      refine (prod_half hm).trans ?_
      rw [Finset.prod_range, ← Finset.mul_prod_erase Finset.univ _ (Finset.mem_univ k)]
      refine mul_le_mul_of_nonneg_right ?_ (Finset.prod_nonneg fun _ _ => abs_nonneg _)
      have h1 : ((k : ℕ) : ℝ) ≤ m := by exact_mod_cast hk
      have h0 : (0:ℝ) ≤ (k : ℕ) := Nat.cast_nonneg _
      have h2 : (1:ℝ) ≤ m := by exact_mod_cast hm
      rw [abs_le]
      constructor <;> linarith
    rw [e2]
    have hf : (m.choose k : ℝ) * k.val.factorial * (m - k : ℕ).factorial = m * (m - 1).factorial := by
      have h1 := Nat.mul_factorial_pred (by omega : m ≠ 0)
      have h2 := Nat.choose_mul_factorial_mul_factorial hk
      rw [← h1] at h2
      exact_mod_cast h2
    have p1 : (0:ℝ) < k.val.factorial := by exact_mod_cast Nat.factorial_pos _
    have p2 : (0:ℝ) < (m - k : ℕ).factorial := by exact_mod_cast Nat.factorial_pos _
    have hhm : 0 < h ^ m := pow_pos hh m
    rw [div_le_div_iff₀ (by positivity) (by positivity)]
    set Z := ∏ j ∈ Finset.univ.erase k, |1 / 2 - ((j : ℕ) : ℝ)|
    have e4 : (m.choose k : ℝ) * (k.val.factorial * (m - k : ℕ).factorial * h ^ m) = h ^ m * (m * (m - 1).factorial) := by
      rw [← hf]; ring
    rw [e4, mul_assoc]
    refine mul_le_mul_of_nonneg_left ?_ hhm.le
    nlinarith
  have hsum : ∑ k : Fin (m + 1), (m.choose k : ℝ) / (4 * (m:ℝ) ^ 2) = 2 ^ m / (4 * (m:ℝ) ^ 2) := by
    rw [← Finset.sum_div, ← Finset.sum_range (fun k => (m.choose k : ℝ))]
    congr 1
    exact_mod_cast Nat.sum_range_choose m
  rw [← hsum]
  exact Finset.sum_le_sum fun k _ => key k

/-- C93 (negation for `EQUID`): with two or more equidistant nodes, whatever the quadrature type, there are times in `[-1, 1]` at which the
sum of absolute values of the row of the interpolation matrix is at least `2^(n-1) / (4 (n-1)²)`: perturbations of the values are
amplified exponentially in the number of nodes. -/
theorem C93_equid_fails {qt : String} (hqt : qt ∈ QUAD_TYPES) {n : ℕ} (h2 : 2 ≤ n) (x : Fin n → ℝ)
    (hx : getNodes ⟨"EQUID", qt⟩ n = .ok x)
    (wc : String) (sw : Bool) (sr dupl : String) (fv) (hcheb : wc = "CHEBFUN" → 2 ≤ n)
    (L : LagrangeApproximation n) (hL : LagrangeApproximation.new x wc sw sr dupl fv = .ok L) :
    ∃ t : ℝ, |t| ≤ 1 ∧ 2 ^ (n - 1) / (4 * ((n:ℝ) - 1) ^ 2) ≤ ∑ j, |L.getInterpolationMatrix (fun _ : Fin 1 => t) 0 j| := by
  obtain ⟨m, rfl⟩ : ∃ m, n = m + 1 := ⟨n - 1, by omega⟩
  have hn := validSize_of_getNodes hx
  obtain ⟨y, hy, hs, hr, -⟩ := getNodes_all (nt := "EQUID") (by decide) hqt hn
  rw [hx] at hy
  cases hy
  have hx' := getNodes_equid hqt hn
  rw [hx] at hx'
  have hx'' : x = _ := Except.ok.inj hx'
  have hk : 0 < equidIntervals qt (m + 1) := equidIntervals_pos hn
  set h : ℝ := 2 / (equidIntervals qt (m + 1) : ℝ) with hh
  have hh0 : 0 < h := by
    rw [hh]
    have : (0:ℝ) < equidIntervals qt (m + 1) := by exact_mod_cast hk
    positivity
  have hxi : ∀ i : Fin (m + 1), x i = (-1 + equidOffset qt * h) + (i : ℕ) * h := fun i => by
    rw [hx'']
    push_cast
    ring
  have hm : 1 ≤ m := by omega
  have h0 := hxi 0
  have h1 := hxi ⟨1, by omega⟩
  have hle := lebesgue_equid hm hh0 hxi
  refine ⟨-1 + equidOffset qt * h + h / 2, abs_le.2 ⟨?_, ?_⟩, ?_⟩
  · have := (hr 0).1
    rw [h0] at this
    simp at this
    linarith
  · have := (hr ⟨1, by omega⟩).2
    rw [h1] at this
    simp at this
    linarith
  · push_cast
    rw [add_sub_cancel_right]
    refine hle.trans (le_of_eq (Finset.sum_congr rfl fun j _ => ?_))
    rw [coeff_of_exact (F := fun q => q.eval (-1 + equidOffset qt * h + h / 2)) hs.injective
      (fun q hq => congrFun (C01_interpolation_exact x hs wc sw sr dupl fv hcheb L hL (fun _ : Fin 1 => _) q hq) 0) j]

/-- With 41 equidistant nodes the amplification exceeds `10^8` somewhere. -/
example : ∃ (x : Fin 41 → ℝ) (L : LagrangeApproximation 41), getNodes ⟨"EQUID", "LOBATTO"⟩ 41 = .ok x ∧
    LagrangeApproximation.new x = .ok L ∧ ∃ t : ℝ, |t| ≤ 1 ∧ 10 ^ 8 ≤ ∑ j, |L.getInterpolationMatrix (fun _ : Fin 1 => t) 0 j| := by
  obtain ⟨x, hx, -⟩ := getNodes_all (n := 41) (nt := "EQUID") (qt := "LOBATTO") (by decide) (by decide)
    ⟨by norm_num, fun _ => by norm_num⟩
  obtain ⟨L, hL⟩ := C01_constructor_total (n := 41) (by norm_num) x "AUTO" false
    "MAX" "USE_LEFT" ⟨by simp, by simp, by simp, by simp⟩
  obtain ⟨t, ht, h⟩ := C93_equid_fails (by decide) (by norm_num) x hx _ _ _ _ _ (by simp) L hL
  exact ⟨x, L, hx, hL, t, ht, le_trans (by norm_num) h⟩

end QMat
