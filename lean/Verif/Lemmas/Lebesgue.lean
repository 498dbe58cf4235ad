import Verif.Lemmas.Legendre
import Verif.Lemmas.Cheby
import Verif.Spec.Rounding
import Mathlib.Algebra.Order.BigOperators.Ring.Finset
import Mathlib.Analysis.SpecialFunctions.Trigonometric.Chebyshev.RootsExtrema

/-!
# The Lebesgue function of the roots of orthogonal polynomials

The Christoffel-Darboux formula for any three-term recurrence with positive `β` bounds the Lebesgue
function of the roots by the Christoffel kernel; no integrals and no measure are needed.
-/

namespace QMat

open Polynomial Spec NodesGenerator

theorem degree_C_mul_le' (a : ℝ) (p : ℝ[X]) : (C a * p).degree ≤ p.degree :=
  (degree_mul_le _ _).trans (by simpa using add_le_add_left (degree_C_le (a := a)) p.degree)

section kernel

variable (α β : ℕ → ℝ)

/-- The squared norms `β_1 ⋯ β_j` of the monic polynomials. -/
def orthNorm (j : ℕ) : ℝ := ∏ i ∈ Finset.range j, β (i + 1)

/-- The kernel `∑_{j<n} π_j(s) π_j(t) / (β_1 ⋯ β_j)`. -/
noncomputable def orthKernel (n : ℕ) (s t : ℝ) : ℝ :=
  ∑ j ∈ Finset.range n, (orthPoly α β j).eval s * (orthPoly α β j).eval t / orthNorm β j

variable {α β}

theorem orthNorm_pos {n : ℕ} (hβ : ∀ k, 1 ≤ k → k < n → 0 < β k) {j : ℕ} (hj : j < n) : 0 < orthNorm β j :=
  Finset.prod_pos fun i hi => hβ _ (by omega) (by have := Finset.mem_range.1 hi; omega)

theorem christoffel_darboux {n : ℕ} (hβ : ∀ k, 1 ≤ k → k < n + 1 → 0 < β k) (s t : ℝ) :
    (s - t) * orthKernel α β (n + 1) s t =
      ((orthPoly α β (n + 1)).eval s * (orthPoly α β n).eval t -
        (orthPoly α β n).eval s * (orthPoly α β (n + 1)).eval t) / orthNorm β n := by
  induction n with
  | zero => simp [orthKernel, orthNorm, orthPoly]
  | succ n ih =>
    have h1 := ih fun k h1 hk => hβ k h1 (by omega)
    have hb := hβ (n + 1) (by omega) (by omega)
    have hN : 0 < orthNorm β n := orthNorm_pos hβ (by omega)
    have hN' : orthNorm β (n + 1) = orthNorm β n * β (n + 1) := Finset.prod_range_succ _ _
    rw [orthKernel, Finset.sum_range_succ, mul_add, ← orthKernel, h1, hN', eval_orthPoly_succ, eval_orthPoly_succ]
    field_simp
    ring

theorem orthKernel_self_pos {n : ℕ} (hn : 0 < n) (hβ : ∀ k, 1 ≤ k → k < n → 0 < β k) (t : ℝ) : 0 < orthKernel α β n t t := by
  obtain ⟨m, rfl⟩ : ∃ m, n = m + 1 := ⟨n - 1, by omega⟩
  rw [orthKernel, Finset.sum_range_succ']
  refine add_pos_of_nonneg_of_pos (Finset.sum_nonneg fun j hj => ?_) (by simp [orthPoly, orthNorm])
  exact div_nonneg (mul_self_nonneg _) (orthNorm_pos hβ (by have := Finset.mem_range.1 hj; omega)).le

theorem orthKernel_roots {n : ℕ} (hβ : ∀ k, 1 ≤ k → k < n → 0 < β k) {s t : ℝ} (hst : s ≠ t)
    (hs : (orthPoly α β n).eval s = 0) (ht : (orthPoly α β n).eval t = 0) : orthKernel α β n s t = 0 := by
  cases n with
  | zero => simp [orthKernel]
  | succ m =>
    have h := christoffel_darboux (α := α) hβ s t
    rw [hs, ht] at h
    simpa [sub_eq_zero, hst] using h

variable {n : ℕ} {x : Fin n → ℝ}

/-- The kernel with one argument at a root is a multiple of the Lagrange polynomial. -/
theorem orthKernel_basis (hx : Function.Injective x) (hβ : ∀ k, 1 ≤ k → k < n → 0 < β k)
    (hr : ∀ i, (orthPoly α β n).eval (x i) = 0) (k : Fin n) (t : ℝ) :
    orthKernel α β n t (x k) = orthKernel α β n (x k) (x k) * (Lagrange.basis Finset.univ x k).eval t := by
  set P : ℝ[X] := ∑ j ∈ Finset.range n, C ((orthPoly α β j).eval (x k) / orthNorm β j) * orthPoly α β j with hP
  have hev : ∀ s, P.eval s = orthKernel α β n s (x k) := fun s => by
    rw [hP, eval_finsetSum, orthKernel]
    refine Finset.sum_congr rfl fun j _ => ?_
    rw [eval_mul, eval_C]
    ring
  have hdeg : P.degree < (Finset.univ : Finset (Fin n)).card := by
    rw [Finset.card_univ, Fintype.card_fin]
    refine lt_of_le_of_lt (degree_sum_le _ _) ?_
    refine (Finset.sup_lt_iff (WithBot.bot_lt_coe n)).2 fun j hj => ?_
    refine lt_of_le_of_lt (degree_C_mul_le' _ _) ?_
    rw [orthPoly_degree]
    exact Nat.cast_lt.2 (Finset.mem_range.1 hj)
  have hdeg' : (C (orthKernel α β n (x k) (x k)) * Lagrange.basis Finset.univ x k).degree < (Finset.univ : Finset (Fin n)).card := by
    refine lt_of_le_of_lt (degree_C_mul_le' _ _) ?_
    rw [Lagrange.degree_basis hx.injOn (Finset.mem_univ k), Finset.card_univ, Fintype.card_fin]
    exact_mod_cast Nat.sub_lt (lt_of_le_of_lt (Nat.zero_le _) k.isLt) one_pos
  have h := eq_of_degrees_lt_of_eval_index_eq Finset.univ hx.injOn hdeg hdeg' fun i _ => by
    rw [hev, eval_mul, eval_C]
    by_cases hik : i = k
    · subst hik
      rw [Lagrange.eval_basis_self hx.injOn (Finset.mem_univ i), mul_one]
    · rw [Lagrange.eval_basis_of_ne (Ne.symm hik) (Finset.mem_univ i), mul_zero,
        orthKernel_roots hβ (fun e => hik (hx e)) (hr i) (hr k)]
  rw [← hev, h, eval_mul, eval_C]

theorem orthKernel_symm (s t : ℝ) : orthKernel α β n s t = orthKernel α β n t s :=
  Finset.sum_congr rfl fun j _ => by rw [mul_comm ((orthPoly α β j).eval s)]

/-- The weights `1 / K(x_k, x_k)` add up to one. -/
theorem sum_inv_kernel (hn : 0 < n) (hx : Function.Injective x) (hβ : ∀ k, 1 ≤ k → k < n → 0 < β k)
    (hr : ∀ i, (orthPoly α β n).eval (x i) = 0) : ∑ k, 1 / orthKernel α β n (x k) (x k) = 1 := by
  set A : Matrix (Fin n) (Fin n) ℝ := fun k j => (orthPoly α β j).eval (x k) / orthKernel α β n (x k) (x k) with hA
  set B : Matrix (Fin n) (Fin n) ℝ := fun j k => (orthPoly α β j).eval (x k) / orthNorm β j with hB
  have hAB : A * B = 1 := by
    ext k k'
    have h0 := orthKernel_self_pos (α := α) hn hβ (x k)
    have e : (A * B) k k' = orthKernel α β n (x k) (x k') / orthKernel α β n (x k) (x k) := by
      rw [Matrix.mul_apply, orthKernel, Finset.sum_div, Finset.sum_range]
      refine Finset.sum_congr rfl fun j _ => ?_
      rw [hA, hB]
      ring
    rw [e, Matrix.one_apply]
    split_ifs with h
    · rw [h, div_self (h ▸ h0.ne')]
    · rw [orthKernel_roots hβ (fun e => h (hx e)) (hr k) (hr k'), zero_div]
  have hBA := congrFun (congrFun (_root_.mul_eq_one_comm.1 hAB : B * A = 1) ⟨0, hn⟩) ⟨0, hn⟩
  rw [Matrix.mul_apply, Matrix.one_apply_eq] at hBA
  refine Eq.trans ?_ hBA
  refine Finset.sum_congr rfl fun k _ => ?_
  simp [hA, hB, orthPoly, orthNorm]

/-- The kernel at `t` is a sum of squares of the Lagrange polynomials. -/
theorem orthKernel_eq_sum (hx : Function.Injective x) (hβ : ∀ k, 1 ≤ k → k < n → 0 < β k)
    (hr : ∀ i, (orthPoly α β n).eval (x i) = 0) (t : ℝ) :
    orthKernel α β n t t = ∑ k, orthKernel α β n (x k) (x k) * (Lagrange.basis Finset.univ x k).eval t ^ 2 := by
  set P : ℝ[X] := ∑ j ∈ Finset.range n, C ((orthPoly α β j).eval t / orthNorm β j) * orthPoly α β j with hP
  have hev : ∀ s, P.eval s = orthKernel α β n s t := fun s => by
    rw [hP, eval_finsetSum, orthKernel]
    refine Finset.sum_congr rfl fun j _ => ?_
    rw [eval_mul, eval_C]
    ring
  have hdeg : P.degree < (Finset.univ : Finset (Fin n)).card := by
    rw [Finset.card_univ, Fintype.card_fin]
    refine lt_of_le_of_lt (degree_sum_le _ _) ?_
    refine (Finset.sup_lt_iff (WithBot.bot_lt_coe n)).2 fun j hj => ?_
    refine lt_of_le_of_lt (degree_C_mul_le' _ _) ?_
    rw [orthPoly_degree]
    exact Nat.cast_lt.2 (Finset.mem_range.1 hj)
  have h := Lagrange.eq_interpolate hx.injOn hdeg
  have h2 := congrArg (eval t) h
  rw [hev, Lagrange.interpolate_apply, eval_finsetSum] at h2
  rw [h2]
  refine Finset.sum_congr rfl fun k _ => ?_
  rw [eval_mul, eval_C, hev, orthKernel_symm, orthKernel_basis hx hβ hr]
  ring

/-- The Lebesgue function is at most the square root of the kernel. -/
theorem lebesgue_sq_le_kernel (hn : 0 < n) (hx : Function.Injective x) (hβ : ∀ k, 1 ≤ k → k < n → 0 < β k)
    (hr : ∀ i, (orthPoly α β n).eval (x i) = 0) (t : ℝ) : lebesgue x t ^ 2 ≤ orthKernel α β n t t := by
  have h := Finset.sum_sq_le_sum_mul_sum_of_sq_le_mul (Finset.univ : Finset (Fin n))
    (r := fun k => |(Lagrange.basis Finset.univ x k).eval t|) (f := fun k => 1 / orthKernel α β n (x k) (x k))
    (g := fun k => orthKernel α β n (x k) (x k) * (Lagrange.basis Finset.univ x k).eval t ^ 2)
    (fun k _ => (one_div_pos.2 (orthKernel_self_pos hn hβ _)).le)
    (fun k _ => mul_nonneg (orthKernel_self_pos hn hβ _).le (sq_nonneg _))
    (fun k _ => by
      have := (orthKernel_self_pos (α := α) hn hβ (x k)).ne'
      rw [sq_abs]
      field_simp
      exact le_rfl)
  rwa [sum_inv_kernel hn hx hβ hr, one_mul, ← orthKernel_eq_sum hx hβ hr] at h

/-- Changing the last coefficients, with a larger last `β`, does not increase the kernel on the diagonal. -/
theorem orthKernel_update_le {m : ℕ} {a b : ℝ} (hβ : ∀ k, 1 ≤ k → 0 < β k) (hb : 0 < m → β m ≤ b) (t : ℝ) :
    orthKernel (Function.update α m a) (Function.update β m b) (m + 1) t t ≤ orthKernel α β (m + 1) t t := by
  have hα' : ∀ j ≤ m, orthPoly (Function.update α m a) (Function.update β m b) j = orthPoly α β j := fun j hj =>
    orthPoly_congr j (fun k hk => Function.update_of_ne (by omega) _ _) fun k _ hk => Function.update_of_ne (by omega) _ _
  have hN : ∀ j < m, orthNorm (Function.update β m b) j = orthNorm β j := fun j hj =>
    Finset.prod_congr rfl fun i hi => Function.update_of_ne (by have := Finset.mem_range.1 hi; omega) _ _
  refine Finset.sum_le_sum fun j hj => ?_
  have hj' : j ≤ m := by have := Finset.mem_range.1 hj; omega
  rw [hα' j hj']
  rcases hj'.lt_or_eq with h | rfl
  · rw [hN j h]
  · rcases Nat.eq_zero_or_pos j with rfl | h0
    · simp [orthNorm]
    · obtain ⟨m, rfl⟩ : ∃ m, j = m + 1 := ⟨j - 1, by omega⟩
      have e : ∀ γ : ℕ → ℝ, orthNorm γ (m + 1) = orthNorm γ m * γ (m + 1) := fun γ => Finset.prod_range_succ _ _
      have hp : 0 < orthNorm β m := Finset.prod_pos fun i _ => hβ _ (by omega)
      have hq := hβ (m + 1) (by omega)
      rw [e, e, hN m (by omega), Function.update_self]
      have := hb h0
      exact div_le_div_of_nonneg_left (mul_self_nonneg _) (mul_pos hp hq) (mul_le_mul_of_nonneg_left this hp.le)

end kernel

/-! ### The kernels of the five families on `[-1, 1]` -/

theorem legPoly_one_sq (j : ℕ) : (legPoly j).eval 1 ^ 2 = (2 * j + 1) * orthNorm (baseBeta "LEGENDRE") j := by
  induction j with
  | zero => simp [legPoly_zero, orthNorm]
  | succ j ih =>
    have h := (legPoly_diff j 1).1
    have h1 : (2 * (j:ℝ) + 1) ≠ 0 := by positivity
    have h3 : (2 * (j:ℝ) + 3) ≠ 0 := by positivity
    have hj : ((j:ℝ) + 1) ≠ 0 := by positivity
    have e : (legPoly (j + 1)).eval 1 = ((j:ℝ) + 1) / (2 * j + 1) * (legPoly j).eval 1 := by
      have : ((j:ℝ) + 1) * (legPoly (j + 1)).eval 1 = ((j:ℝ) + 1) ^ 2 / (2 * j + 1) * (legPoly j).eval 1 := by linarith
      field_simp at this ⊢
      linarith
    rw [e, mul_pow, ih, orthNorm, orthNorm, Finset.prod_range_succ]
    have hb : baseBeta "LEGENDRE" (j + 1) = ((j:ℝ) + 1) ^ 2 / ((2 * j + 1) * (2 * j + 3)) := by
      simp [baseBeta]
      congr 1
      ring
    rw [hb]
    push_cast
    field_simp
    ring

theorem legPoly_neg (n : ℕ) (t : ℝ) : (legPoly n).eval (-t) = (-1) ^ n * (legPoly n).eval t := by
  have h := eval_orthPoly_neg (baseAlpha "LEGENDRE") (baseBeta "LEGENDRE") n t
  have e : (fun k => -baseAlpha "LEGENDRE" k) = baseAlpha "LEGENDRE" := by funext k; simp [baseAlpha]
  rw [e] at h
  rw [legPoly, h, ← mul_assoc, ← mul_pow]
  simp

/-- The Legendre polynomials are largest at the ends of the interval. -/
theorem legPoly_sq_le (n : ℕ) {t : ℝ} (ht : |t| ≤ 1) : (legPoly n).eval t ^ 2 ≤ (legPoly n).eval 1 ^ 2 := by
  wlog h0 : 0 ≤ t generalizing t
  · have := this (t := -t) (by rwa [abs_neg]) (by linarith)
    rwa [legPoly_neg, mul_pow, ← pow_mul, mul_comm n 2, pow_mul, neg_one_sq, one_pow, one_mul] at this
  have h1 : t ≤ 1 := (abs_le.1 ht).2
  rcases Nat.eq_zero_or_pos n with rfl | hn
  · simp [legPoly_zero]
  set P := legPoly n
  set N : ℝ := (n:ℝ) * (n + 1)
  have hN : 0 < N := by positivity
  set F : ℝ[X] := C N * P ^ 2 + (1 - X ^ 2) * derivative P ^ 2 with hF
  have hd : derivative F = 2 * X * derivative P ^ 2 := by
    have ho := legPoly_ode n
    rw [hF]
    simp only [derivative_add, derivative_mul, derivative_C, derivative_sub, derivative_one, derivative_X_pow,
      derivative_pow, derivative_X, Nat.cast_ofNat, map_ofNat, zero_mul, zero_add, zero_sub, pow_one, mul_one,
      Nat.add_one_sub_one] at ho ⊢
    linear_combination (-2 * derivative P) * ho
  have hmono : MonotoneOn (fun s => F.eval s) (Set.Icc 0 1) := by
    refine monotoneOn_of_deriv_nonneg (convex_Icc 0 1) F.continuous.continuousOn F.differentiable.differentiableOn
      fun s hs => ?_
    rw [Polynomial.deriv, hd]
    rw [interior_Icc] at hs
    simp only [eval_mul, eval_pow, eval_ofNat, eval_X]
    have := hs.1
    positivity
  have h := hmono ⟨h0, h1⟩ ⟨zero_le_one, le_rfl⟩ h1
  simp only [hF, eval_add, eval_mul, eval_pow, eval_C, eval_sub, eval_one, eval_X, one_pow, sub_self, zero_mul, add_zero] at h
  have h2 : 0 ≤ (1 - t ^ 2) * (derivative P).eval t ^ 2 := mul_nonneg (by nlinarith) (sq_nonneg _)
  exact le_of_mul_le_mul_left (by linarith) hN

theorem abs_U_le (n : ℕ) {t : ℝ} (ht : |t| ≤ 1) : |(Chebyshev.U ℝ n).eval t| ≤ n + 1 := by
  induction n with
  | zero => simp
  | succ n ih =>
    have h := Chebyshev.U_eq_X_mul_U_add_T ℝ (n : ℤ)
    push_cast
    rw [h, eval_add, eval_mul, eval_X]
    refine (abs_add_le _ _).trans ?_
    rw [abs_mul]
    have h2 := Chebyshev.abs_eval_T_real_le_one ((n : ℤ) + 1) ht
    have h3 : |t| * |(Chebyshev.U ℝ n).eval t| ≤ 1 * (n + 1) := mul_le_mul ht ih (abs_nonneg _) zero_le_one
    linarith

/-- Squares of the bounds of the Lebesgue functions of the node families. -/
noncomputable def lebBound (nt : String) (n : ℕ) : ℝ :=
  if nt = "LEGENDRE" then (n:ℝ) ^ 2
  else if nt = "CHEBY-1" then 2 * n - 1
  else if nt = "CHEBY-2" then n * (n + 1) * (2 * n + 1) / 6
  else n * (4 * (n:ℝ) ^ 2 - 1) / 3

theorem orthNorm_cheby (nt : String) (hnt : nt ∈ ["CHEBY-2", "CHEBY-3", "CHEBY-4"]) (j : ℕ) :
    orthNorm (baseBeta nt) j = (1 / 2 ^ j) ^ 2 := by
  have : ∀ i ∈ Finset.range j, baseBeta nt (i + 1) = 1 / 4 := fun i _ => by
    simp only [List.mem_cons, List.not_mem_nil, or_false] at hnt
    rcases hnt with rfl | rfl | rfl <;> simp [baseBeta] <;> norm_num
  rw [orthNorm, Finset.prod_congr rfl this, Finset.prod_const, Finset.card_range, ← one_div_pow, ← pow_mul, mul_comm j 2, pow_mul]
  norm_num

theorem orthNorm_cheby1 (j : ℕ) : orthNorm (baseBeta "CHEBY-1") (j + 1) = (1 / 2 ^ j) ^ 2 / 2 := by
  rw [orthNorm, Finset.prod_range_succ']
  have : ∀ i ∈ Finset.range j, baseBeta "CHEBY-1" (i + 1 + 1) = 1 / 4 := fun i _ => by
    simp [baseBeta]; norm_num
  rw [Finset.prod_congr rfl this, Finset.prod_const, Finset.card_range, ← one_div_pow, ← pow_mul, mul_comm j 2, pow_mul]
  simp [baseBeta]
  norm_num
  ring

theorem sq_of_scaled {p q : ℝ[X]} {j : ℕ} (h : C (2 ^ j : ℝ) * p = q) (t : ℝ) :
    p.eval t * p.eval t / (1 / 2 ^ j) ^ 2 = q.eval t ^ 2 := by
  rw [← h, eval_mul, eval_C]
  field_simp

theorem orthKernel_le {nt : String} (hnt : nt ∈ ORTHO_TYPES) {n : ℕ} (hn : 0 < n) {t : ℝ} (ht : |t| ≤ 1) :
    orthKernel (baseAlpha nt) (baseBeta nt) n t t ≤ lebBound nt n := by
  simp only [ORTHO_TYPES, List.mem_cons, List.not_mem_nil, or_false] at hnt
  have hU' : ∀ j : ℕ, |(Chebyshev.U ℝ ((j : ℤ) - 1)).eval t| ≤ j := fun j => by
    cases j with
    | zero => simp
    | succ j => simpa using abs_U_le j ht
  have hsum : ∀ (g : ℕ → ℝ) (f : ℕ → ℝ), (∀ j, g j ≤ f (j + 1) - f j) → f 0 = 0 → ∑ j ∈ Finset.range n, g j ≤ f n := fun g f h h0 => by
    refine (Finset.sum_le_sum fun j _ => h j).trans ?_
    rw [Finset.sum_range_sub, h0, sub_zero]
  rcases hnt with rfl | rfl | rfl | rfl | rfl
  · rw [lebBound, if_pos rfl, orthKernel]
    refine hsum _ (fun n => (n:ℝ) ^ 2) (fun j => ?_) (by simp)
    have hN : 0 < orthNorm (baseBeta "LEGENDRE") j := by
      obtain ⟨ρ, hr⟩ := (family_base (nt := "LEGENDRE") (by decide)).right
      exact Finset.prod_pos fun i _ => hr.beta _ (by omega)
    rw [div_le_iff₀ hN]
    have h1 := legPoly_sq_le j ht
    rw [legPoly_one_sq] at h1
    rw [legPoly] at h1
    push_cast
    nlinarith
  · rw [lebBound, if_neg (by decide), if_pos rfl, orthKernel]
    obtain ⟨m, rfl⟩ : ∃ m, n = m + 1 := ⟨n - 1, by omega⟩
    rw [Finset.sum_range_succ']
    have : ∑ j ∈ Finset.range m, (orthPoly (baseAlpha "CHEBY-1") (baseBeta "CHEBY-1") (j + 1)).eval t *
        (orthPoly (baseAlpha "CHEBY-1") (baseBeta "CHEBY-1") (j + 1)).eval t / orthNorm (baseBeta "CHEBY-1") (j + 1) ≤ ∑ j ∈ Finset.range m, (2:ℝ) := by
      refine Finset.sum_le_sum fun j _ => ?_
      rw [orthNorm_cheby1, div_div_eq_mul_div, mul_div_right_comm, sq_of_scaled (cheby1_eq j)]
      have := Chebyshev.abs_eval_T_real_le_one ((j : ℤ) + 1) ht
      have := (sq_le_one_iff_abs_le_one _).2 this
      linarith
    rw [Finset.sum_const, Finset.card_range, nsmul_eq_mul] at this
    have e : (orthPoly (baseAlpha "CHEBY-1") (baseBeta "CHEBY-1") 0).eval t * (orthPoly (baseAlpha "CHEBY-1") (baseBeta "CHEBY-1") 0).eval t /
        orthNorm (baseBeta "CHEBY-1") 0 = 1 := by simp [orthPoly, orthNorm]
    rw [e]
    push_cast
    linarith
  · rw [lebBound, if_neg (by decide), if_neg (by decide), if_pos rfl, orthKernel]
    refine hsum _ (fun n => (n:ℝ) * (n + 1) * (2 * n + 1) / 6) (fun j => ?_) (by simp)
    rw [orthNorm_cheby _ (by decide), sq_of_scaled (cheby2_eq j), ← sq_abs]
    have := pow_le_pow_left₀ (abs_nonneg _) (abs_U_le j ht) 2
    push_cast
    linarith
  · rw [lebBound, if_neg (by decide), if_neg (by decide), if_neg (by decide), orthKernel]
    refine hsum _ (fun n => (n:ℝ) * (4 * n ^ 2 - 1) / 3) (fun j => ?_) (by simp)
    rw [orthNorm_cheby _ (by decide), sq_of_scaled (cheby3_eq j), ← sq_abs, eval_sub]
    have := pow_le_pow_left₀ (abs_nonneg _) ((abs_sub _ _).trans (add_le_add (abs_U_le j ht) (hU' j))) 2
    push_cast
    linarith
  · rw [lebBound, if_neg (by decide), if_neg (by decide), if_neg (by decide), orthKernel]
    refine hsum _ (fun n => (n:ℝ) * (4 * n ^ 2 - 1) / 3) (fun j => ?_) (by simp)
    rw [orthNorm_cheby _ (by decide), sq_of_scaled (cheby4_eq j), ← sq_abs, eval_add]
    have := pow_le_pow_left₀ (abs_nonneg _) ((abs_add_le _ _).trans (add_le_add (abs_U_le j ht) (hU' j))) 2
    push_cast
    linarith

/-- The last `β` of LOBATTO is larger than the one of the family. -/
theorem lobatto_beta {α β : ℕ → ℝ} (hF : Family α β) {m : ℕ} (hm : 0 < m) {a b : ℝ} (hb : 0 < b)
    (h1 : (lastPoly α β m a b).eval 1 = 0) (h2 : (lastPoly α β m a b).eval (-1) = 0) : β m ≤ b := by
  obtain ⟨ρ, hr⟩ := hF.right
  obtain ⟨ρ', hl⟩ := hF.left
  obtain ⟨m, rfl⟩ : ∃ k, m = k + 1 := ⟨m - 1, by omega⟩
  have r1 := hr.beta_prev_lt le_rfl (m + 1)
  have l1 := hl.beta_prev_lt le_rfl (m + 1)
  have r0 := hr.eval_pos le_rfl (m + 1)
  have l0 := hl.eval_pos le_rfl (m + 1)
  have hβ := hr.beta (m + 1) (by omega)
  have s0 := hl.eval_pos le_rfl m
  have t0 := hr.eval_pos le_rfl m
  simp only [prevPoly, lastPoly, eval_sub, eval_mul, eval_X, eval_C] at r1 l1 h1 h2
  rw [eval_orthPoly_neg] at l0 s0
  rw [eval_orthPoly_neg, eval_orthPoly_neg] at l1
  rw [pow_succ] at l0 l1
  by_contra hlt
  push Not at hlt
  have h3 : (1 + a) * ((-1) ^ m * -1 * (orthPoly α β (m + 1)).eval (-1)) = b * ((-1) ^ m * (orthPoly α β m).eval (-1)) := by
    linear_combination (-1) ^ m * h2
  generalize (-1) ^ m * -1 * (orthPoly α β (m + 1)).eval (-1) = S at *
  generalize (-1) ^ m * (orthPoly α β m).eval (-1) = s at *
  generalize (orthPoly α β (m + 1)).eval 1 = R at *
  generalize (orthPoly α β m).eval 1 = r at *
  have a1 : (1 - a) * R < R := by nlinarith
  have a2 : (1 + a) * S < S := by nlinarith
  have a3 : 0 < a := by nlinarith
  nlinarith

/-- The Lebesgue function of the nodes of all families and quadrature types. -/
theorem lebesgue_nodes_sq {nt qt : String} (hnt : nt ∈ ORTHO_TYPES) (hqt : qt ∈ QUAD_TYPES) {n : ℕ} (x : Fin n → ℝ)
    (hn : ValidSize qt n) (hx : getNodes ⟨nt, qt⟩ n = .ok x) {t : ℝ} (ht : |t| ≤ 1) : lebesgue x t ^ 2 ≤ lebBound nt n := by
  obtain ⟨m, rfl⟩ : ∃ m, n = m + 1 := ⟨n - 1, by have := hn.1; omega⟩
  obtain ⟨x', a, b, hx', hs, hnod, hlast, hspec, -⟩ := getNodes_ortho hnt hqt hn
  rw [hx'] at hx
  cases hx
  have hF := family_base hnt
  obtain ⟨ρ, hr⟩ := hF.right
  have hb : 0 < m → baseBeta nt m ≤ b := fun hm => by
    rcases hlast with ⟨-, -, rfl⟩ | ⟨-, -, rfl⟩ | ⟨-, -, rfl⟩ | ⟨rfl, -, hb⟩
    · exact le_rfl
    · exact le_rfl
    · exact le_rfl
    · exact lobatto_beta hF hm hb (hspec.atRight.2 (Or.inl rfl)) (hspec.atLeft.2 (Or.inl rfl))
  have hβ : ∀ k, 1 ≤ k → k < m + 1 → 0 < Function.update (baseBeta nt) m b k := fun k h1 hk => by
    by_cases h : k = m
    · subst h
      rw [Function.update_self]
      exact (hr.beta _ h1).trans_le (hb (by omega))
    · rw [Function.update_of_ne h]
      exact hr.beta _ h1
  refine (lebesgue_sq_le_kernel (α := Function.update (baseAlpha nt) m a) (by omega) hs.injective hβ (fun i => ?_) t).trans
    ((orthKernel_update_le (fun k hk => hr.beta k hk) hb t).trans (orthKernel_le hnt (by omega) ht))
  rw [orthPoly_update, ← lastPoly, ← hnod]
  exact (eval_nodal_eq_zero_iff _ _).2 ⟨i, rfl⟩

end QMat
