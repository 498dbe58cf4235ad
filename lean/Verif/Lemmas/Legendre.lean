import Verif.Lemmas.NodesSpec
import Verif.Lemmas.PolyFunctional

/-!
# Orthogonality of the Legendre recurrence, and quadrature by division by the node polynomial
-/

namespace QMat

open Polynomial Spec NodesGenerator

/-- The monic Legendre polynomials of the code. -/
noncomputable def legPoly (n : ℕ) : ℝ[X] := orthPoly (baseAlpha "LEGENDRE") (baseBeta "LEGENDRE") n

theorem legPoly_zero : legPoly 0 = 1 := rfl

theorem legPoly_one : legPoly 1 = X := by
  simp [legPoly, orthPoly, baseAlpha]

theorem legPoly_succ (n : ℕ) :
    legPoly (n + 2) = X * legPoly (n + 1) -
      C (((n:ℝ) + 1) ^ 2 / (4 * ((n:ℝ) + 1) ^ 2 - 1)) * legPoly n := by
  unfold legPoly
  rw [orthPoly_succ]
  simp [baseAlpha, baseBeta]

theorem legPoly_monic (n : ℕ) : (legPoly n).Monic := orthPoly_monic _ _ n

theorem legPoly_natDegree (n : ℕ) : (legPoly n).natDegree = n := orthPoly_natDegree _ _ n

/-- The two differential relations, by induction on the recurrence. -/
theorem legPoly_diff (n : ℕ) (t : ℝ) :
    (t ^ 2 - 1) * (derivative (legPoly (n + 1))).eval t =
      (n + 1) * t * (legPoly (n + 1)).eval t - ((n:ℝ) + 1) ^ 2 / (2 * n + 1) * (legPoly n).eval t ∧
    t * (derivative (legPoly (n + 1))).eval t -
      ((n:ℝ) + 1) / (2 * n + 1) * (derivative (legPoly n)).eval t =
      (n + 1) * (legPoly (n + 1)).eval t := by
  induction n with
  | zero => simp [legPoly_one, legPoly_zero]; ring
  | succ n ih =>
    obtain ⟨hA, hB⟩ := ih
    have h1 : (2 * (n:ℝ) + 1) ≠ 0 := by positivity
    have h3 : (2 * (n:ℝ) + 3) ≠ 0 := by positivity
    have hn : ((n:ℝ) + 1) ≠ 0 := by positivity
    have hβ : ((n:ℝ) + 1) ^ 2 / (4 * ((n:ℝ) + 1) ^ 2 - 1) =
        ((n:ℝ) + 1) ^ 2 / ((2 * n + 1) * (2 * n + 3)) := by
      congr 1; ring
    rw [legPoly_succ, hβ]
    simp only [derivative_sub, derivative_mul, derivative_X, derivative_C, eval_sub, eval_mul,
      eval_add, eval_X, eval_C, one_mul, zero_mul, zero_add]
    set p := (legPoly (n + 1)).eval t
    set q := (legPoly n).eval t
    set dp := (derivative (legPoly (n + 1))).eval t
    set dq := (derivative (legPoly n)).eval t
    have hq : dq = (2 * n + 1) / (n + 1) * (t * dp - (n + 1) * p) := by
      rw [← hB]; field_simp; ring
    have hA' : q = (2 * n + 1) / (n + 1) ^ 2 * ((n + 1) * t * p - (t ^ 2 - 1) * dp) := by
      rw [hA]; field_simp; ring
    rw [hq, hA']
    push_cast
    rw [show 2 * ((n:ℝ) + 1) + 1 = 2 * n + 3 by ring]
    constructor
    · field_simp; ring
    · field_simp; ring

/-- The Legendre differential equation. -/
theorem legPoly_ode (n : ℕ) :
    derivative ((X ^ 2 - 1) * derivative (legPoly n)) = C ((n:ℝ) * (n + 1)) * legPoly n := by
  cases n with
  | zero => simp [legPoly_zero]
  | succ n =>
    have hA : (X ^ 2 - 1) * derivative (legPoly (n + 1)) =
        C ((n:ℝ) + 1) * X * legPoly (n + 1) - C (((n:ℝ) + 1) ^ 2 / (2 * n + 1)) * legPoly n := by
      refine Polynomial.funext fun t => ?_
      simpa using (legPoly_diff n t).1
    rw [hA]
    refine Polynomial.funext fun t => ?_
    have hB := (legPoly_diff n t).2
    simp only [derivative_sub, derivative_mul, derivative_X, derivative_C, eval_sub, eval_mul,
      eval_add, eval_X, eval_C, zero_mul, zero_add, mul_one]
    push_cast
    linear_combination ((n:ℝ) + 1) * hB

/-- Integration by parts against a factor vanishing at both ends. -/
theorem polyInt_by_parts (q r : ℝ[X]) :
    polyInt (q * derivative ((X ^ 2 - 1) * r)) (-1) 1 =
      -polyInt (derivative q * ((X ^ 2 - 1) * r)) (-1) 1 := by
  have h := polyInt_derivative (q * ((X ^ 2 - 1) * r)) (-1) 1
  rw [derivative_mul, polyInt_add] at h
  have hz : (q * ((X ^ 2 - 1) * r)).eval 1 - (q * ((X ^ 2 - 1) * r)).eval (-1) = 0 := by simp
  rw [hz] at h
  linarith

theorem polyInt_by_parts2 (q r : ℝ[X]) :
    polyInt (q * derivative ((X ^ 2 - 1) * derivative r)) (-1) 1 =
      polyInt (derivative ((X ^ 2 - 1) * derivative q) * r) (-1) 1 := by
  have h1 := polyInt_by_parts q (derivative r)
  have h2 := polyInt_by_parts r (derivative q)
  rw [h1, mul_comm _ r, h2]
  congr 2
  ring

theorem legPoly_orth_pow (n : ℕ) : ∀ k < n, polyInt (X ^ k * legPoly n) (-1) 1 = 0 := by
  intro k
  induction k using Nat.strong_induction_on with
  | _ k ih =>
    intro hk
    have h := polyInt_by_parts2 (X ^ k) (legPoly n)
    rw [legPoly_ode, show (X:ℝ[X]) ^ k * (C ((n:ℝ) * (n + 1)) * legPoly n) =
      C ((n:ℝ) * (n + 1)) * (X ^ k * legPoly n) by ring, polyInt_C_mul] at h
    have key : derivative ((X ^ 2 - 1) * derivative ((X:ℝ[X]) ^ k)) =
        C ((k:ℝ) * (k + 1)) * X ^ k - C ((k:ℝ) * (k - 1)) * X ^ (k - 2) := by
      match k with
      | 0 => simp
      | 1 => simp
      | k + 2 =>
        refine Polynomial.funext fun t => ?_
        simp
        ring
    rw [key, sub_mul, polyInt_sub, mul_assoc (C _), mul_assoc (C _), polyInt_C_mul, polyInt_C_mul] at h
    have hz : (k:ℝ) * (k - 1) * polyInt (X ^ (k - 2) * legPoly n) (-1) 1 = 0 := by
      by_cases h2 : 2 ≤ k
      · rw [ih (k - 2) (by omega) (by omega), mul_zero]
      · have : k = 0 ∨ k = 1 := by omega
        rcases this with rfl | rfl <;> simp
    rw [hz, sub_zero, ← sub_eq_zero, ← sub_mul] at h
    refine (mul_eq_zero.mp h).resolve_left ?_
    have : (k:ℝ) < n := by exact_mod_cast hk
    have : (0:ℝ) ≤ k := by positivity
    nlinarith

/-- Orthogonality of `legPoly n` to all polynomials of degree `< n`. -/
theorem legPoly_orth {n : ℕ} {q : ℝ[X]} (hq : q.degree < n) :
    polyInt (q * legPoly n) (-1) 1 = 0 := by
  have := linear_ext_of_degrees (fun k => (X:ℝ[X]) ^ k)
    ((intL (-1) 1).comp (LinearMap.mulLeft ℝ (legPoly n))) 0 n
    (fun k _ => degree_X_pow k) (fun k hk => ?_) q hq
  · simpa [intL, mul_comm] using this
  · simpa [intL, mul_comm] using legPoly_orth_pow n k hk

/-- Quadrature by division: a rule exact below degree `n` on the `n` roots of `N` is exact below
degree `n + r` when `N` is orthogonal to all polynomials of degree `< r`. -/
theorem quadExact_of_orth {n r : ℕ} {x w : Fin n → ℝ} {a b : ℝ}
    (hw : ∀ p : ℝ[X], p.degree < n → QuadExact x w a b p)
    (horth : ∀ q : ℝ[X], q.degree < r → polyInt (q * Lagrange.nodal Finset.univ x) a b = 0)
    (p : ℝ[X]) (hp : p.degree < (n + r : ℕ)) : QuadExact x w a b p := by
  set N := Lagrange.nodal Finset.univ x with hN
  have hmon : N.Monic := Lagrange.nodal_monic
  have hdeg : N.natDegree = n := by rw [hN, Lagrange.natDegree_nodal]; simp
  have hdiv := modByMonic_add_div p N
  have hmodlt : (p %ₘ N).degree < n := by
    have := degree_modByMonic_lt p hmon
    rwa [degree_eq_natDegree hmon.ne_zero, hdeg] at this
  have hdivlt : (p /ₘ N).degree < r := by
    by_cases h0 : p /ₘ N = 0
    · rw [h0, degree_zero]; exact WithBot.bot_lt_coe _
    · rw [degree_eq_natDegree h0, natDegree_divByMonic p hmon, hdeg]
      have hp0 : p ≠ 0 := by rintro rfl; simp at h0
      rw [degree_eq_natDegree hp0] at hp
      have hp' : p.natDegree < n + r := by exact_mod_cast hp
      have hr : p.natDegree - n < r := by
        by_cases hr : r = 0
        · exfalso
          apply h0
          rw [divByMonic_eq_zero_iff hmon, degree_eq_natDegree hmon.ne_zero, hdeg,
            degree_eq_natDegree hp0]
          exact_mod_cast (by omega : p.natDegree < n)
        · omega
      exact_mod_cast hr
  have hv : ∀ i, p.eval (x i) = (p %ₘ N).eval (x i) := fun i => by
    conv_lhs => rw [← hdiv]
    rw [eval_add, eval_mul, hN, Lagrange.eval_nodal_at_node (Finset.mem_univ i), zero_mul, add_zero]
  unfold QuadExact
  have := hw _ hmodlt
  unfold QuadExact at this
  simp only [hv]
  rw [this]
  conv_rhs => rw [← hdiv]
  rw [polyInt_add, mul_comm N, horth _ hdivlt, add_zero]

/-- Number of additional degrees integrated exactly. -/
def legBonus (qt : String) (n : ℕ) : ℕ :=
  if qt = "GAUSS" then n else if qt = "LOBATTO" then n - 2 else n - 1

theorem legendre_nodes_orth {qt : String} (hqt : qt ∈ QUAD_TYPES) {n : ℕ} (x : Fin n → ℝ)
    (hn : ValidSize qt n) (hx : getNodes ⟨"LEGENDRE", qt⟩ n = .ok x) (q : ℝ[X])
    (hq : q.degree < legBonus qt n) :
    polyInt (q * Lagrange.nodal Finset.univ x) (-1) 1 = 0 := by
  obtain ⟨m, rfl⟩ : ∃ m, n = m + 1 := ⟨n - 1, by have := hn.1; omega⟩
  obtain ⟨x', a, b, hx', -, hnod, hlast, -⟩ := getNodes_ortho (nt := "LEGENDRE") (by decide) hqt hn
  rw [hx'] at hx
  cases hx
  rw [hnod]
  have hstep := orthPoly_step (baseAlpha "LEGENDRE") (baseBeta "LEGENDRE") m
  have e : lastPoly (baseAlpha "LEGENDRE") (baseBeta "LEGENDRE") m a b =
      legPoly (m + 1) + C (-a) * legPoly m +
        C (baseBeta "LEGENDRE" m - b) * prevPoly (baseAlpha "LEGENDRE") (baseBeta "LEGENDRE") m := by
    rw [legPoly, hstep, lastPoly, legPoly]
    simp only [C_sub, C_neg, show baseAlpha "LEGENDRE" m = 0 by simp [baseAlpha], C_0, sub_zero]
    ring
  rw [e, mul_add, mul_add, polyInt_add, polyInt_add,
    show q * (C (-a) * legPoly m) = C (-a) * (q * legPoly m) by ring,
    show ∀ c P, q * (C c * P) = C c * (q * P) by intros; ring, polyInt_C_mul, polyInt_C_mul]
  have lt : ∀ {k l : ℕ}, k ≤ l → q.degree < k → q.degree < l := fun h hk =>
    hk.trans_le (by exact_mod_cast h)
  rcases hlast with ⟨rfl, rfl, rfl⟩ | ⟨rfl, rfl, rfl⟩ | ⟨rfl, rfl, rfl⟩ | ⟨rfl, hm, hb⟩
  · simp only [legBonus, if_true] at hq
    rw [legPoly_orth hq, sub_self]
    simp [baseAlpha]
  · simp only [legBonus, String.reduceEq, if_false] at hq
    rw [legPoly_orth (lt (by omega) hq), legPoly_orth (n := m) (by simpa using hq), sub_self]
    simp
  · simp only [legBonus, String.reduceEq, if_false] at hq
    rw [legPoly_orth (lt (by omega) hq), legPoly_orth (n := m) (by simpa using hq), sub_self]
    simp
  · obtain ⟨m, rfl⟩ : ∃ k, m = k + 1 := ⟨m - 1, by omega⟩
    simp only [legBonus, String.reduceEq, if_false, if_true] at hq
    have hq' : q.degree < (m : ℕ) := by simpa using hq
    rw [legPoly_orth (lt (by omega) hq'), legPoly_orth (n := m + 1) (lt (by omega) hq')]
    have := legPoly_orth hq'
    rw [legPoly] at this
    rw [prevPoly, this]
    simp

end QMat
