import Verif.Lemmas.Lebesgue

/-!
# Hermite interpolation of the constant one, and LOBATTO nodes
-/

namespace QMat

open Polynomial Spec NodesGenerator

section

variable {n : ℕ} {x : Fin n → ℝ}

theorem nodal_sq_dvd (hx : Function.Injective x) {f : ℝ[X]} (h0 : ∀ i, f.eval (x i) = 0)
    (h1 : ∀ i, (derivative f).eval (x i) = 0) : (∏ i, (X - C (x i)) ^ 2) ∣ f := by
  refine Finset.prod_dvd_of_coprime (fun i _ j _ hij => ?_) fun i _ => ?_
  · exact (pairwise_coprime_X_sub_C hx hij).pow
  · obtain ⟨g, hg⟩ := dvd_iff_isRoot.2 (h0 i)
    have h := h1 i
    rw [hg, derivative_mul, eval_add, eval_mul, eval_mul, derivative_sub, derivative_X, derivative_C] at h
    simp only [sub_zero, eval_one, one_mul, eval_sub, eval_X, eval_C, sub_self, zero_mul, add_zero] at h
    obtain ⟨k, hk⟩ := dvd_iff_isRoot.2 h
    exact ⟨k, by rw [hg, hk]; ring⟩

/-- The Hermite interpolation polynomial of the constant one. -/
theorem hermite_one (hx : Function.Injective x) (t : ℝ) (hn : 0 < n) :
    ∑ k, (1 - 2 * (t - x k) * (derivative (Lagrange.basis Finset.univ x k)).eval (x k)) *
      (Lagrange.basis Finset.univ x k).eval t ^ 2 = 1 := by
  set l : Fin n → ℝ[X] := fun k => Lagrange.basis Finset.univ x k with hl
  set P : ℝ[X] := ∑ k, (1 - C (2 * (derivative (l k)).eval (x k)) * (X - C (x k))) * l k ^ 2 with hP
  have hself : ∀ k, (l k).eval (x k) = 1 := fun k => Lagrange.eval_basis_self hx.injOn (Finset.mem_univ k)
  have hne : ∀ k i, k ≠ i → (l k).eval (x i) = 0 := fun k i h => Lagrange.eval_basis_of_ne h (Finset.mem_univ i)
  have h0 : ∀ i, (P - 1).eval (x i) = 0 := fun i => by
    rw [hP, eval_sub, eval_finsetSum, eval_one, Finset.sum_eq_single i]
    · simp [hself]
    · intro k _ hk
      simp [hne k i hk]
    · simp
  have h1 : ∀ i, (derivative (P - 1)).eval (x i) = 0 := fun i => by
    rw [hP, derivative_sub, derivative_one, sub_zero, derivative_sum, eval_finsetSum]
    refine Finset.sum_eq_zero fun k _ => ?_
    simp only [derivative_mul, derivative_sub, derivative_one, derivative_C, derivative_X, derivative_pow, zero_mul, zero_add,
      sub_zero, zero_sub, mul_one, eval_add, eval_mul, eval_neg, eval_C, eval_pow, eval_sub, eval_one, eval_X, Nat.cast_ofNat,
      eval_ofNat, map_ofNat, Nat.add_one_sub_one, pow_one]
    by_cases hk : k = i
    · subst hk
      rw [hself]
      ring
    · rw [hne k i hk]
      ring
  have hdl : ∀ k, (l k).natDegree = n - 1 := fun k => by
    have := Lagrange.degree_basis hx.injOn (Finset.mem_univ k)
    rw [Finset.card_univ, Fintype.card_fin] at this
    exact natDegree_eq_of_degree_eq_some this
  have hdeg : (P - 1).natDegree ≤ 2 * n - 1 := by
    refine (natDegree_sub_le _ _).trans (max_le ?_ (by simp))
    refine natDegree_sum_le_of_forall_le _ _ fun k _ => ?_
    refine natDegree_mul_le.trans ?_
    have a1 : (1 - C (2 * (derivative (l k)).eval (x k)) * (X - C (x k))).natDegree ≤ 1 := by
      refine (natDegree_sub_le _ _).trans (max_le (by simp) ?_)
      refine natDegree_mul_le.trans ?_
      rw [natDegree_C, natDegree_X_sub_C]
    have a2 : (l k ^ 2).natDegree ≤ 2 * (n - 1) := by
      refine natDegree_pow_le.trans ?_
      rw [hdl]
    omega
  have hz : P - 1 = 0 := by
    refine eq_zero_of_dvd_of_natDegree_lt (nodal_sq_dvd hx h0 h1) (lt_of_le_of_lt hdeg ?_)
    rw [natDegree_prod _ _ fun i _ => pow_ne_zero _ (X_sub_C_ne_zero _)]
    simp only [natDegree_pow, natDegree_X_sub_C, Finset.sum_const, Finset.card_univ, Fintype.card_fin, smul_eq_mul, mul_one]
    omega
  have h := congrArg (eval t) hz
  rw [eval_sub, eval_one, eval_zero, sub_eq_zero, hP, eval_finsetSum] at h
  refine Eq.trans (Finset.sum_congr rfl fun k _ => ?_) h
  simp only [eval_mul, eval_sub, eval_one, eval_C, eval_X, eval_pow]
  rw [hl]
  ring

/-- The derivative of a Lagrange polynomial at its point, from the node polynomial. -/
theorem basis_deriv_self (hx : Function.Injective x) (k : Fin n) :
    2 * (derivative (Lagrange.basis Finset.univ x k)).eval (x k) * (derivative (Lagrange.nodal Finset.univ x)).eval (x k) =
      (derivative (derivative (Lagrange.nodal Finset.univ x))).eval (x k) := by
  set N := Lagrange.nodal Finset.univ x with hN
  have h0 : (derivative N).eval (x k) * (Lagrange.basis Finset.univ x k).eval (x k) = (derivative N).eval (x k) := by
    rw [Lagrange.eval_basis_self hx.injOn (Finset.mem_univ k), mul_one]
  have hne : (derivative N).eval (x k) ≠ 0 := by
    rw [hN, Lagrange.eval_nodal_derivative_eval_node_eq (Finset.mem_univ k)]
    rw [Lagrange.eval_nodal]
    exact Finset.prod_ne_zero_iff.2 fun i hi => sub_ne_zero.2 fun h => (Finset.mem_erase.1 hi).1 (hx h).symm
  -- the node polynomial is the product of `X - x_k` and a multiple of the Lagrange polynomial
  have hfac : N = (X - C (x k)) * (C ((derivative N).eval (x k)) * Lagrange.basis Finset.univ x k) := by
    have e := Lagrange.nodal_eq_mul_nodal_erase (v := x) (Finset.mem_univ k)
    have hb : C ((derivative N).eval (x k)) * Lagrange.basis Finset.univ x k = Lagrange.nodal (Finset.univ.erase k) x := by
      rw [hN, Lagrange.eval_nodal_derivative_eval_node_eq (Finset.mem_univ k), Lagrange.basis, Lagrange.eval_nodal, Lagrange.nodal,
        map_prod, ← Finset.prod_mul_distrib]
      refine Finset.prod_congr rfl fun i hi => ?_
      have hik : x k - x i ≠ 0 := sub_ne_zero.2 fun h => (Finset.mem_erase.1 hi).1 (hx h).symm
      rw [Lagrange.basisDivisor, ← mul_assoc, ← C_mul, mul_inv_cancel₀ hik, C_1, one_mul]
    rw [hb, ← e]
  have h2 := congrArg (fun p => (derivative (derivative p)).eval (x k)) hfac
  simp only [derivative_mul, derivative_add, derivative_sub, derivative_X, derivative_C, eval_add, eval_mul, eval_sub, eval_X,
    eval_C, sub_self, zero_mul, zero_add, sub_zero, one_mul, add_zero] at h2
  rw [h2]
  ring

end

/-- Nodes and values of the Legendre polynomials of LOBATTO nodes: `(m+1) · nodal = (X² - 1) L_m'` up to a factor. -/
theorem lobatto_nodal_hermite {m : ℕ} (hm : 0 < m) (x : Fin (m + 1) → ℝ) (hn : ValidSize "LOBATTO" (m + 1))
    (hx : getNodes ⟨"LEGENDRE", "LOBATTO"⟩ (m + 1) = .ok x) :
    C (m : ℝ) * Lagrange.nodal Finset.univ x = (X ^ 2 - 1) * derivative (legPoly m) := by
  obtain ⟨m, rfl⟩ : ∃ k, m = k + 1 := ⟨m - 1, by omega⟩
  obtain ⟨x', a, b, hx', -, hnod, hlast, hspec, -⟩ := getNodes_ortho (nt := "LEGENDRE") (qt := "LOBATTO") (by decide) (by decide) hn
  rw [hx'] at hx
  cases hx
  rw [hnod]
  have h1 := hspec.atRight.2 (Or.inl rfl)
  have h2 := hspec.atLeft.2 (Or.inl rfl)
  rw [lastPoly, prevPoly] at h1 h2 ⊢
  rw [← legPoly, ← legPoly] at h1 h2 ⊢
  simp only [eval_sub, eval_mul, eval_X, eval_C] at h1 h2
  have hpos : ∀ k, 0 < (legPoly k).eval 1 := fun k => by
    obtain ⟨ρ, hr⟩ := (family_base (nt := "LEGENDRE") (by decide)).right
    exact hr.eval_pos le_rfl k
  have p1 := hpos (m + 1)
  have p0 := hpos m
  rw [legPoly_neg, legPoly_neg, pow_succ] at h2
  have hs : ((-1:ℝ) ^ m) ≠ 0 := pow_ne_zero _ (by norm_num)
  have h2' : (1 + a) * (legPoly (m + 1)).eval 1 - b * (legPoly m).eval 1 = 0 := by
    have : (-1:ℝ) ^ m * ((1 + a) * (legPoly (m + 1)).eval 1 - b * (legPoly m).eval 1) = 0 := by linear_combination h2
    exact (mul_eq_zero.1 this).resolve_left hs
  have ha : a = 0 := by
    have : 2 * a * (legPoly (m + 1)).eval 1 = 0 := by linear_combination h2' - h1
    have := (mul_eq_zero.1 this).resolve_right p1.ne'
    linarith
  subst ha
  have hd := (legPoly_diff m 1).1
  have h21 : (2 * (m:ℝ) + 1) ≠ 0 := by positivity
  have hb : ((m:ℝ) + 1) * b = ((m:ℝ) + 1) ^ 2 / (2 * m + 1) := by
    have e1 : (legPoly (m + 1)).eval 1 = b * (legPoly m).eval 1 := by linarith
    rw [e1] at hd
    have : (((m:ℝ) + 1) * b - ((m:ℝ) + 1) ^ 2 / (2 * m + 1)) * (legPoly m).eval 1 = 0 := by linear_combination -hd
    have := (mul_eq_zero.1 this).resolve_right p0.ne'
    linarith
  refine Polynomial.funext fun t => ?_
  have ht := (legPoly_diff m t).1
  simp only [eval_mul, eval_sub, eval_C, eval_X, eval_pow, eval_one]
  push_cast
  linear_combination -ht - hb * (legPoly m).eval t

theorem eq_or_eq_of_sq (y : ℝ) (h : y ^ 2 - 1 = 0) : y = 1 ∨ y = -1 := by
  have : (y - 1) * (y + 1) = 0 := by linear_combination h
  rcases mul_eq_zero.1 this with h | h
  · exact Or.inl (by linarith)
  · exact Or.inr (by linarith)

/-- LOBATTO nodes: the squares of the Lagrange polynomials add up to at most one on `[-1, 1]`. -/
theorem lobatto_sum_sq {n : ℕ} (x : Fin n → ℝ) (hn : ValidSize "LOBATTO" n)
    (hx : getNodes ⟨"LEGENDRE", "LOBATTO"⟩ n = .ok x) {t : ℝ} (ht : |t| ≤ 1) :
    ∑ k, (Lagrange.basis Finset.univ x k).eval t ^ 2 ≤ 1 := by
  have h2 := hn.2 (Or.inl rfl)
  obtain ⟨m, rfl⟩ : ∃ m, n = m + 1 := ⟨n - 1, by omega⟩
  have hm : 0 < m := by omega
  have hnod := lobatto_nodal_hermite hm x hn hx
  obtain ⟨x', a, b, hx', hs, -⟩ := getNodes_ortho (nt := "LEGENDRE") (qt := "LOBATTO") (by decide) (by decide) hn
  rw [hx'] at hx
  cases hx
  have hinj := hs.injective
  rw [← hermite_one hinj t (by omega)]
  refine Finset.sum_le_sum fun k _ => ?_
  have hroot : (Lagrange.nodal Finset.univ x).eval (x k) = 0 := (eval_nodal_eq_zero_iff _ _).2 ⟨k, rfl⟩
  have hm' : (0:ℝ) < m := by exact_mod_cast hm
  have hne : (derivative (Lagrange.nodal Finset.univ x)).eval (x k) ≠ 0 := by
    rw [Lagrange.eval_nodal_derivative_eval_node_eq (Finset.mem_univ k)]
    rw [Lagrange.eval_nodal]
    exact Finset.prod_ne_zero_iff.2 fun i hi => sub_ne_zero.2 fun h => (Finset.mem_erase.1 hi).1 (hinj h).symm
  have hself := basis_deriv_self hinj k
  -- first and second derivative of the node polynomial
  have hode := legPoly_ode m
  rw [← hnod] at hode
  have d1 : derivative (Lagrange.nodal Finset.univ x) = C ((m:ℝ) + 1) * legPoly m := by
    refine Polynomial.funext fun s => ?_
    have := congrArg (eval s) hode
    simp only [derivative_mul, derivative_C, zero_mul, zero_add, eval_mul, eval_C] at this ⊢
    have : (m:ℝ) * ((derivative (Lagrange.nodal Finset.univ x)).eval s - ((m:ℝ) + 1) * (legPoly m).eval s) = 0 := by linear_combination this
    have := (mul_eq_zero.1 this).resolve_left hm'.ne'
    linarith
  have d2 : derivative (derivative (Lagrange.nodal Finset.univ x)) = C ((m:ℝ) + 1) * derivative (legPoly m) := by
    rw [d1, derivative_mul, derivative_C, zero_mul, zero_add]
  rw [d2, d1] at hself
  rw [d1] at hne
  simp only [eval_mul, eval_C] at hself hne
  have hL : (legPoly m).eval (x k) ≠ 0 := right_ne_zero_of_mul hne
  have hself' : 2 * (derivative (Lagrange.basis Finset.univ x k)).eval (x k) * (legPoly m).eval (x k) =
      (derivative (legPoly m)).eval (x k) := by
    have : ((m:ℝ) + 1) * (2 * (derivative (Lagrange.basis Finset.univ x k)).eval (x k) * (legPoly m).eval (x k) -
      (derivative (legPoly m)).eval (x k)) = 0 := by linear_combination hself
    have := (mul_eq_zero.1 this).resolve_left (by positivity)
    linarith
  have hr := congrArg (eval (x k)) hnod
  simp only [eval_mul, eval_C, hroot, mul_zero, eval_sub, eval_pow, eval_X, eval_one] at hr
  have ho := congrArg (eval (x k)) (legPoly_ode m)
  simp only [derivative_mul, derivative_sub, derivative_one, derivative_pow, derivative_X, eval_add, eval_mul, eval_sub,
    eval_pow, eval_X, eval_one, eval_C, sub_zero, mul_one, Nat.cast_ofNat, eval_ofNat, map_ofNat, Nat.add_one_sub_one, pow_one] at ho
  set D := (derivative (Lagrange.basis Finset.univ x k)).eval (x k)
  set L := (legPoly m).eval (x k)
  set L' := (derivative (legPoly m)).eval (x k)
  suffices h : (t - x k) * D ≤ 0 by nlinarith [sq_nonneg ((Lagrange.basis Finset.univ x k).eval t)]
  obtain ⟨t1, t2⟩ := abs_le.1 ht
  rcases mul_eq_zero.1 hr.symm with h | h
  · -- at the ends
    rw [h, zero_mul, add_zero] at ho
    have hD : 4 * x k * D = (m:ℝ) * (m + 1) := by
      have : (4 * x k * D - (m:ℝ) * (m + 1)) * L = 0 := by linear_combination 2 * x k * hself' + ho
      have := (mul_eq_zero.1 this).resolve_right hL
      linarith
    have hM : 0 ≤ (m:ℝ) * (m + 1) := by positivity
    rcases eq_or_eq_of_sq (x k) h with h | h <;> rw [h] at hD ⊢ <;> nlinarith
  · have hD : D = 0 := by
      rw [h] at hself'
      rcases mul_eq_zero.1 hself' with h | h
      · linarith
      · exact absurd h hL
    rw [hD, mul_zero]

end QMat
