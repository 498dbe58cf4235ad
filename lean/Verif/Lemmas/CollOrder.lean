import Verif.Lemmas.PolyFunctional
import Verif.Spec.Stability
import Verif.Spec.Poly
import Mathlib.LinearAlgebra.Lagrange

/-!
# Linear order conditions of collocation tableaux
-/

namespace QMat

open Polynomial Spec Matrix

/-- Antiderivative vanishing at `a`. -/
theorem exists_antideriv {M : ℕ} (F : ℝ[X]) (hF : F.degree < M) (a : ℝ) :
    ∃ G : ℝ[X], derivative G = F ∧ G.degree < (M + 1 : ℕ) ∧ ∀ t, polyInt F a t = G.eval t := by
  by_cases hM : M = 0
  · subst hM
    have : F = 0 := by
      rw [← degree_eq_bot]
      by_contra h
      rw [degree_eq_natDegree (by intro h0; exact h (by simp [h0]))] at hF
      exact absurd hF (by simp)
    subst this
    exact ⟨0, by simp, by simp, fun t => by simp [polyInt]⟩
  have hn : F.natDegree < M := by
    by_cases h0 : F = 0
    · subst h0; simp; omega
    · exact (natDegree_lt_iff_degree_lt h0).mpr hF
  set H : ℝ[X] := ∑ n ∈ Finset.range M, C (F.coeff n / (n + 1)) * X ^ (n + 1) with hH
  have hd : derivative H = F := by
    conv_rhs => rw [F.as_sum_range' M hn]
    rw [hH, derivative_sum]
    refine Finset.sum_congr rfl fun n _ => ?_
    rw [derivative_C_mul_X_pow, ← C_mul_X_pow_eq_monomial]
    congr 2
    push_cast
    field_simp
  refine ⟨H - C (H.eval a), by simp [hd], ?_, fun t => ?_⟩
  · refine lt_of_le_of_lt (degree_sub_le _ _) (max_lt ?_ ?_)
    · refine lt_of_le_of_lt (degree_sum_le _ _) ((Finset.sup_lt_iff (by exact WithBot.bot_lt_coe _)).mpr ?_)
      intro n hn
      refine lt_of_le_of_lt (degree_C_mul_X_pow_le _ _) ?_
      have := Finset.mem_range.mp hn
      exact_mod_cast (by omega : n + 1 < M + 1)
    · exact lt_of_le_of_lt degree_C_le (by exact_mod_cast Nat.succ_pos M)
  · rw [← hd, polyInt_derivative]; simp

theorem degree_mul_lt {p q : ℝ[X]} {m n : ℕ} (hp : p.degree ≤ m) (hq : q.degree < n) :
    (p * q).degree < (m + n : ℕ) := by
  by_cases h0 : q = 0
  · subst h0; simp
  have hq' : q.natDegree < n := (natDegree_lt_iff_degree_lt h0).mpr hq
  have hp' : p.natDegree ≤ m := natDegree_le_iff_degree_le.mpr hp
  refine lt_of_le_of_lt degree_le_natDegree ?_
  have := natDegree_mul_le (p := p) (q := q)
  exact_mod_cast (by omega : (p * q).natDegree < m + n)

section

variable {M p : ℕ} {c b : Fin M → ℝ} {A : Matrix (Fin M) (Fin M) ℝ}

/-- The simplifying assumption `D`: moving `A` to the left of a weighted sum. -/
theorem coll_adjoint (hc : Function.Injective c)
    (hA : ∀ f : ℝ[X], f.degree < M → ∀ i, (A *ᵥ vals f c) i = polyInt f 0 (c i))
    (hb : ∀ f : ℝ[X], f.degree < p → ∑ i, b i * f.eval (c i) = polyInt f 0 1)
    (s S : ℝ[X]) (d : ℕ) (hs : s.degree ≤ d) (hdp : d + M < p) (hS : derivative S = -s)
    (hSd : S.degree ≤ (d + 1 : ℕ)) (hS1 : S.eval 1 = 0) (f : Fin M → ℝ) :
    ∑ i, b i * s.eval (c i) * (A *ᵥ f) i = ∑ i, b i * S.eval (c i) * f i := by
  set F := Lagrange.interpolate Finset.univ c f with hF
  have hFd : F.degree < M := by
    have := Lagrange.degree_interpolate_lt (s := Finset.univ) f (v := c) hc.injOn
    rw [Finset.card_univ, Fintype.card_fin] at this
    exact this
  have hFv : ∀ i, F.eval (c i) = f i := fun i =>
    Lagrange.eval_interpolate_at_node f hc.injOn (Finset.mem_univ i)
  have hfv : f = vals F c := by funext i; exact (hFv i).symm
  obtain ⟨G, hG, hGd, hGi⟩ := exists_antideriv F hFd 0
  have h1 : ∑ i, b i * s.eval (c i) * (A *ᵥ f) i = polyInt (s * G) 0 1 := by
    rw [← hb _ (lt_of_lt_of_le (degree_mul_lt hs hGd) (by exact_mod_cast (by omega : d + (M + 1) ≤ p)))]
    refine Finset.sum_congr rfl fun i _ => ?_
    rw [hfv, hA F hFd, hGi, eval_mul]; ring
  have h2 : ∑ i, b i * S.eval (c i) * f i = polyInt (S * F) 0 1 := by
    rw [← hb _ (lt_of_lt_of_le (degree_mul_lt hSd hFd) (by exact_mod_cast (by omega : d + 1 + M ≤ p)))]
    refine Finset.sum_congr rfl fun i _ => ?_
    rw [eval_mul, hFv]; ring
  rw [h1, h2]
  have h3 := polyInt_derivative (S * G) 0 1
  have hG0 : G.eval 0 = 0 := by rw [← hGi]; simp [polyInt]
  rw [derivative_mul, hS, hG, polyInt_add, eval_mul, eval_mul, hS1, hG0] at h3
  have h4 : polyInt (-s * G) 0 1 = -polyInt (s * G) 0 1 := by
    simp [polyInt]
  rw [h4] at h3
  linarith

/-- `(1-t)^l/l!`. -/
noncomputable def sPoly (l : ℕ) : ℝ[X] := C (1 / (l.factorial : ℝ)) * (1 - X) ^ l

theorem sPoly_degree (l : ℕ) : (sPoly l).degree ≤ l := by
  unfold sPoly
  rw [← smul_eq_C_mul]
  refine (degree_smul_le _ _).trans ?_
  refine (degree_pow_le _ _).trans ?_
  have : (1 - X : ℝ[X]).degree ≤ 1 := by
    refine (degree_sub_le _ _).trans ?_
    simp [degree_one, degree_X]
  calc l • (1 - X : ℝ[X]).degree ≤ l • (1 : WithBot ℕ) := nsmul_le_nsmul_right this l
    _ = l := by simp

theorem sPoly_derivative (l : ℕ) : derivative (sPoly (l + 1)) = -sPoly l := by
  unfold sPoly
  rw [derivative_C_mul, derivative_pow]
  refine Polynomial.funext fun t => ?_
  simp only [Nat.factorial_succ, Nat.cast_mul, Nat.cast_add, Nat.cast_one, eval_mul, eval_C,
    derivative_sub, derivative_one, derivative_X, eval_one, eval_sub,
    eval_zero, eval_neg, eval_pow, eval_X, Nat.add_sub_cancel]
  have : ((l:ℝ) + 1) ≠ 0 := by positivity
  have : (l.factorial : ℝ) ≠ 0 := by positivity
  field_simp
  ring

theorem sPoly_moment (l m : ℕ) :
    polyInt (sPoly l * (C (1 / (m.factorial : ℝ)) * X ^ m)) 0 1 = 1 / ((l + m + 1).factorial : ℝ) := by
  induction l generalizing m with
  | zero =>
    have : sPoly 0 * (C (1 / (m.factorial : ℝ)) * X ^ m) = C (1 / (m.factorial : ℝ)) * X ^ m := by
      simp [sPoly]
    rw [this, polyInt_C_mul, polyInt_X_pow, zero_add, Nat.factorial_succ]
    have : (m.factorial : ℝ) ≠ 0 := by positivity
    have : ((m:ℝ) + 1) ≠ 0 := by positivity
    push_cast
    field_simp
    simp
  | succ l ih =>
    have h := polyInt_derivative (sPoly (l + 1) * (C (1 / ((m + 1).factorial : ℝ)) * X ^ (m + 1))) 0 1
    have hd : derivative (C (1 / ((m + 1).factorial : ℝ)) * X ^ (m + 1) : ℝ[X]) =
        C (1 / (m.factorial : ℝ)) * X ^ m := by
      rw [derivative_C_mul_X_pow]
      congr 2
      rw [Nat.factorial_succ]
      have : (m.factorial : ℝ) ≠ 0 := by positivity
      have : ((m:ℝ) + 1) ≠ 0 := by positivity
      push_cast
      field_simp
    rw [derivative_mul, sPoly_derivative, hd, polyInt_add] at h
    have h0 : (sPoly (l + 1) * (C (1 / ((m + 1).factorial : ℝ)) * X ^ (m + 1))).eval 1 -
        (sPoly (l + 1) * (C (1 / ((m + 1).factorial : ℝ)) * X ^ (m + 1))).eval 0 = 0 := by
      simp [sPoly]
    rw [h0] at h
    have h4 : ∀ q : ℝ[X], polyInt (-sPoly l * q) 0 1 = -polyInt (sPoly l * q) 0 1 := fun q => by
      simp [polyInt]
    rw [h4, ih (m + 1)] at h
    have : l + (m + 1) + 1 = l + 1 + m + 1 := by omega
    rw [this] at h
    linarith

/-- `A^m 1 = c^m/m!` for `m ≤ M`. -/
theorem coll_pow_one (hA : ∀ f : ℝ[X], f.degree < M → ∀ i, (A *ᵥ vals f c) i = polyInt f 0 (c i)) :
    ∀ m ≤ M, ((A ^ m) *ᵥ fun _ => (1:ℝ)) = vals (C (1 / (m.factorial : ℝ)) * X ^ m) c := by
  intro m
  induction m with
  | zero => intro _; funext i; simp [vals]
  | succ m ih =>
    intro hm
    rw [pow_succ', ← Matrix.mulVec_mulVec, ih (by omega)]
    funext i
    rw [hA _ (lt_of_le_of_lt (degree_C_mul_X_pow_le _ _) (by exact_mod_cast (by omega : m < M))),
      polyInt_C_mul, polyInt_X_pow]
    simp only [vals, eval_mul, eval_C, eval_pow, eval_X, Nat.factorial_succ]
    have : (m.factorial : ℝ) ≠ 0 := by positivity
    have : ((m:ℝ) + 1) ≠ 0 := by positivity
    push_cast
    field_simp
    simp

/-- `bᵀ A^l = bᵀ s_l(c)` for `l + M ≤ p`. -/
theorem coll_adjoint_pow (hc : Function.Injective c)
    (hA : ∀ f : ℝ[X], f.degree < M → ∀ i, (A *ᵥ vals f c) i = polyInt f 0 (c i))
    (hb : ∀ f : ℝ[X], f.degree < p → ∑ i, b i * f.eval (c i) = polyInt f 0 1) :
    ∀ l, l + M ≤ p → ∀ f : Fin M → ℝ, b ⬝ᵥ ((A ^ l) *ᵥ f) =
      ∑ i, b i * (sPoly l).eval (c i) * f i := by
  intro l
  induction l with
  | zero =>
    intro _ f
    simp [sPoly, dotProduct]
  | succ l ih =>
    intro hl f
    rw [pow_succ, ← Matrix.mulVec_mulVec, ih (by omega)]
    exact coll_adjoint hc hA hb (sPoly l) (sPoly (l + 1)) l (sPoly_degree l) (by omega)
      (sPoly_derivative l) (sPoly_degree (l + 1)) (by simp [sPoly]) f

/-- A collocation tableau on `[0, 1]` whose weights have quadrature order `p` satisfies the linear
order conditions up to `p`. -/
theorem collocation_linearOrder (hc : Function.Injective c)
    (hA : ∀ f : ℝ[X], f.degree < M → ∀ i, (A *ᵥ vals f c) i = polyInt f 0 (c i))
    (hb : ∀ f : ℝ[X], f.degree < p → ∑ i, b i * f.eval (c i) = polyInt f 0 1) :
    LinearOrder A b p := by
  have hpow := coll_pow_one hA
  have hadj := coll_adjoint_pow hc hA hb
  intro k hk
  obtain ⟨l, m, rfl, hm, hl⟩ : ∃ l m, k = l + m ∧ m ≤ M ∧ (l = 0 ∨ l + M ≤ p) := by
    by_cases hkM : k ≤ M
    · exact ⟨0, k, by omega, hkM, Or.inl rfl⟩
    · exact ⟨k - M, M, by omega, le_refl _, Or.inr (by omega)⟩
  rw [pow_add, ← Matrix.mulVec_mulVec, hpow m hm]
  have h1 : b ⬝ᵥ ((A ^ l) *ᵥ vals (C (1 / (m.factorial : ℝ)) * X ^ m) c) =
      ∑ i, b i * (sPoly l).eval (c i) * vals (C (1 / (m.factorial : ℝ)) * X ^ m) c i := by
    rcases hl with rfl | hl
    · simp [sPoly, dotProduct]
    · exact hadj l hl _
  rw [h1, ← sPoly_moment l m, ← hb]
  · refine Finset.sum_congr rfl fun i _ => ?_
    rw [eval_mul, vals]; ring
  · refine lt_of_lt_of_le (degree_mul_lt (sPoly_degree l) (n := m + 1)
      (lt_of_le_of_lt (degree_C_mul_X_pow_le _ _) (by exact_mod_cast Nat.lt_succ_self m))) ?_
    exact_mod_cast (by omega : l + (m + 1) ≤ p)

theorem sPoly_natDegree (l : ℕ) : (sPoly l).natDegree = l ∧ (sPoly l).leadingCoeff ≠ 0 := by
  have h1 : (1 - X : ℝ[X]) = -(X - C 1) := by simp
  have h2 : (sPoly l).natDegree = l := by
    unfold sPoly
    rw [natDegree_C_mul (by positivity), h1, natDegree_pow, natDegree_neg, natDegree_X_sub_C, mul_one]
  refine ⟨h2, ?_⟩
  rw [Ne, leadingCoeff_eq_zero]
  intro h0
  have := congrArg (eval 0) h0
  simp [sPoly] at this
  exact l.factorial_ne_zero this

/-- The converse: the linear order conditions up to `p` give the quadrature order `p`. -/
theorem collocation_quad_of_linearOrder (hc : Function.Injective c)
    (hA : ∀ f : ℝ[X], f.degree < M → ∀ i, (A *ᵥ vals f c) i = polyInt f 0 (c i))
    (hb : ∀ f : ℝ[X], f.degree < M → ∑ i, b i * f.eval (c i) = polyInt f 0 1)
    (h : LinearOrder A b p) :
    ∀ f : ℝ[X], f.degree < p → ∑ i, b i * f.eval (c i) = polyInt f 0 1 := by
  induction p with
  | zero =>
    intro f hf
    have : f = 0 := by
      by_contra h0
      rw [degree_eq_natDegree h0] at hf
      exact absurd hf (by simp)
    subst this
    simp [polyInt]
  | succ q ih =>
    by_cases hq : q < M
    · intro f hf
      exact hb f (lt_of_lt_of_le hf (by exact_mod_cast hq))
    have ih := ih fun k hk => h k (by omega)
    obtain ⟨l, rfl⟩ : ∃ l, q = l + M := ⟨q - M, by omega⟩
    -- the polynomial tested by the new condition
    set P : ℝ[X] := sPoly l * (C (1 / (M.factorial : ℝ)) * X ^ M) with hP
    have hPex : ∑ i, b i * P.eval (c i) = polyInt P 0 1 := by
      have h1 := h (l + M) (by omega)
      rw [pow_add, ← Matrix.mulVec_mulVec, coll_pow_one hA M le_rfl,
        coll_adjoint_pow hc hA ih l le_rfl, ← sPoly_moment l M] at h1
      rw [← h1]
      refine Finset.sum_congr rfl fun i _ => ?_
      rw [hP, eval_mul, vals]; ring
    obtain ⟨hd, hl0⟩ := sPoly_natDegree l
    have hM0 : (1 / (M.factorial : ℝ)) ≠ 0 := by positivity
    have hPd : P.natDegree = l + M := by
      rw [hP, natDegree_mul (by rw [← leadingCoeff_ne_zero]; exact hl0)
        (mul_ne_zero (by simpa using hM0) (pow_ne_zero _ X_ne_zero)), hd, natDegree_C_mul_X_pow _ _ hM0]
    have hPc : P.coeff (l + M) ≠ 0 := by
      rw [← hPd]
      change P.leadingCoeff ≠ 0
      rw [hP, leadingCoeff_mul]
      refine mul_ne_zero hl0 ?_
      rw [leadingCoeff_C_mul_X_pow]
      exact hM0
    intro f hf
    set r := f - C (f.coeff (l + M) / P.coeff (l + M)) * P with hr
    have hrd : r.degree < (l + M : ℕ) := by
      rw [degree_lt_iff_coeff_zero]
      intro m hm
      rcases Nat.eq_or_lt_of_le hm with rfl | hm
      · rw [hr, coeff_sub, coeff_C_mul]
        field_simp
        ring
      · rw [hr, coeff_sub, coeff_C_mul, coeff_eq_zero_of_degree_lt (lt_of_lt_of_le hf (by exact_mod_cast hm)),
          coeff_eq_zero_of_natDegree_lt (p := P) (n := m) (by omega)]
        simp
    have e : f = r + C (f.coeff (l + M) / P.coeff (l + M)) * P := by rw [hr]; ring
    rw [e, polyInt_add, polyInt_C_mul, ← ih r hrd, ← hPex, Finset.mul_sum, ← Finset.sum_add_distrib]
    refine Finset.sum_congr rfl fun i _ => ?_
    simp only [eval_add, eval_mul, eval_C]
    ring

end

end QMat
