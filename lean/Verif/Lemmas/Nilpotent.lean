import Verif.Spec.Poly
import Mathlib.LinearAlgebra.Matrix.Charpoly.Coeff
import Mathlib.LinearAlgebra.Matrix.Charpoly.LinearMap
import Mathlib.LinearAlgebra.Matrix.Block
import Mathlib.LinearAlgebra.Vandermonde
import Mathlib.Algebra.Polynomial.Reverse
import Mathlib.Tactic.LinearCombination
import Mathlib.Tactic.FieldSimp

/-!
# Nilpotent iteration matrices
-/

namespace QMat

open Matrix Polynomial Spec

/-- A matrix whose characteristic polynomial is `X^n` is nilpotent of index at most `n`. -/
theorem pow_eq_zero_of_charpoly {n : ℕ} {N : Matrix (Fin n) (Fin n) ℝ} (h : N.charpoly = X ^ n) :
    N ^ n = 0 := by
  have := Matrix.aeval_self_charpoly N
  rw [h] at this
  simpa using this

/-- A strictly upper triangular matrix is nilpotent. -/
theorem pow_eq_zero_of_strictUpper {n : ℕ} {N : Matrix (Fin n) (Fin n) ℝ}
    (h : ∀ i j, j ≤ i → N i j = 0) : N ^ n = 0 := by
  refine pow_eq_zero_of_charpoly ?_
  rw [Matrix.charpoly_of_isUpperTriangular N (fun i j hij => h i j hij.le)]
  simp [h _ _ le_rfl]

/-- If `det (1 - z N) = 1` for `n` distinct non-zero values of `z`, then `N^n = 0`. -/
theorem pow_eq_zero_of_det {n : ℕ} {N : Matrix (Fin n) (Fin n) ℝ} (z : Fin n → ℝ)
    (hz : Function.Injective z) (hz0 : ∀ i, z i ≠ 0) (h : ∀ i, (1 - z i • N).det = 1) :
    N ^ n = 0 := by
  have hev : ∀ t : ℝ, N.charpolyRev.eval t = (1 - t • N).det := by
    intro t
    rw [Matrix.charpolyRev, ← coe_evalRingHom, RingHom.map_det]
    congr 1
    ext i j
    by_cases hij : i = j
    · subst hij
      simp; ring
    · simp [Matrix.one_apply_ne hij]; ring
  have hnd : N.charpoly.natDegree = n := by
    rw [Matrix.charpoly_natDegree_eq_dim, Fintype.card_fin]
  have hdeg : N.charpolyRev.natDegree ≤ n := by
    rw [← Matrix.reverse_charpoly]
    exact (Polynomial.reverse_natDegree_le _).trans hnd.le
  have hone : N.charpolyRev = 1 := by
    refine Polynomial.eq_of_natDegree_lt_card_of_eval_eq _ _ (f := (Fin.cons 0 z : Fin (n + 1) → ℝ))
      ?_ ?_ ?_
    · exact Fin.cons_injective_iff.mpr ⟨fun ⟨i, hi⟩ => hz0 i hi, hz⟩
    · intro i
      refine Fin.cases ?_ (fun i => ?_) i
      · simp
      · simp [hev, h]
    · simp
      omega
  refine pow_eq_zero_of_charpoly ?_
  have hrev : N.charpoly.reverse = 1 := by rw [Matrix.reverse_charpoly, hone]
  ext k
  rw [Polynomial.coeff_X_pow]
  rcases lt_trichotomy k n with hk | hk | hk
  · have := congrArg (fun p => p.coeff (n - k)) hrev
    simp only [Polynomial.coeff_reverse, hnd] at this
    rw [Polynomial.revAt_le (by omega), Polynomial.coeff_one, if_neg (by omega)] at this
    rw [if_neg (by omega)]
    rwa [show n - (n - k) = k by omega] at this
  · have := Matrix.charpoly_monic N
    rw [if_pos hk, hk]
    rw [Polynomial.Monic, Polynomial.leadingCoeff, hnd] at this
    exact this
  · rw [if_neg (by omega)]
    exact Polynomial.coeff_eq_zero_of_natDegree_lt (by omega)

/-- A matrix killing the values of all monomials of degree `< n` on `n` distinct points vanishes. -/
theorem eq_zero_of_monomials {n r : ℕ} {x : Fin n → ℝ} (hx : Function.Injective x)
    {A : Matrix (Fin r) (Fin n) ℝ} (h : ∀ k < n, (A *ᵥ fun i => x i ^ k) = 0) : A = 0 := by
  have hV : A * vandermonde x = 0 := by
    ext i j
    have := congrFun (h j j.isLt) i
    exact this
  have hdet : IsUnit (vandermonde x).det :=
    isUnit_iff_ne_zero.mpr (det_vandermonde_ne_zero_iff.mpr hx)
  calc A = A * (vandermonde x * (vandermonde x)⁻¹) := by rw [Matrix.mul_nonsing_inv _ hdet, Matrix.mul_one]
    _ = 0 := by rw [← Matrix.mul_assoc, hV, Matrix.zero_mul]

/-- Every vector is a combination of the monomials of degree `< n` on `n` distinct points. -/
theorem exists_monomial_coeffs {n : ℕ} {x : Fin n → ℝ} (hx : Function.Injective x) (e : Fin n → ℝ) :
    ∃ a : Fin n → ℝ, ∀ i, e i = ∑ j, a j * x i ^ (j : ℕ) := by
  have hdet : IsUnit (vandermonde x).det :=
    isUnit_iff_ne_zero.mpr (det_vandermonde_ne_zero_iff.mpr hx)
  refine ⟨(vandermonde x)⁻¹ *ᵥ e, fun i => ?_⟩
  have : vandermonde x *ᵥ ((vandermonde x)⁻¹ *ᵥ e) = e := by
    rw [Matrix.mulVec_mulVec, Matrix.mul_nonsing_inv _ hdet, Matrix.one_mulVec]
  conv_lhs => rw [← this]
  change ∑ j, vandermonde x i j * _ = _
  refine Finset.sum_congr rfl fun j _ => ?_
  rw [vandermonde_apply, mul_comm]

/-- What the nilpotency results need of `Q`: on the nodes `x` it integrates, from `0`, the monomials
of degree `< n`. -/
def IntegratesMonomials {n : ℕ} (x : Fin n → ℝ) (Q : Matrix (Fin n) (Fin n) ℝ) : Prop :=
  ∀ k < n, ∀ i, (Q *ᵥ fun j => x j ^ k) i = x i ^ (k + 1) / (k + 1)

theorem integratesMonomials_of_exact {n : ℕ} {x : Fin n → ℝ} {Q : Matrix (Fin n) (Fin n) ℝ}
    (h : ∀ p : ℝ[X], p.degree < n → ∀ i, (Q *ᵥ vals p x) i = polyInt p 0 (x i)) :
    IntegratesMonomials x Q := by
  intro k hk i
  have h1 := h (X ^ k) (by rw [Polynomial.degree_X_pow]; exact_mod_cast hk) i
  have h2 : vals (X ^ k : ℝ[X]) x = fun j => x j ^ k := by ext j; simp [vals]
  rw [h2] at h1
  rw [h1]
  unfold polyInt
  simp

/-- `(Q - diag(x)/n)^n = 0`. -/
theorem minsrns_nilpotent {n : ℕ} {x : Fin n → ℝ} {Q : Matrix (Fin n) (Fin n) ℝ}
    (hx : Function.Injective x) (hQ : IntegratesMonomials x Q) :
    (Q - Matrix.of fun r c => Matrix.diagonal x r c / n) ^ n = 0 := by
  set N := Q - Matrix.of fun r c => Matrix.diagonal x r c / n with hN
  have hstep : ∀ k < n, (N *ᵥ fun j => x j ^ k) =
      (1 / ((k : ℝ) + 1) - 1 / n) • fun j => x j ^ (k + 1) := by
    intro k hk
    have hd : ((Matrix.of fun r c => Matrix.diagonal x r c / n : Matrix (Fin n) (Fin n) ℝ)
        *ᵥ fun j => x j ^ k) = fun i => x i ^ (k + 1) / n := by
      ext i
      change ∑ j, Matrix.diagonal x i j / n * x j ^ k = _
      rw [Finset.sum_eq_single i (fun j _ hj => by rw [Matrix.diagonal_apply_ne' _ hj]; ring)
        (by simp), Matrix.diagonal_apply_eq]
      ring
    rw [hN, Matrix.sub_mulVec, hd]
    ext i
    rw [Pi.sub_apply, hQ k hk i]
    simp only [Pi.smul_apply, smul_eq_mul]
    ring
  have key : ∀ j k, k < n → n ≤ k + j → (N ^ j *ᵥ fun i => x i ^ k) = 0 := by
    intro j
    induction j with
    | zero => intro k hk h; omega
    | succ j ih =>
      intro k hk h
      rw [pow_succ, ← Matrix.mulVec_mulVec, hstep k hk, Matrix.mulVec_smul]
      by_cases hk' : k + 1 < n
      · rw [ih (k + 1) hk' (by omega), smul_zero]
      · have : n = k + 1 := by omega
        have h0 : (1 / ((k : ℝ) + 1) - 1 / n) = 0 := by
          rw [this]
          push_cast
          ring
        rw [h0, zero_smul]
  exact eq_zero_of_monomials hx fun k hk => key n k hk (by omega)

/-- Stiff-limit sweeps with `diag(x)/k`, `k = 1..n`, annihilate every error vector; entries on a zero
node are zero. -/
theorem flex_annihilates {n : ℕ} {x : Fin n → ℝ} {Q : Matrix (Fin n) (Fin n) ℝ}
    (hx : Function.Injective x) (hQ : IntegratesMonomials x Q) (e : ℕ → Fin n → ℝ)
    (h0 : ∀ k i, x i = 0 → e k i = 0)
    (hrec : ∀ k < n, ∀ i, x i / (k + 1 : ℕ) * e (k + 1) i = x i / (k + 1 : ℕ) * e k i - (Q *ᵥ e k) i) :
    e n = 0 := by
  obtain ⟨a, ha⟩ := exists_monomial_coeffs hx (e 0)
  have key : ∀ k ≤ n, ∀ i, e k i =
      ∑ j : Fin n, a j * (∏ l ∈ Finset.range k, (1 - ((l : ℝ) + 1) / ((j : ℕ) + 1))) * x i ^ (j : ℕ) := by
    intro k
    induction k with
    | zero => intro _ i; simpa using ha i
    | succ k ih =>
      intro hk i
      have ihk := ih (by omega)
      by_cases hi : x i = 0
      · rw [h0 _ i hi]
        -- only the constant term is left, and it vanishes
        have hn : 0 < n := i.pos
        have hz : a ⟨0, hn⟩ = 0 := by
          have := ha i
          rw [h0 0 i hi, hi, Finset.sum_eq_single ⟨0, hn⟩] at this
          · simpa using this.symm
          · intro j _ hj
            have : (j : ℕ) ≠ 0 := fun hh => hj (Fin.ext hh)
            simp [this]
          · simp
        rw [hi]
        symm
        refine Finset.sum_eq_zero fun j _ => ?_
        by_cases hj : (j : ℕ) = 0
        · have : j = ⟨0, hn⟩ := Fin.ext hj
          rw [this, hz]
          ring
        · simp [hj]
      · have hr := hrec k (by omega) i
        have hQe : (Q *ᵥ e k) i = ∑ j : Fin n, a j *
            (∏ l ∈ Finset.range k, (1 - ((l : ℝ) + 1) / ((j : ℕ) + 1))) *
              (x i ^ ((j : ℕ) + 1) / ((j : ℕ) + 1)) := by
          have : e k = ∑ j : Fin n, (a j *
              (∏ l ∈ Finset.range k, (1 - ((l : ℝ) + 1) / ((j : ℕ) + 1)))) •
              fun i => x i ^ (j : ℕ) := by
            ext i
            rw [ihk i, Finset.sum_apply]
            simp
          rw [this, Matrix.mulVec_sum, Finset.sum_apply]
          refine Finset.sum_congr rfl fun j _ => ?_
          rw [Matrix.mulVec_smul, Pi.smul_apply, hQ j j.isLt i, smul_eq_mul]
        rw [hQe] at hr
        have hk0 : ((k + 1 : ℕ) : ℝ) ≠ 0 := by positivity
        have hr' : e (k + 1) i = e k i - (((k + 1 : ℕ) : ℝ) / x i) * ∑ j : Fin n, a j *
            (∏ l ∈ Finset.range k, (1 - ((l : ℝ) + 1) / ((j : ℕ) + 1))) *
              (x i ^ ((j : ℕ) + 1) / ((j : ℕ) + 1)) := by
          generalize (∑ j : Fin n, a j *
            (∏ l ∈ Finset.range k, (1 - ((l : ℝ) + 1) / ((j : ℕ) + 1))) *
              (x i ^ ((j : ℕ) + 1) / ((j : ℕ) + 1))) = s at hr ⊢
          field_simp at hr ⊢
          linear_combination hr
        rw [hr', ihk i, Finset.mul_sum, ← Finset.sum_sub_distrib]
        refine Finset.sum_congr rfl fun j _ => ?_
        rw [Finset.prod_range_succ]
        have : ((j : ℕ) : ℝ) + 1 ≠ 0 := by positivity
        push_cast
        field_simp
        ring
  ext i
  rw [key n le_rfl i]
  simp only [Pi.zero_apply]
  refine Finset.sum_eq_zero fun j _ => ?_
  have : ∏ l ∈ Finset.range n, (1 - ((l : ℝ) + 1) / ((j : ℕ) + 1)) = 0 := by
    refine Finset.prod_eq_zero (Finset.mem_range.mpr j.isLt) ?_
    have : ((j : ℕ) : ℝ) + 1 ≠ 0 := by positivity
    field_simp
    ring
  rw [this]
  ring

end QMat
