import Verif.Spec.Poly
import Mathlib.Algebra.Polynomial.Derivative
import Mathlib.Algebra.Polynomial.Eval.SMul
import Mathlib.Topology.Algebra.Polynomial
import Mathlib.Algebra.Polynomial.Degree.Lemmas
import Mathlib.Analysis.Calculus.Deriv.Polynomial
import Mathlib.MeasureTheory.Integral.IntervalIntegral.FundThmCalculus

/-!
# Lemmas on linear functionals of polynomials and on integrals of polynomials
-/

namespace QMat

open Polynomial

/-- Two linear functionals agreeing on a sequence of polynomials of degrees `0, 1, ..., n-1` agree
on all polynomials of degree `< n`. -/
theorem linear_ext_of_degrees {V : Type*} [AddCommGroup V] [Module ℝ V] (P : ℕ → ℝ[X])
    (φ ψ : ℝ[X] →ₗ[ℝ] V) (n : ℕ) (hP : ∀ k < n, (P k).degree = k)
    (h : ∀ k < n, φ (P k) = ψ (P k)) :
    ∀ p : ℝ[X], p.degree < n → φ p = ψ p := by
  induction n with
  | zero =>
    intro p hp
    have : p = 0 := degree_eq_bot.mp (by
      rcases h : p.degree with _ | d
      · rfl
      · rw [h] at hp
        exact absurd hp (by simp [WithBot.some_eq_coe]))
    simp [this]
  | succ n ih =>
    intro p hp
    have ih := ih (fun k hk => hP k (by omega)) (fun k hk => h k (by omega))
    have hPn := hP n (by omega)
    have hlc : (P n).coeff n ≠ 0 := by
      have : (P n).natDegree = n := natDegree_eq_of_degree_eq_some hPn
      have h0 : P n ≠ 0 := fun h0 => by simp [h0] at hPn
      have h1 := leadingCoeff_ne_zero.mpr h0
      rwa [leadingCoeff, this] at h1
    set c := p.coeff n / (P n).coeff n with hc
    have hq : (p - c • P n).degree < n := by
      rw [degree_lt_iff_coeff_zero]
      intro k hk
      rcases Nat.lt_or_ge n k with hk' | hk'
      · rw [coeff_sub, coeff_smul, smul_eq_mul, coeff_eq_zero_of_degree_lt (lt_of_lt_of_le hp (by exact_mod_cast hk')),
          coeff_eq_zero_of_degree_lt (by rw [hPn]; exact_mod_cast hk')]
        simp
      · have : k = n := le_antisymm hk' hk
        subst this
        rw [coeff_sub, coeff_smul, smul_eq_mul, hc]
        field_simp
        simp
    have := ih _ hq
    rw [map_sub, map_sub, map_smul, map_smul, h n (by omega)] at this
    exact sub_left_injective this

/-- The integral as a linear functional. -/
noncomputable def intL (a b : ℝ) : ℝ[X] →ₗ[ℝ] ℝ where
  toFun p := Spec.polyInt p a b
  map_add' p q := by
    unfold Spec.polyInt
    simp only [eval_add]
    exact intervalIntegral.integral_add (p.continuous.intervalIntegrable _ _)
      (q.continuous.intervalIntegrable _ _)
  map_smul' c p := by
    unfold Spec.polyInt
    simp only [eval_smul, smul_eq_mul, RingHom.id_apply]
    exact intervalIntegral.integral_const_mul _ _

@[simp] theorem intL_apply (a b : ℝ) (p : ℝ[X]) : intL a b p = Spec.polyInt p a b := rfl

/-- A quadrature rule as a linear functional. -/
noncomputable def quadL {n : ℕ} (x w : Fin n → ℝ) : ℝ[X] →ₗ[ℝ] ℝ where
  toFun p := ∑ i, w i * p.eval (x i)
  map_add' p q := by
    simp only [eval_add, mul_add, Finset.sum_add_distrib]
  map_smul' c p := by
    simp only [eval_smul, smul_eq_mul, RingHom.id_apply, Finset.mul_sum]
    exact Finset.sum_congr rfl fun i _ => by ring

@[simp] theorem quadL_apply {n : ℕ} (x w : Fin n → ℝ) (p : ℝ[X]) :
    quadL x w p = ∑ i, w i * p.eval (x i) := rfl

/-- Fundamental theorem of calculus for polynomials. -/
theorem polyInt_derivative (p : ℝ[X]) (a b : ℝ) :
    Spec.polyInt (derivative p) a b = p.eval b - p.eval a := by
  unfold Spec.polyInt
  exact intervalIntegral.integral_eq_sub_of_hasDerivAt (fun t _ => p.hasDerivAt t)
    ((derivative p).continuous.intervalIntegrable _ _)

theorem polyInt_add (p q : ℝ[X]) (a b : ℝ) :
    Spec.polyInt (p + q) a b = Spec.polyInt p a b + Spec.polyInt q a b := (intL a b).map_add p q

theorem polyInt_sub (p q : ℝ[X]) (a b : ℝ) :
    Spec.polyInt (p - q) a b = Spec.polyInt p a b - Spec.polyInt q a b := (intL a b).map_sub p q

theorem polyInt_C_mul (c : ℝ) (p : ℝ[X]) (a b : ℝ) :
    Spec.polyInt (C c * p) a b = c * Spec.polyInt p a b := by
  rw [← smul_eq_C_mul]; exact (intL a b).map_smul c p

theorem polyInt_adjacent (p : ℝ[X]) (a b c : ℝ) :
    Spec.polyInt p a b + Spec.polyInt p b c = Spec.polyInt p a c :=
  intervalIntegral.integral_add_adjacent_intervals (p.continuous.intervalIntegrable _ _)
    (p.continuous.intervalIntegrable _ _)

theorem polyInt_one (a b : ℝ) : Spec.polyInt 1 a b = b - a := by
  simp [Spec.polyInt]

theorem polyInt_X_pow (k : ℕ) (a b : ℝ) :
    Spec.polyInt (X ^ k) a b = (b ^ (k + 1) - a ^ (k + 1)) / (k + 1) := by
  simp [Spec.polyInt, integral_pow]

/-- Affine change of variables. -/
theorem polyInt_affine (p : ℝ[X]) (a b : ℝ) :
    Spec.polyInt (p.comp (C ((b - a) / 2) * X + C ((b + a) / 2))) (-1) 1 * ((b - a) / 2) =
      Spec.polyInt p a b := by
  have key : ∀ q : ℝ[X],
      derivative (q.comp (C ((b - a) / 2) * X + C ((b + a) / 2))) =
        C ((b - a) / 2) * (derivative q).comp (C ((b - a) / 2) * X + C ((b + a) / 2)) := by
    intro q
    rw [derivative_comp]
    simp
  -- both sides are linear in `p`; check on derivatives of powers
  have h : ∀ k < (p.natDegree + 1), Spec.polyInt ((C (1 / ((k : ℝ) + 1)) * derivative (X ^ (k + 1) : ℝ[X])).comp
      (C ((b - a) / 2) * X + C ((b + a) / 2))) (-1) 1 * ((b - a) / 2) =
      Spec.polyInt (C (1 / ((k : ℝ) + 1)) * derivative (X ^ (k + 1) : ℝ[X])) a b := by
    intro k _
    rw [mul_comp, C_comp, polyInt_C_mul, polyInt_C_mul, polyInt_derivative, mul_assoc]
    congr 1
    rw [mul_comm, ← polyInt_C_mul, ← key, polyInt_derivative]
    simp only [eval_comp, eval_add, eval_mul, eval_C, eval_X]
    congr 2 <;> ring
  let φ : ℝ[X] →ₗ[ℝ] ℝ :=
    { toFun := fun p => Spec.polyInt (p.comp (C ((b - a) / 2) * X + C ((b + a) / 2))) (-1) 1 *
        ((b - a) / 2)
      map_add' := fun p q => by rw [add_comp, polyInt_add]; ring
      map_smul' := fun c p => by
        rw [smul_eq_C_mul, mul_comp, C_comp, polyInt_C_mul, RingHom.id_apply, smul_eq_mul]; ring }
  have hdeg : ∀ k < p.natDegree + 1,
      (C (1 / ((k : ℝ) + 1)) * derivative (X ^ (k + 1) : ℝ[X])).degree = k := by
    intro k _
    have hk : (k : ℝ) + 1 ≠ 0 := by positivity
    have : C (1 / ((k : ℝ) + 1)) * derivative (X ^ (k + 1) : ℝ[X]) = X ^ k := by
      rw [derivative_X_pow, Nat.add_sub_cancel, ← mul_assoc, ← C_mul]
      push_cast
      rw [one_div_mul_cancel hk]
      simp
    rw [this, degree_X_pow]
  exact linear_ext_of_degrees _ φ (intL a b) (p.natDegree + 1) hdeg h p
    (lt_of_le_of_lt degree_le_natDegree (by exact_mod_cast Nat.lt_succ_self _))

end QMat
