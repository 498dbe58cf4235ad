import Verif.Lemmas.Fejer
import Verif.Lemmas.Interp

/-!
# Lemmas on `getIntegrationMatrix`
-/

namespace QMat

open Matrix Polynomial LagrangeApproximation

namespace LagrangeApproximation

variable {n : ℕ}

/-- Entries of the matrix computed with a rule that is exact on degrees `< nUniquePoints` are the
integrals of the Lagrange basis polynomials. -/
theorem integrationMatrixU_eq_polyInt {L : LagrangeApproximation n} (hL : L.WF) {r q : ℕ}
    (x w : Fin q → ℝ)
    (hex : ∀ p : ℝ[X], p.degree < L.nUniquePoints → Spec.QuadExact x w (-1) 1 p)
    (intervals : Fin r → ℝ × ℝ) (i : Fin r) (j : Fin L.nUniquePoints) :
    L.integrationMatrixU x w intervals i j =
      Spec.polyInt (Lagrange.basis Finset.univ L.uniquePoints j)
        (intervals i).1 (intervals i).2 := by
  set a := (intervals i).1
  set b := (intervals i).2
  set B := Lagrange.basis Finset.univ L.uniquePoints j with hB
  have hdeg : B.degree < L.nUniquePoints := by
    rw [hB, Lagrange.degree_basis hL.inj.injOn (Finset.mem_univ j), Finset.card_univ,
      Fintype.card_fin]
    exact_mod_cast Nat.sub_lt j.pos Nat.one_pos
  set q' : ℝ[X] := B.comp (C ((b - a) / 2) * X + C ((b + a) / 2)) with hq'
  have hqd : q'.degree < L.nUniquePoints := by
    refine lt_of_le_of_lt ?_ hdeg
    by_cases hB0 : B = 0
    · rw [hq', hB0]; simp
    by_cases hq0 : q' = 0
    · rw [hq0]; simp
    rw [degree_eq_natDegree hq0, degree_eq_natDegree hB0]
    have h1 : q'.natDegree ≤ B.natDegree * (C ((b - a) / 2) * X + C ((b + a) / 2)).natDegree :=
      natDegree_comp_le
    have h2 : (C ((b - a) / 2) * X + C ((b + a) / 2)).natDegree ≤ 1 := natDegree_linear_le
    exact_mod_cast h1.trans (by nlinarith)
  have h := hex q' hqd
  unfold Spec.QuadExact at h
  have haff := polyInt_affine B a b
  unfold integrationMatrixU
  simp only [Matrix.of_apply, interpolationMatrixU_eq_basis hL]
  rw [← haff, ← hq', ← h, Finset.sum_mul]
  refine Finset.sum_congr rfl fun k _ => ?_
  simp only [hq', eval_comp, eval_add, eval_mul, eval_C, eval_X]
  ring

theorem integrationU_exact {L : LagrangeApproximation n} (hL : L.WF) {r q : ℕ}
    (x w : Fin q → ℝ)
    (hex : ∀ p : ℝ[X], p.degree < L.nUniquePoints → Spec.QuadExact x w (-1) 1 p)
    (intervals : Fin r → ℝ × ℝ) (p : ℝ[X]) (hp : p.degree < L.nUniquePoints) (i : Fin r) :
    ∑ u, L.integrationMatrixU x w intervals i u * p.eval (L.uniquePoints u) =
      Spec.polyInt p (intervals i).1 (intervals i).2 := by
  have h := Lagrange.eq_interpolate (s := Finset.univ) (v := L.uniquePoints) (f := p)
    hL.inj.injOn (by simpa using hp)
  have e : Spec.polyInt p (intervals i).1 (intervals i).2 =
      intL (intervals i).1 (intervals i).2 p := rfl
  rw [e]
  conv_rhs => rw [h, Lagrange.interpolate_apply, map_sum]
  refine Finset.sum_congr rfl fun u _ => ?_
  rw [integrationMatrixU_eq_polyInt hL x w hex, intL_apply, polyInt_C_mul, mul_comm]

end LagrangeApproximation

/-- Contract on the two external Gauss-Legendre routines (`numpy.polynomial.legendre.leggauss` and
`scipy.special.roots_legendre`): the rule with `m` points is exact up to degree `2m - 1`. -/
def LagrangeApproximation.ExternalQuad.Exact (ext : ExternalQuad) : Prop :=
  ∀ (m : ℕ) (p : ℝ[X]), p.degree < (2 * m : ℕ) →
    Spec.QuadExact (ext.leggauss m).1 (ext.leggauss m).2 (-1) 1 p ∧
    Spec.QuadExact (ext.rootsLegendre m).1 (ext.rootsLegendre m).2 (-1) 1 p

/-- Every rule selected by `numQuad` is exact on polynomials of degree `< n`. -/
theorem quadRule_exact (ext : ExternalQuad) (numQuad : String) (n : ℕ) (hn : 0 < n)
    (hnq : numQuad ∈ ["LEGENDRE_NUMPY", "LEGENDRE_SCIPY", "FEJER"])
    (hext : numQuad ≠ "FEJER" → ext.Exact) :
    ∃ rule, quadRule ext numQuad n = .ok rule ∧
      ∀ p : ℝ[X], p.degree < n → Spec.QuadExact rule.2.1 rule.2.2 (-1) 1 p := by
  have hle : ∀ p : ℝ[X], p.degree < n → p.degree < (2 * ((n + 1) / 2) : ℕ) := fun p hp =>
    lt_of_lt_of_le hp (by exact_mod_cast (by omega : n ≤ 2 * ((n + 1) / 2)))
  simp only [List.mem_cons, List.not_mem_nil, or_false] at hnq
  rcases hnq with rfl | rfl | rfl
  · exact ⟨_, by rw [quadRule, if_pos rfl],
      fun p hp => (hext (by decide) _ p (hle p hp)).1⟩
  · exact ⟨_, by rw [quadRule, if_neg (by decide), if_pos rfl],
      fun p hp => (hext (by decide) _ p (hle p hp)).2⟩
  · have hpos : 0 < n - (n + 1) % 2 := by omega
    refine ⟨⟨_, fejerNodes (n - (n + 1) % 2), fun k => fejerW (n - (n + 1) % 2) k⟩, ?_, ?_⟩
    · rw [quadRule, if_neg (by decide), if_neg (by decide), if_pos rfl, computeFejerRule_eq hpos]
      rfl
    · intro p hp
      refine fejer_exact hpos p (lt_of_lt_of_le hp ?_)
      exact_mod_cast (by omega : n ≤ n - (n + 1) % 2 + (n - (n + 1) % 2) % 2)

end QMat
