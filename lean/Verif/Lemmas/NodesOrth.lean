import Verif.Lemmas.Legendre
import Verif.Props.Nodes

/-!
# Orthogonality of the node polynomials of all families
-/

namespace QMat

open Polynomial Spec NodesGenerator

theorem validSize_of_getNodes {nt qt : String} {n : ℕ} {x : Fin n → ℝ}
    (hx : getNodes ⟨nt, qt⟩ n = .ok x) : ValidSize qt n := by
  unfold getNodes at hx
  split_ifs at hx with h1 h2
  all_goals
    refine ⟨by omega, fun hq => ?_⟩
    by_contra hlt
    exact h1 ⟨hq, by omega⟩

theorem polyInt_odd {p : ℝ[X]} (h : ∀ t, p.eval (-t) = -p.eval t) : polyInt p (-1) 1 = 0 := by
  unfold polyInt
  have h1 : ∫ t in (-1:ℝ)..1, p.eval t = ∫ t in (-1:ℝ)..1, p.eval (-t) := by
    rw [intervalIntegral.integral_comp_neg (fun t => p.eval t)]
    simp
  simp only [h, intervalIntegral.integral_neg] at h1
  linarith

theorem nodal_odd {n : ℕ} {x : Fin n → ℝ} (hsym : ∀ i, x i = -x i.rev) (hodd : n % 2 = 1) (t : ℝ) :
    (Lagrange.nodal Finset.univ x).eval (-t) = -(Lagrange.nodal Finset.univ x).eval t := by
  simp only [Lagrange.eval_nodal]
  have h1 : ∏ i, (-t - x i) = ∏ i, (-1) * (t - x i) := by
    rw [← Equiv.prod_comp Fin.revPerm]
    refine Finset.prod_congr rfl fun i _ => ?_
    rw [hsym i]
    simp only [Fin.revPerm_apply]
    ring
  rw [h1, Finset.prod_mul_distrib]
  simp [Odd.neg_one_pow (Nat.odd_iff.mpr hodd)]

/-- Number of degrees beyond `n` integrated exactly, `order - n` in `Collocation.order`. -/
def nodeBonus (nt qt : String) (n : ℕ) : ℕ :=
  if nt = "LEGENDRE" then legBonus qt n
  else if qt ∈ ["GAUSS", "LOBATTO"] ∧ nt ∈ ["EQUID", "CHEBY-1", "CHEBY-2"] then n % 2 else 0

theorem nodes_orth {nt qt : String} (hqt : qt ∈ QUAD_TYPES) {n : ℕ}
    (x : Fin n → ℝ) (hx : getNodes ⟨nt, qt⟩ n = .ok x) (q : ℝ[X])
    (hq : q.degree < nodeBonus nt qt n) :
    polyInt (q * Lagrange.nodal Finset.univ x) (-1) 1 = 0 := by
  have hn := validSize_of_getNodes hx
  unfold nodeBonus at hq
  split_ifs at hq with h1 h2
  · subst h1
    exact legendre_nodes_orth hqt x hn hx q hq
  · rcases Nat.mod_two_eq_zero_or_one n with h0 | h0
    · rw [h0] at hq
      have : q = 0 := by
        rw [← degree_eq_bot]
        exact (WithBot.lt_coe_bot).mp (by simpa using hq)
      subst this
      simp [polyInt]
    · rw [h0] at hq
      obtain ⟨c, rfl⟩ : ∃ c, q = C c := by
        refine ⟨q.coeff 0, eq_C_of_degree_le_zero ?_⟩
        rw [← natDegree_eq_zero_iff_degree_le_zero]
        by_cases hq0 : q = 0
        · simp [hq0]
        · rw [degree_eq_natDegree hq0] at hq
          have : q.natDegree < 1 := by exact_mod_cast hq
          omega
      rw [polyInt_C_mul, polyInt_odd (nodal_odd (C20_symmetric ?_ h2.1 x hx) h0), mul_zero]
      exact List.mem_cons_of_mem _ h2.2
  · have : q = 0 := by
      rw [← degree_eq_bot]
      exact (WithBot.lt_coe_bot).mp (by simpa using hq)
    subst this
    simp [polyInt]

end QMat
