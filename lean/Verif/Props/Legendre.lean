import Verif.Lemmas.NodesOrth

/-!
# Properties C18 (Legendre), C19: quadrature on Legendre nodes
-/

namespace QMat

open Polynomial Spec NodesGenerator

/-- C18 (identification, `LEGENDRE`): with the Legendre coefficients the recurrence gives the monic
polynomials orthogonal over `[-1, 1]` to all polynomials of lower degree (which characterises them),
and they satisfy Legendre's differential equation. -/
theorem C18_legendre_polynomials (qt : String) {m : ℕ} (hm : 0 < m) :
    ∃ a b, getOrthogPolyCoefficients ⟨"LEGENDRE", qt⟩ m = .ok (a, b) ∧ ∀ n : ℕ,
      (orthPoly a b n).Monic ∧ (orthPoly a b n).natDegree = n ∧
      (∀ q : ℝ[X], q.degree < n → polyInt (q * orthPoly a b n) (-1) 1 = 0) ∧
      derivative ((X ^ 2 - 1) * derivative (orthPoly a b n)) =
        C ((n:ℝ) * (n + 1)) * orthPoly a b n :=
  ⟨_, _, getOrthogPolyCoefficients_eq qt (by decide) hm, fun n =>
    ⟨legPoly_monic n, legPoly_natDegree n, fun _ hq => legPoly_orth hq, legPoly_ode n⟩⟩

/-- Instance: the polynomial of degree three of the recurrence with five coefficients is monic. -/
example : ∃ a b, getOrthogPolyCoefficients ⟨"LEGENDRE", "GAUSS"⟩ 5 = .ok (a, b) ∧ (orthPoly a b 3).Monic := by
  obtain ⟨a, b, h, h'⟩ := C18_legendre_polynomials "GAUSS" (m := 5) (by norm_num)
  exact ⟨a, b, h, (h' 3).1⟩

/-- C19: any weights that integrate polynomials of degree `< n` exactly over `[-1, 1]` on the `n`
`LEGENDRE` nodes integrate exactly up to degree `2n-1` (`GAUSS`), `2n-2` (`RADAU-*`), `2n-3`
(`LOBATTO`). -/
theorem C19_legendre_quadrature {qt : String} (hqt : qt ∈ QUAD_TYPES) {n : ℕ} (x w : Fin n → ℝ)
    (hx : getNodes ⟨"LEGENDRE", qt⟩ n = .ok x)
    (hw : ∀ p : ℝ[X], p.degree < n → QuadExact x w (-1) 1 p) (p : ℝ[X])
    (hp : (qt = "GAUSS" ∧ p.natDegree ≤ 2 * n - 1) ∨
      (qt = "RADAU-LEFT" ∧ p.natDegree ≤ 2 * n - 2) ∨
      (qt = "RADAU-RIGHT" ∧ p.natDegree ≤ 2 * n - 2) ∨
      (qt = "LOBATTO" ∧ p.natDegree ≤ 2 * n - 3)) : QuadExact x w (-1) 1 p := by
  have hn := validSize_of_getNodes hx
  have hn1 := hn.1
  refine quadExact_of_orth hw (legendre_nodes_orth hqt x hn hx) p ?_
  refine lt_of_le_of_lt degree_le_natDegree ?_
  have : p.natDegree < n + legBonus qt n := by
    unfold legBonus
    rcases hp with ⟨rfl, h⟩ | ⟨rfl, h⟩ | ⟨rfl, h⟩ | ⟨rfl, h⟩ <;> simp
    · omega
    · have := hn.2 (by simp); omega
    · omega
    · have := hn.2 (by simp); omega
  exact_mod_cast this

/-- The hypotheses are met: Simpson's rule is exact for cubics, from its exactness for
quadratics. -/
example : ∃ x : Fin 3 → ℝ, getNodes ⟨"LEGENDRE", "LOBATTO"⟩ 3 = .ok x ∧
    QuadExact x ![1 / 3, 4 / 3, 1 / 3] (-1) 1 (X ^ 3) := by
  obtain ⟨x, hx, hs, hr, hl, hr1⟩ := getNodes_all (nt := "LEGENDRE") (qt := "LOBATTO") (by decide)
    (by decide) (n := 3) ⟨by norm_num, fun _ => by norm_num⟩
  have h0 : x 0 = -1 := by
    obtain ⟨i, hi⟩ := hl.mpr (Or.inr rfl)
    have := hs.monotone (Fin.zero_le i)
    have h2 := (hr 0).1
    linarith
  have h1 : x 1 = 0 := by
    have := C20_symmetric (nt := "LEGENDRE") (qt := "LOBATTO") (by decide) (by decide) x hx 1
    rw [show (Fin.rev 1 : Fin 3) = 1 by decide] at this
    linarith
  have h2 : x 2 = 1 := by
    obtain ⟨i, hi⟩ := hr1.mpr (Or.inr rfl)
    have := hs.monotone (Fin.le_last i)
    have h2 := (hr 2).2
    change x i ≤ x 2 at this
    linarith
  refine ⟨x, hx, C19_legendre_quadrature (by decide) x _ hx (fun p hp => ?_) _
    (Or.inr (Or.inr (Or.inr ⟨rfl, by simp⟩)))⟩
  refine linear_ext_of_degrees (fun k => (X:ℝ[X]) ^ k) (quadL x _) (intL (-1) 1) 3
    (fun k _ => degree_X_pow k) (fun k hk => ?_) p hp
  have : k = 0 ∨ k = 1 ∨ k = 2 := by omega
  rcases this with rfl | rfl | rfl <;>
    simp [quadL, intL, polyInt, Fin.sum_univ_three, h0, h1, h2, integral_pow] <;> norm_num

end QMat
