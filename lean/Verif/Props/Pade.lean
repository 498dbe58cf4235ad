import Verif.Lemmas.Pade
import Verif.Props.Stiff

/-!
# C105: Legendre collocation computes Padé approximations of the exponential function
-/

namespace QMat

open Polynomial Spec Matrix NodesGenerator

variable {M : ℕ}

theorem padeNum_zero (a b : ℕ) : padeNum a b 0 = ((a + b).factorial : ℂ) := by
  unfold padeNum
  rw [Finset.sum_eq_single 0]
  · simp
  · intro j _ hj; simp [hj]
  · simp

/-- The sums of `stiffSum_pade` for Legendre nodes. -/
theorem legendre_pade {qt : String} (c : Collocation M) (hc : Collocation.new M "LEGENDRE" qt 0 1 = .ok c) (hun : Unmoved "LEGENDRE" qt c)
    {a b : ℕ} (hab : padeDegrees qt M = (a, b)) :
    ∃ κ : ℂ, κ ≠ 0 ∧ ∀ z : ℂ, z ≠ 0 → κ * (z ^ M * stiffSum c.nodes 1 z⁻¹) = padeNum a b z ∧
      κ * (z ^ M * stiffSum c.nodes 0 z⁻¹) = padeNum b a (-z) := by
  obtain ⟨x, hx, hun⟩ := hun
  obtain ⟨x', hM, h⟩ := collocation_spec hc
  obtain ⟨p, ho, -, hex⟩ := C28_quadrature_order_unmoved (by norm_num) c hc x hx (fun i => by rw [hun]; ring)
  obtain ⟨-, -, hl, hrr⟩ := C24_collocation_nodes (by norm_num) c hc
  have horth : ∀ r, M + r = p → ∀ q : ℝ[X], q.degree < r → polyInt (q * Lagrange.nodal Finset.univ c.nodes) 0 1 = 0 := fun r hr q hq => by
    have hN : (Lagrange.nodal Finset.univ c.nodes).degree ≤ M := by rw [Lagrange.degree_nodal]; simp
    have := degree_mul_lt hN hq
    rw [hr, mul_comm] at this
    refine (hex _ this).symm.trans ?_
    refine Finset.sum_eq_zero fun j _ => ?_
    rw [eval_mul, Lagrange.eval_nodal_at_node (Finset.mem_univ j)]
    ring
  have hab' : (if qt = "GAUSS" then (M, M) else if qt = "RADAU-RIGHT" then (M - 1, M) else if qt = "RADAU-LEFT" then (M, M - 1)
    else (M - 1, M - 1)) = (a, b) := hab
  rcases legendre_order c hc with ⟨rfl, ho'⟩ | ⟨rfl | rfl, ho'⟩ | ⟨rfl, hM2, ho'⟩ <;> rw [ho] at ho' <;> cases ho' <;>
    simp only [String.reduceEq, if_true, if_false, Prod.mk.injEq] at hab' <;> obtain ⟨rfl, rfl⟩ := hab'
  · exact stiffSum_pade (r := M) (by omega) (Or.inl rfl) (Or.inl rfl) (horth M (by omega)) (fun h => by omega) (fun h => by omega)
  · exact stiffSum_pade (r := M - 1) (by omega) (Or.inr (by omega)) (Or.inl rfl) (horth _ (by omega)) (fun _ => hl (Or.inl rfl))
      (fun h => by omega)
  · exact stiffSum_pade (r := M - 1) (by omega) (Or.inl rfl) (Or.inr (by omega)) (horth _ (by omega)) (fun h => by omega)
      (fun _ => hrr (Or.inl rfl) (Or.inr (by norm_num)))
  · exact stiffSum_pade (r := M - 2) (by omega) (Or.inr (by omega)) (Or.inr (by omega)) (horth _ (by omega)) (fun _ => hl (Or.inr rfl))
      (fun _ => hrr (Or.inr rfl) (Or.inr (by norm_num)))

/-- C105: one step of a `LEGENDRE` collocation multiplies by the Padé approximation of `exp` with degrees `(M, M)` for GAUSS, `(M-1, M)` for
RADAU-RIGHT, `(M, M-1)` for RADAU-LEFT and `(M-1, M-1)` for LOBATTO, and is possible exactly when the denominator does not vanish. -/
theorem C105_step {qt : String} (c : Collocation M) (hc : Collocation.new M "LEGENDRE" qt 0 1 = .ok c) (hun : Unmoved "LEGENDRE" qt c)
    (a b : ℕ) (hab : padeDegrees qt M = (a, b)) (z : ℂ) :
    ((1 - z • c.Q.map Complex.ofReal).det ≠ 0 ↔ padeNum b a (-z) ≠ 0) ∧
    (padeNum b a (-z) ≠ 0 → stabilityFunction c.Q c.weights z = padeNum a b z / padeNum b a (-z)) := by
  by_cases hz : z = 0
  · subst hz
    have hf : ((a + b).factorial : ℂ) ≠ 0 := by exact_mod_cast (Nat.factorial_pos _).ne'
    rw [neg_zero, padeNum_zero, padeNum_zero, add_comm b a]
    exact ⟨⟨fun _ => hf, fun _ => by simp⟩, fun _ => by rw [div_self hf]; simp [stabilityFunction]⟩
  obtain ⟨κ, hκ, hsum⟩ := legendre_pade c hc hun hab
  obtain ⟨h1, h0⟩ := hsum z hz
  have hzM := pow_ne_zero M hz
  have hiff : padeNum b a (-z) ≠ 0 ↔ stiffSum c.nodes 0 z⁻¹ ≠ 0 := by
    rw [← h0]
    simp [hκ, hz]
  have hdet : (1 - z • c.Q.map Complex.ofReal).det ≠ 0 ↔ stiffSum c.nodes 0 z⁻¹ ≠ 0 := by
    refine ⟨fun hdet h => ?_, stiff_det c hc hz⟩
    obtain ⟨x', hM, hs⟩ := collocation_spec hc
    obtain ⟨U, V, hU, hV, hU0, hV0, hUd, hVd, -, -⟩ := collocation_stage c hc hdet
    obtain ⟨a, ha⟩ := collocation_stiff (hs.strictMono (by norm_num)).injective hz hU hV hUd hVd
    have h0 := ha 0
    rw [hU0, hV0, h, mul_zero] at h0
    exact one_ne_zero (α := ℝ) (congrArg Complex.re h0)
  refine ⟨hdet.trans hiff.symm, fun hD => ?_⟩
  have hs := hiff.1 hD
  have hv := stiff_value c hc hz (hdet.2 hs)
  rw [eq_div_iff hD, ← h0, ← h1, ← hv]
  ring

/-- C105: `solveDahlquist` of a `LEGENDRE` collocation for every `λ`: powers of the Padé approximation, or `LinAlgError` exactly when its
denominator vanishes. -/
theorem C105_solve {qt : String} (c : Collocation M) (hc : Collocation.new M "LEGENDRE" qt 0 1 = .ok c) (hun : Unmoved "LEGENDRE" qt c)
    (a b : ℕ) (hab : padeDegrees qt M = (a, b)) (lam u0 : ℂ) (tEnd : ℝ) (n : ℕ) (hn : 0 < n) (z : ℂ) (hz : z = lam * (tEnd / n : ℝ)) :
    (padeNum b a (-z) ≠ 0 → c.toQGenerator.solveDahlquist lam u0 tEnd n =
      .ok ((List.range (n + 1)).map fun k => (padeNum a b z / padeNum b a (-z)) ^ k * u0)) ∧
    (padeNum b a (-z) = 0 → c.toQGenerator.solveDahlquist lam u0 tEnd n = .error .linAlgError) := by
  obtain ⟨hdet, hval⟩ := C105_step c hc hun a b hab z
  constructor
  · intro h
    rw [C30_solveDahlquist c.toQGenerator lam u0 tEnd n hn (hz ▸ hdet.2 h), ← hz]
    change Except.ok ((List.range (n + 1)).map fun k => stabilityFunction c.Q c.weights z ^ k * u0) = _
    rw [hval h]
  · intro h
    exact (C30_solveDahlquist_errors c.toQGenerator lam u0 tEnd).1 n hn (by
      rw [← hz]
      by_contra h'
      exact hdet.1 h' h)

/-- C105: the denominators have no zeros with non-positive real part. -/
theorem C105_denominator {qt : String} (hqt : qt ∈ QUAD_TYPES) (hM : M ≤ 158) (hn : ValidSize qt M) (a b : ℕ) (hab : padeDegrees qt M = (a, b))
    (z : ℂ) (hz : z.re ≤ 0) : padeNum b a (-z) ≠ 0 := by
  obtain ⟨c, hc⟩ := collocation_new_ok (M := M) (nt := "LEGENDRE") (qt := qt) (by decide) hqt hn 0 1
  have hun := unmoved_small hM c hc
  exact (C105_step c hc hun a b hab z).1.1 (legendre_det c hc hun hz)

/-- C105: GAUSS and LOBATTO are time-reversible: a step with `λ` and one with `-λ` give back the value, whatever the step size; and a step with
RADAU-RIGHT is undone by a step with RADAU-LEFT and `-λ`. -/
theorem C105_reversible (hM : M ≤ 158) (qt qt' : String)
    (hq : (qt = "GAUSS" ∧ qt' = "GAUSS") ∨ (qt = "LOBATTO" ∧ qt' = "LOBATTO") ∨ (qt = "RADAU-RIGHT" ∧ qt' = "RADAU-LEFT"))
    (c c' : Collocation M) (hc : Collocation.new M "LEGENDRE" qt 0 1 = .ok c) (hc' : Collocation.new M "LEGENDRE" qt' 0 1 = .ok c')
    (z : ℂ) (h : (1 - z • c.Q.map Complex.ofReal).det ≠ 0) (h' : (1 - (-z) • c'.Q.map Complex.ofReal).det ≠ 0) :
    stabilityFunction c.Q c.weights z * stabilityFunction c'.Q c'.weights (-z) = 1 := by
  obtain ⟨a, b, hab, hab'⟩ : ∃ a b, padeDegrees qt M = (a, b) ∧ padeDegrees qt' M = (b, a) := by
    rcases hq with ⟨rfl, rfl⟩ | ⟨rfl, rfl⟩ | ⟨rfl, rfl⟩ <;> simp [padeDegrees]
  obtain ⟨d1, v1⟩ := C105_step c hc (unmoved_small hM c hc) a b hab z
  obtain ⟨d2, v2⟩ := C105_step c' hc' (unmoved_small hM c' hc') b a hab' (-z)
  have e1 := d1.1 h
  have e2 := d2.1 h'
  rw [v1 e1, v2 e2]
  rw [neg_neg] at e2 ⊢
  field_simp

/-- Instance: two Gauss nodes; `(12 + 6 z + z²) / (12 - 6 z + z²)` for every decaying equation. -/
example : ∃ c : Collocation 2, Collocation.new 2 "LEGENDRE" "GAUSS" 0 1 = .ok c ∧ ∀ z : ℂ, z.re ≤ 0 →
    stabilityFunction c.Q c.weights z = (12 + 6 * z + z ^ 2) / (12 - 6 * z + z ^ 2) := by
  obtain ⟨c, hc⟩ := collocation_new_ok (M := 2) (nt := "LEGENDRE") (qt := "GAUSS") (by decide)
    (by decide) ⟨by norm_num, fun h => by simp at h⟩ 0 1
  refine ⟨c, hc, fun z hz => ?_⟩
  have h := C105_denominator (qt := "GAUSS") (by decide) (M := 2) (by norm_num) ⟨by norm_num, fun h => by simp at h⟩ 2 2 rfl z hz
  rw [(C105_step c hc (unmoved_small (by norm_num) c hc) 2 2 rfl z).2 h]
  have e : ∀ z, padeNum 2 2 z = 2 * (12 + 6 * z + z ^ 2) := fun z => by
    simp [padeNum, Finset.sum_range_succ, Nat.factorial]
    ring
  rw [e] at h
  rw [e, e, mul_div_mul_left _ _ two_ne_zero]
  congr 1
  ring

/-- Instance: a single node at the end of the step is the implicit Euler method, which cannot be used for `λ dt = 1`. -/
example : ∃ c : Collocation 1, Collocation.new 1 "LEGENDRE" "RADAU-RIGHT" 0 1 = .ok c ∧
    c.toQGenerator.solveDahlquist 3 1 1 (3 : ℕ) = .error .linAlgError := by
  obtain ⟨c, hc⟩ := collocation_new_ok (M := 1) (nt := "LEGENDRE") (qt := "RADAU-RIGHT") (by decide)
    (by decide) ⟨by norm_num, fun h => by simp at h⟩ 0 1
  refine ⟨c, hc, (C105_solve c hc (unmoved_small (by norm_num) c hc) 0 1 rfl 3 1 1 3 (by norm_num) 1 (by push_cast; norm_num)).2 ?_⟩
  simp [padeNum, Finset.sum_range_succ]

/-- Instance: right and left Radau steps with five nodes. -/
example : ∃ c c' : Collocation 5, Collocation.new 5 "LEGENDRE" "RADAU-RIGHT" 0 1 = .ok c ∧ Collocation.new 5 "LEGENDRE" "RADAU-LEFT" 0 1 = .ok c' ∧
    stabilityFunction c.Q c.weights (Complex.I * 7) * stabilityFunction c'.Q c'.weights (-(Complex.I * 7)) = 1 := by
  obtain ⟨c, hc⟩ := collocation_new_ok (M := 5) (nt := "LEGENDRE") (qt := "RADAU-RIGHT") (by decide)
    (by decide) ⟨by norm_num, fun _ => by norm_num⟩ 0 1
  obtain ⟨c', hc'⟩ := collocation_new_ok (M := 5) (nt := "LEGENDRE") (qt := "RADAU-LEFT") (by decide)
    (by decide) ⟨by norm_num, fun _ => by norm_num⟩ 0 1
  exact ⟨c, c', hc, hc', C105_reversible (by norm_num) _ _ (Or.inr (Or.inr ⟨rfl, rfl⟩)) c c' hc hc' _
    (legendre_det c hc (unmoved_small (by norm_num) c hc) (by simp)) (legendre_det c' hc' (unmoved_small (by norm_num) c' hc') (by simp))⟩

end QMat
