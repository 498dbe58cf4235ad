import Verif.Lemmas.AStable
import Verif.Props.CollExact

/-!
# C71, C72: Legendre collocation on Dahlquist's equation in the left half plane
-/

namespace QMat

open Polynomial Spec NodesGenerator Matrix

/-- A monic polynomial that vanishes at the nodes and is not positive on `[0, 1]` makes the rule an upper bound. -/
theorem quadUpper_of_ends {M p : ℕ} {x w : Fin M → ℝ} (hinj : Function.Injective x)
    (hr : ∀ i, 0 ≤ x i ∧ x i ≤ 1)
    (hex : ∀ q : ℝ[X], q.degree < p → ∑ j, w j * q.eval (x j) = polyInt q 0 1)
    (hp : p + (Finset.univ.filter fun i => x i = 0 ∨ x i = 1).card = 2 * M) (h1 : ∃ i, x i = 1) :
    QuadUpper x w p := by
  classical
  obtain ⟨k, hk⟩ := h1
  set G : Fin M → ℝ[X] := fun i => if x i = 0 ∨ x i = 1 then X - C (x i) else (X - C (x i)) ^ 2 with hG
  have hmon : ∀ i, (G i).Monic := fun i => by
    simp only [hG]; split_ifs
    · exact monic_X_sub_C _
    · exact (monic_X_sub_C _).pow 2
  have hroot : ∀ i, (G i).eval (x i) = 0 := fun i => by
    simp only [hG]; split_ifs <;> simp
  have hdeg : ∀ i, (G i).natDegree + (if x i = 0 ∨ x i = 1 then 1 else 0) = 2 := fun i => by
    simp only [hG]; split_ifs
    · rw [natDegree_X_sub_C]
    · rw [natDegree_pow, natDegree_X_sub_C]
  set g := ∏ i, G i with hg
  have hgm : g.Monic := monic_prod_of_monic _ _ fun i _ => hmon i
  have hgd : g.natDegree = p := by
    have : g.natDegree + (Finset.univ.filter fun i => x i = 0 ∨ x i = 1).card = 2 * M := by
      rw [hg, natDegree_prod_of_monic _ _ fun i _ => hmon i, Finset.card_filter, ← Finset.sum_add_distrib]
      simp only [hdeg]
      simp [mul_comm]
    omega
  have hneg : ∀ t ∈ Set.Icc (0:ℝ) 1, g.eval t ≤ 0 := fun t ht => by
    rw [hg, eval_prod, ← Finset.mul_prod_erase _ _ (Finset.mem_univ k)]
    refine mul_nonpos_of_nonpos_of_nonneg ?_ (Finset.prod_nonneg fun i hi => ?_)
    · simp only [hG, hk, or_true, if_true, eval_sub, eval_X, eval_C]
      linarith [ht.2]
    · have hne : x i ≠ 1 := fun e => Finset.ne_of_mem_erase hi (hinj (e.trans hk.symm))
      simp only [hG]
      split_ifs with h
      · rw [h.resolve_right hne]
        simpa using ht.1
      · rw [eval_pow]; positivity
  have hgint : polyInt g 0 1 ≤ 0 := by
    have : 0 ≤ polyInt (-g) 0 1 := by
      refine intervalIntegral.integral_nonneg (by norm_num) fun t ht => ?_
      rw [eval_neg]
      exact neg_nonneg.mpr (hneg t ht)
    rw [show -g = 0 - g by ring, polyInt_sub] at this
    simpa [polyInt] using this
  intro F hF hF0
  have hlow : (F - C (F.coeff p) * g).degree < p := by
    rw [degree_lt_iff_coeff_zero]
    intro m hm
    rw [coeff_sub, coeff_C_mul]
    rcases hm.eq_or_lt with rfl | hm
    · have : g.coeff p = 1 := by rw [Monic, leadingCoeff, hgd] at hgm; exact hgm
      rw [this]; ring
    · rw [coeff_eq_zero_of_natDegree_lt (lt_of_le_of_lt hF hm),
        coeff_eq_zero_of_natDegree_lt (p := g) (by rw [hgd]; exact hm)]
      ring
  have h := hex _ hlow
  rw [polyInt_sub, polyInt_C_mul] at h
  have hsum : ∑ j, w j * (F - C (F.coeff p) * g).eval (x j) = ∑ j, w j * F.eval (x j) := by
    refine Finset.sum_congr rfl fun j _ => ?_
    have : g.eval (x j) = 0 := by
      rw [hg, eval_prod, Finset.prod_eq_zero (Finset.mem_univ j) (hroot j)]
    rw [eval_sub, eval_mul, this]
    ring
  rw [hsum] at h
  nlinarith

theorem quadUpper_of_exact {M p q : ℕ} {x w : Fin M → ℝ}
    (hex : ∀ F : ℝ[X], F.degree < q → ∑ j, w j * F.eval (x j) = polyInt F 0 1) (hpq : p < q) : QuadUpper x w p := by
  intro F hF _
  rw [hex F (lt_of_le_of_lt degree_le_natDegree (by exact_mod_cast lt_of_le_of_lt hF hpq))]

/-- Weights are positive under the upper bound. -/
theorem weights_pos_of_quadUpper {M : ℕ} {x w : Fin M → ℝ} (hinj : Function.Injective x)
    (hup : QuadUpper x w (2 * M - 2)) (i : Fin M) : 0 < w i := by
  classical
  have hM : 0 < M := lt_of_le_of_lt (Nat.zero_le _) i.isLt
  set l := Lagrange.basis Finset.univ x i with hl
  have hld : l.natDegree = M - 1 := by
    rw [hl, Lagrange.natDegree_basis hinj.injOn (Finset.mem_univ i)]; simp
  have h2 : 2 * M - 2 = (M - 1) + (M - 1) := by omega
  have h := hup (l * l) (by rw [h2]; exact natDegree_mul_le.trans (by rw [hld]))
    (by rw [h2, coeff_mul_add_eq_of_natDegree_le hld.le hld.le]; exact mul_self_nonneg _)
  rw [Finset.sum_eq_single i] at h
  · have hpos : 0 < polyInt (l * l) 0 1 := by
      refine polyInt_pos (mul_self_ne_zero.mpr fun h0 => ?_) (by norm_num) fun t _ _ => by
        rw [eval_mul]; exact mul_self_nonneg _
      have := Lagrange.eval_basis_self hinj.injOn (Finset.mem_univ i)
      rw [← hl, h0] at this
      simp at this
    rw [eval_mul, hl, Lagrange.eval_basis_self hinj.injOn (Finset.mem_univ i)] at h
    linarith
  · intro j _ hj
    rw [eval_mul, hl, Lagrange.eval_basis_of_ne hj.symm (Finset.mem_univ j)]
    simp
  · simp

/-- The closeness tests of the constructor moved no node of a collocation on `[0, 1]`. -/
def Unmoved {M : ℕ} (nt qt : String) (c : Collocation M) : Prop :=
  ∃ x, getNodes ⟨nt, qt⟩ M = .ok x ∧ ∀ i, c.nodes i = (x i + 1) / 2

/-- `LOBATTO` nodes are never moved. -/
theorem unmoved_lobatto {M : ℕ} {nt : String} (c : Collocation M)
    (hc : Collocation.new M nt "LOBATTO" 0 1 = .ok c) : Unmoved nt "LOBATTO" c := by
  obtain ⟨x, hM, h⟩ := collocation_spec hc
  refine ⟨x, h.getNodes, fun i => ?_⟩
  rw [nodes_unsnapped c hc x h.getNodes hM (Or.inl (h.first (Or.inr rfl))) (Or.inl (h.last (Or.inr rfl)))]
  ring

/-- Up to 158 nodes none is moved. -/
theorem unmoved_small {M : ℕ} (hM : M ≤ 158) {qt : String} (c : Collocation M)
    (hc : Collocation.new M "LEGENDRE" qt 0 1 = .ok c) : Unmoved "LEGENDRE" qt c := by
  by_cases hq : qt = "LOBATTO"
  · subst hq; exact unmoved_lobatto c hc
  obtain ⟨x, hM0, h⟩ := collocation_spec hc
  have hw : Wide M 0 1 := by
    have : (M:ℝ) ≤ 158 := by exact_mod_cast hM
    have h0 : (0:ℝ) ≤ M := by positivity
    unfold Wide
    norm_num
    nlinarith
  refine ⟨x, h.getNodes, fun i => ?_⟩
  rw [unsnapped_of_wide hw c hc (Or.inl ⟨rfl, hq⟩) x h.getNodes]
  ring

/-- What the estimates need of the quadrature rules. -/
theorem legendre_quadUpper {M : ℕ} {qt : String} (c : Collocation M)
    (hc : Collocation.new M "LEGENDRE" qt 0 1 = .ok c) (hun : Unmoved "LEGENDRE" qt c) :
    QuadUpper c.nodes c.weights (2 * M - 2) ∧
    (qt = "GAUSS" ∨ qt = "RADAU-RIGHT" → QuadUpper c.nodes c.weights (2 * M - 1)) ∧
    (qt = "GAUSS" → ∀ F : ℝ[X], F.degree < (2 * M : ℕ) →
      ∑ i, c.weights i * F.eval (c.nodes i) = polyInt F 0 1) := by
  classical
  obtain ⟨x, hx, hun⟩ := hun
  obtain ⟨x', hM, h⟩ := collocation_spec hc
  obtain ⟨order, ho, -, hex⟩ := C28_quadrature_order_unmoved (by norm_num) c hc x hx (fun i => by rw [hun]; ring)
  have hmono := h.strictMono (by norm_num)
  obtain ⟨-, hr, hl, hrr⟩ := C24_collocation_nodes (by norm_num) c hc
  have hcard := order_le_of_ends (by norm_num) hex
  rcases legendre_order c hc with ⟨hq, ho'⟩ | ⟨hq, ho'⟩ | ⟨hq, hM2, ho'⟩
  · rw [ho] at ho'; cases ho'
    exact ⟨quadUpper_of_exact hex (by omega), fun _ => quadUpper_of_exact hex (by omega), fun _ => hex⟩
  · rw [ho] at ho'; cases ho'
    refine ⟨quadUpper_of_exact hex (by omega), fun hq' => ?_, fun hq' => ?_⟩
    · have hq2 : qt = "RADAU-RIGHT" := by
        rcases hq' with rfl | rfl
        · simp at hq
        · rfl
      obtain ⟨i, hi⟩ := hrr (Or.inl hq2) (Or.inr (by norm_num))
      have : 0 < (Finset.univ.filter fun i => c.nodes i = 0 ∨ c.nodes i = 1).card :=
        Finset.card_pos.mpr ⟨i, Finset.mem_filter.mpr ⟨Finset.mem_univ _, Or.inr hi⟩⟩
      exact quadUpper_of_ends hmono.injective hr hex (by omega) ⟨i, hi⟩
    · subst hq'; simp at hq
  · rw [ho] at ho'; cases ho'
    obtain ⟨i, hi⟩ := hrr (Or.inr hq) (Or.inr (by norm_num))
    obtain ⟨k, hk⟩ := hl (Or.inr hq)
    have : ({i, k} : Finset (Fin M)).card ≤
        (Finset.univ.filter fun i => c.nodes i = 0 ∨ c.nodes i = 1).card := by
      refine Finset.card_le_card fun l hl => ?_
      simp only [Finset.mem_insert, Finset.mem_singleton] at hl
      simp only [Finset.mem_filter, Finset.mem_univ, true_and]
      rcases hl with rfl | rfl
      · exact Or.inr hi
      · exact Or.inl hk
    rw [Finset.card_pair (fun e => by subst e; rw [hi] at hk; norm_num at hk)] at this
    refine ⟨quadUpper_of_ends hmono.injective hr hex (by omega) ⟨i, hi⟩, fun hq' => ?_, fun hq' => ?_⟩
    · subst hq; simp at hq'
    · subst hq'; simp at hq

/-- C71 (weights): the weights of a `LEGENDRE` collocation are positive. -/
theorem C71_weights_pos {M : ℕ} {qt : String} (c : Collocation M)
    (hc : Collocation.new M "LEGENDRE" qt 0 1 = .ok c) (hun : Unmoved "LEGENDRE" qt c) (i : Fin M) :
    0 < c.weights i := by
  obtain ⟨x', hM, h⟩ := collocation_spec hc
  exact weights_pos_of_quadUpper (h.strictMono (by norm_num)).injective (legendre_quadUpper c hc hun).1 i

/-- The stage system is regular in the left half plane. -/
theorem legendre_det {M : ℕ} {qt : String} (c : Collocation M)
    (hc : Collocation.new M "LEGENDRE" qt 0 1 = .ok c) (hun : Unmoved "LEGENDRE" qt c) {z : ℂ} (hz : z.re ≤ 0) :
    (1 - z • c.Q.map Complex.ofReal).det ≠ 0 := by
  obtain ⟨x', hM, h⟩ := collocation_spec hc
  obtain ⟨-, hr, -, -⟩ := C24_collocation_nodes (by norm_num) c hc
  intro hdet
  obtain ⟨Y, hY0, hY⟩ := Matrix.exists_mulVec_eq_zero_iff.mpr hdet
  refine hY0 ?_
  have hYi : ∀ i, Y i = 0 + z * ∑ j, (c.Q i j : ℂ) * Y j := fun i => by
    have := congrFun hY i
    rw [Matrix.sub_mulVec, Matrix.one_mulVec, Matrix.smul_mulVec, Pi.sub_apply, Pi.smul_apply, Pi.zero_apply,
      sub_eq_zero] at this
    rw [zero_add, this]
    rfl
  obtain ⟨U, V, hU, hV, hU0, hV0, hUY, hVY, hUd, hVd, -, -⟩ := stage_polys (h.strictMono (by norm_num)).injective
    (h.Q_exact (by norm_num)) (h.weights_exact (by norm_num)) z 0 Y hYi
  obtain ⟨rfl, rfl⟩ := collocation_kernel hM (fun i => (hr i).1) (fun i => (C71_weights_pos c hc hun i).le)
    (legendre_quadUpper c hc hun).1 hU hV (by simpa using hU0) (by simpa using hV0) hz hUd hVd
  funext i
  apply Complex.ext
  · rw [← hUY]; simp
  · rw [← hVY]; simp

/-- C71: with `LEGENDRE` nodes `solveDahlquist` never raises for a decaying or oscillating equation, however stiff
and whatever the number of steps. -/
theorem C71_solvable {M : ℕ} {qt : String} (c : Collocation M)
    (hc : Collocation.new M "LEGENDRE" qt 0 1 = .ok c) (hun : Unmoved "LEGENDRE" qt c)
    (lam u0 : ℂ) (tEnd : ℝ) (hlam : lam.re * tEnd ≤ 0) (n : ℕ) (hn : 0 < n) :
    ∃ u, c.toQGenerator.solveDahlquist lam u0 tEnd n = .ok u ∧ u.length = n + 1 := by
  refine ⟨_, C30_solveDahlquist c.toQGenerator lam u0 tEnd n hn (legendre_det c hc hun ?_), by simp⟩
  have hn' : (0:ℝ) < n := by exact_mod_cast hn
  rw [Complex.mul_re, Complex.ofReal_re, Complex.ofReal_im, mul_zero, sub_zero, ← mul_div_assoc]
  exact div_nonpos_of_nonpos_of_nonneg hlam hn'.le

/-- Instance: seven Gauss nodes, a stiff oscillation. -/
example : ∃ (c : Collocation 7) (u : List ℂ), Collocation.new 7 "LEGENDRE" "GAUSS" 0 1 = .ok c ∧
    c.toQGenerator.solveDahlquist (-1000 + 7 * Complex.I) 1 3 (5 : ℕ) = .ok u ∧ u.length = 6 := by
  obtain ⟨c, hc⟩ := collocation_new_ok (M := 7) (nt := "LEGENDRE") (qt := "GAUSS") (by decide)
    (by decide) ⟨by norm_num, fun h => by simp at h⟩ 0 1
  obtain ⟨u, h⟩ := C71_solvable c hc (unmoved_small (by norm_num) c hc) (-1000 + 7 * Complex.I) 1 3 (by simp) 5
    (by norm_num)
  exact ⟨c, u, hc, h⟩

/-- The stability function as the end value of the collocation polynomial. -/
theorem collocation_stage {M : ℕ} {nt qt : String} (c : Collocation M)
    (hc : Collocation.new M nt qt 0 1 = .ok c) {z : ℂ}
    (hdet : (1 - z • c.Q.map Complex.ofReal).det ≠ 0) :
    ∃ U V : ℝ[X], U.natDegree ≤ M ∧ V.natDegree ≤ M ∧ U.eval 0 = 1 ∧ V.eval 0 = 0 ∧
      (∀ i, (derivative U).eval (c.nodes i) = z.re * U.eval (c.nodes i) - z.im * V.eval (c.nodes i)) ∧
      (∀ i, (derivative V).eval (c.nodes i) = z.re * V.eval (c.nodes i) + z.im * U.eval (c.nodes i)) ∧
      U.eval 1 = (stabilityFunction c.Q c.weights z).re ∧ V.eval 1 = (stabilityFunction c.Q c.weights z).im := by
  obtain ⟨x', hM, h⟩ := collocation_spec hc
  set Y := (1 - z • c.Q.map Complex.ofReal)⁻¹ *ᵥ fun _ => (1:ℂ) with hY
  have hY1 : (1 - z • c.Q.map Complex.ofReal) *ᵥ Y = fun _ => 1 := by
    rw [hY, Matrix.mulVec_mulVec, Matrix.mul_nonsing_inv _ (isUnit_iff_ne_zero.mpr hdet), Matrix.one_mulVec]
  have hYi : ∀ i, Y i = 1 + z * ∑ j, (c.Q i j : ℂ) * Y j := fun i => by
    have := congrFun hY1 i
    rw [Matrix.sub_mulVec, Matrix.one_mulVec, Matrix.smul_mulVec, Pi.sub_apply, Pi.smul_apply,
      sub_eq_iff_eq_add] at this
    rw [this]
    rfl
  obtain ⟨U, V, hU, hV, hU0, hV0, -, -, hUd, hVd, hU1, hV1⟩ := stage_polys (h.strictMono (by norm_num)).injective
    (h.Q_exact (by norm_num)) (h.weights_exact (by norm_num)) z 1 Y hYi
  exact ⟨U, V, hU, hV, by simpa using hU0, by simpa using hV0, hUd, hVd, hU1, hV1⟩

theorem norm_sq_parts (z : ℂ) : z.re ^ 2 + z.im ^ 2 = ‖z‖ ^ 2 := by
  rw [← Complex.normSq_eq_norm_sq, Complex.normSq_apply]
  ring

/-- The node polynomial of a collocation is orthogonal to low degrees. -/
theorem lobatto_nodal {M : ℕ} (c : Collocation M) (hc : Collocation.new M "LEGENDRE" "LOBATTO" 0 1 = .ok c)
    (q : ℝ[X]) (hq : q.degree < (M - 2 : ℕ)) : polyInt (q * Lagrange.nodal Finset.univ c.nodes) 0 1 = 0 := by
  obtain ⟨order, ho, -, hex⟩ := C28_quadrature_order_lobatto (by norm_num) c hc
  have ho' : c.order = some (2 * M - 2) ∧ 2 ≤ M := by
    rcases legendre_order c hc with h | h | h
    · simp at h
    · simp at h
    · exact ⟨h.2.2, h.2.1⟩
  rw [ho'.1] at ho
  cases ho
  have hN : (Lagrange.nodal Finset.univ c.nodes).degree ≤ M := by rw [Lagrange.degree_nodal]; simp
  rw [mul_comm]
  have := hex (Lagrange.nodal Finset.univ c.nodes * q) (by
    have := degree_mul_lt hN hq
    rwa [show M + (M - 2) = 2 * M - 2 by omega] at this)
  rw [polyInt, ← this]
  refine Finset.sum_eq_zero fun j _ => ?_
  rw [eval_mul, Lagrange.eval_nodal_at_node (Finset.mem_univ j)]
  ring

/-- A-stability. -/
theorem legendre_astable {M : ℕ} {qt : String} (hqt : qt ≠ "RADAU-LEFT") (c : Collocation M)
    (hc : Collocation.new M "LEGENDRE" qt 0 1 = .ok c) (hun : Unmoved "LEGENDRE" qt c) {z : ℂ} (hz : z.re ≤ 0) :
    ‖stabilityFunction c.Q c.weights z‖ ≤ 1 := by
  obtain ⟨x', hM, h⟩ := collocation_spec hc
  obtain ⟨U, V, hU, hV, hU0, hV0, hUd, hVd, hU1, hV1⟩ := collocation_stage c hc (legendre_det c hc hun hz)
  obtain ⟨hup2, hup1, -⟩ := legendre_quadUpper c hc hun
  have hle : U.eval 1 ^ 2 + V.eval 1 ^ 2 ≤ U.eval 0 ^ 2 + V.eval 0 ^ 2 := by
    have hq := h.hqt
    simp only [QUAD_TYPES, List.mem_cons, List.not_mem_nil, or_false] at hq
    rcases hq with rfl | rfl | rfl | rfl
    · exact collocation_contractive hM (fun i => (C71_weights_pos c hc hun i).le) (hup1 (Or.inl rfl)) hU hV hz hUd hVd
    · exact absurd rfl hqt
    · exact collocation_contractive hM (fun i => (C71_weights_pos c hc hun i).le) (hup1 (Or.inr rfl)) hU hV hz hUd hVd
    · have hM2 : 2 ≤ M := (validSize_of_getNodes h.getNodes).2 (Or.inl rfl)
      obtain ⟨-, hr, hl, hrr⟩ := C24_collocation_nodes (by norm_num) c hc
      obtain ⟨i, hi⟩ := hrr (Or.inr rfl) (Or.inr (by norm_num))
      obtain ⟨k, hk⟩ := hl (Or.inr rfl)
      by_cases hz0 : z.re = 0 ∧ z.im = 0
      · have hz' : z = 0 := Complex.ext hz0.1 hz0.2
        subst hz'
        simp only [stabilityFunction, zero_mul, add_zero, Complex.one_re, Complex.one_im] at hU1 hV1
        rw [hU1, hV1, hU0, hV0]
      · refine collocation_contractive_lobatto hM2 (h.strictMono (by norm_num)).injective ?_ ?_
          (lobatto_nodal c hc) hU hV hz (by tauto) hUd hVd
        · have := Lagrange.eval_nodal_at_node (v := c.nodes) (Finset.mem_univ k)
          rwa [hk] at this
        · have := Lagrange.eval_nodal_at_node (v := c.nodes) (Finset.mem_univ i)
          rwa [hi] at this
  rw [hU1, hV1, hU0, hV0, norm_sq_parts] at hle
  have := norm_nonneg (stabilityFunction c.Q c.weights z)
  nlinarith

/-- Gauss methods conserve the norm on the imaginary axis. -/
theorem gauss_conservative {M : ℕ} (c : Collocation M)
    (hc : Collocation.new M "LEGENDRE" "GAUSS" 0 1 = .ok c) (hun : Unmoved "LEGENDRE" "GAUSS" c) {z : ℂ}
    (hz : z.re = 0) : ‖stabilityFunction c.Q c.weights z‖ = 1 := by
  obtain ⟨x', hM, h⟩ := collocation_spec hc
  obtain ⟨U, V, hU, hV, hU0, hV0, hUd, hVd, hU1, hV1⟩ := collocation_stage c hc (legendre_det c hc hun hz.le)
  rw [hz] at hUd hVd
  have := collocation_conservative hM ((legendre_quadUpper c hc hun).2.2 rfl) hU hV hUd hVd
  rw [hU1, hV1, hU0, hV0, norm_sq_parts] at this
  have h0 := norm_nonneg (stabilityFunction c.Q c.weights z)
  nlinarith

/-- C72: the solutions of `solveDahlquist` with `GAUSS`, `RADAU-RIGHT` or `LOBATTO` `LEGENDRE` nodes never grow for
`Re(lam tEnd) ≤ 0`, with any number of steps. -/
theorem C72_contractive {M : ℕ} {qt : String} (hqt : qt ≠ "RADAU-LEFT") (c : Collocation M)
    (hc : Collocation.new M "LEGENDRE" qt 0 1 = .ok c) (hun : Unmoved "LEGENDRE" qt c)
    (lam u0 : ℂ) (tEnd : ℝ) (hlam : lam.re * tEnd ≤ 0) (n : ℕ) (hn : 0 < n) :
    ∃ u : List ℂ, c.toQGenerator.solveDahlquist lam u0 tEnd n = .ok u ∧ u.head? = some u0 ∧
      u.Pairwise fun a b => ‖b‖ ≤ ‖a‖ := by
  have hn' : (0:ℝ) < n := by exact_mod_cast hn
  have hre : (lam * (tEnd / n : ℝ)).re ≤ 0 := by
    rw [Complex.mul_re, Complex.ofReal_re, Complex.ofReal_im, mul_zero, sub_zero, ← mul_div_assoc]
    exact div_nonpos_of_nonpos_of_nonneg hlam hn'.le
  refine ⟨_, C30_solveDahlquist c.toQGenerator lam u0 tEnd n hn (legendre_det c hc hun hre), ?_, ?_⟩
  · simp [List.range_succ_eq_map]
  · rw [List.pairwise_map]
    refine (List.pairwise_lt_range).imp fun {i j} hij => ?_
    have h1 := legendre_astable hqt c hc hun hre
    rw [norm_mul, norm_mul, norm_pow, norm_pow]
    exact mul_le_mul_of_nonneg_right (pow_le_pow_of_le_one (norm_nonneg _) h1 hij.le) (norm_nonneg _)

/-- C72, `GAUSS`: for purely imaginary `lam` all values have the same modulus. -/
theorem C72_gauss_conserves {M : ℕ} (c : Collocation M)
    (hc : Collocation.new M "LEGENDRE" "GAUSS" 0 1 = .ok c) (hun : Unmoved "LEGENDRE" "GAUSS" c)
    (lam u0 : ℂ) (tEnd : ℝ) (hlam : lam.re = 0) (n : ℕ) (hn : 0 < n) :
    ∃ u : List ℂ, c.toQGenerator.solveDahlquist lam u0 tEnd n = .ok u ∧ u.length = n + 1 ∧ ∀ v ∈ u, ‖v‖ = ‖u0‖ := by
  have hre : (lam * (tEnd / n : ℝ)).re = 0 := by
    rw [Complex.mul_re, Complex.ofReal_re, Complex.ofReal_im, mul_zero, sub_zero, hlam, zero_mul]
  refine ⟨_, C30_solveDahlquist c.toQGenerator lam u0 tEnd n hn (legendre_det c hc hun hre.le), by simp, ?_⟩
  intro v hv
  obtain ⟨k, -, rfl⟩ := List.mem_map.mp hv
  have : ‖stabilityFunction c.toQGenerator.Q c.toQGenerator.weights (lam * (tEnd / n : ℝ))‖ = 1 :=
    gauss_conservative c hc hun hre
  rw [norm_mul, norm_pow, this, one_pow, one_mul]

/-- The hypotheses are met: seven Gauss nodes, a stiff equation. -/
example : ∃ c : Collocation 7, Collocation.new 7 "LEGENDRE" "GAUSS" 0 1 = .ok c ∧ Unmoved "LEGENDRE" "GAUSS" c ∧
    ∃ u : List ℂ, c.toQGenerator.solveDahlquist (-1000 + 7 * Complex.I) 1 3 5 = .ok u ∧
      u.Pairwise fun a b => ‖b‖ ≤ ‖a‖ := by
  obtain ⟨c, hc⟩ := collocation_new_ok (M := 7) (nt := "LEGENDRE") (qt := "GAUSS") (by decide)
    (by decide) ⟨by norm_num, fun h => by simp at h⟩ 0 1
  have hun := unmoved_small (by norm_num) c hc
  obtain ⟨u, h1, -, h2⟩ := C72_contractive (by decide) c hc hun (-1000 + 7 * Complex.I) 1 3 (by simp) 5 (by norm_num)
  exact ⟨c, hc, hun, u, h1, h2⟩

end QMat
