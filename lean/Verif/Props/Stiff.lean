import Verif.Lemmas.Stiff
import Verif.Props.AStable

/-!
# C73: collocation in the stiff limit
-/

namespace QMat

open Polynomial Spec NodesGenerator Matrix

section limits

variable {M : ℕ} {nt qt : String} (c : Collocation M)

/-- The stage system is regular unless the sum at the left end vanishes. -/
theorem stiff_det (hc : Collocation.new M nt qt 0 1 = .ok c) {z : ℂ} (hz : z ≠ 0)
    (h0 : stiffSum c.nodes 0 z⁻¹ ≠ 0) : (1 - z • c.Q.map Complex.ofReal).det ≠ 0 := by
  obtain ⟨x', hM, h⟩ := collocation_spec hc
  intro hdet
  obtain ⟨Y, hY0, hY⟩ := Matrix.exists_mulVec_eq_zero_iff.mpr hdet
  refine hY0 ?_
  have hYi : ∀ i, Y i = 0 + z * ∑ j, (c.Q i j : ℂ) * Y j := fun i => by
    have := congrFun hY i
    rw [Matrix.sub_mulVec, Matrix.one_mulVec, Matrix.smul_mulVec, Pi.sub_apply, Pi.smul_apply, Pi.zero_apply,
      sub_eq_zero] at this
    rw [zero_add, this]
    rfl
  obtain ⟨U, V, hU, hV, hU0, hV0, hUY, hVY, hUd, hVd, -, -⟩ := stage_polys (h.strictMono (by norm_num)).injective
    (h.Q_exact (by norm_num)) (h.weights_exact (by norm_num)) z 0 Y hYi
  obtain ⟨a, ha⟩ := collocation_stiff (h.strictMono (by norm_num)).injective hz hU hV hUd hVd
  have ha0 : a = 0 := by
    have := ha 0
    rw [hU0, hV0] at this
    exact (mul_eq_zero.mp this.symm).resolve_right h0
  funext i
  have := ha (c.nodes i)
  rw [ha0, zero_mul, hUY, hVY] at this
  exact this

/-- The stability function as a quotient of the two sums. -/
theorem stiff_value (hc : Collocation.new M nt qt 0 1 = .ok c) {z : ℂ} (hz : z ≠ 0)
    (hdet : (1 - z • c.Q.map Complex.ofReal).det ≠ 0) :
    stabilityFunction c.Q c.weights z * stiffSum c.nodes 0 z⁻¹ = stiffSum c.nodes 1 z⁻¹ := by
  obtain ⟨x', hM, h⟩ := collocation_spec hc
  obtain ⟨U, V, hU, hV, hU0, hV0, hUd, hVd, hU1, hV1⟩ := collocation_stage c hc hdet
  obtain ⟨a, ha⟩ := collocation_stiff (h.strictMono (by norm_num)).injective hz hU hV hUd hVd
  have h0 := ha 0
  have h1 := ha 1
  rw [hU0, hV0] at h0
  rw [hU1, hV1] at h1
  have h0' : (1:ℂ) = a * stiffSum c.nodes 0 z⁻¹ := h0
  have h1' : stabilityFunction c.Q c.weights z = a * stiffSum c.nodes 1 z⁻¹ := h1
  rw [h1']
  linear_combination (-stiffSum c.nodes 1 z⁻¹) * h0'

/-- `∑ sᵏ ω⁽ᵏ⁺¹⁾(t)`. -/
noncomputable def stiffSum1 (x : Fin M → ℝ) (t : ℝ) (s : ℂ) : ℂ :=
  ∑ k ∈ Finset.range M, s ^ k * (((derivative^[k + 1] (Lagrange.nodal Finset.univ x)).eval t : ℝ) : ℂ)

theorem stiffSum1_continuous (x : Fin M → ℝ) (t : ℝ) : Continuous (stiffSum1 x t) := by
  unfold stiffSum1
  fun_prop

theorem stiffSum1_zero (hM : 0 < M) (x : Fin M → ℝ) (t : ℝ) :
    stiffSum1 x t 0 = (((derivative (Lagrange.nodal Finset.univ x)).eval t : ℝ) : ℂ) := by
  unfold stiffSum1
  rw [Finset.sum_eq_single 0]
  · simp
  · intro k _ hk; simp [hk]
  · intro h; simp at h; omega

theorem stiffSum_split (x : Fin M → ℝ) (t : ℝ) (s : ℂ) :
    stiffSum x t s = (((Lagrange.nodal Finset.univ x).eval t : ℝ) : ℂ) + s * stiffSum1 x t s := by
  unfold stiffSum stiffSum1
  rw [Finset.sum_range_succ', Finset.mul_sum, add_comm]
  congr 1
  · simp
  · exact Finset.sum_congr rfl fun k _ => by ring

/-- A continuous quotient near infinity. -/
theorem quotient_near {f g : ℂ → ℂ} (hf : Continuous f) (hg : Continuous g) (h0 : f 0 ≠ 0) {ε : ℝ} (hε : 0 < ε) :
    ∃ B : ℝ, 0 < B ∧ ∀ z : ℂ, B ≤ ‖z‖ → f z⁻¹ ≠ 0 ∧ ‖g z⁻¹ / f z⁻¹ - g 0 / f 0‖ ≤ ε := by
  have h1 : ∀ᶠ s in nhds (0:ℂ), f s ≠ 0 := hf.continuousAt.eventually_ne h0
  have h2 : ∀ᶠ s in nhds (0:ℂ), dist (g s / f s) (g 0 / f 0) < ε :=
    Metric.tendsto_nhds.mp (hg.continuousAt.div hf.continuousAt h0) ε hε
  obtain ⟨δ, hδ, h⟩ := Metric.eventually_nhds_iff.mp (h1.and h2)
  refine ⟨2 / δ, by positivity, fun z hz => ?_⟩
  have : dist z⁻¹ 0 < δ := by
    rw [dist_zero_right, norm_inv]
    have hz0 : 0 < ‖z‖ := lt_of_lt_of_le (by positivity) hz
    rw [inv_lt_comm₀ hz0 hδ]
    refine lt_of_lt_of_le ?_ hz
    rw [inv_eq_one_div]
    gcongr
    norm_num
  exact ⟨(h this).1, by rw [← dist_eq_norm]; exact (h this).2.le⟩

/-- The limit without a node at the left end. -/
theorem coll_stiff_limit (hc : Collocation.new M nt qt 0 1 = .ok c) (h0 : ∀ i, c.nodes i ≠ 0) {ε : ℝ} (hε : 0 < ε) :
    ∃ B : ℝ, 0 < B ∧ ∀ z : ℂ, B ≤ ‖z‖ → (1 - z • c.Q.map Complex.ofReal).det ≠ 0 ∧
      ‖stabilityFunction c.Q c.weights z - ((∏ i, (1 - 1 / c.nodes i) : ℝ) : ℂ)‖ ≤ ε := by
  have hw : ∀ t, (Lagrange.nodal Finset.univ c.nodes).eval t = ∏ i, (t - c.nodes i) := fun t => by
    rw [Lagrange.eval_nodal]
  have hne : (Lagrange.nodal Finset.univ c.nodes).eval 0 ≠ 0 := by
    rw [hw]; exact Finset.prod_ne_zero_iff.mpr fun i _ => by simpa using h0 i
  obtain ⟨B, hB, h⟩ := quotient_near (stiffSum_continuous c.nodes 0) (stiffSum_continuous c.nodes 1)
    (by rw [stiffSum_zero]; exact_mod_cast hne) hε
  refine ⟨B, hB, fun z hz => ?_⟩
  have hz0 : z ≠ 0 := fun e => by rw [e, norm_zero] at hz; linarith
  obtain ⟨hf, hd⟩ := h z hz
  have hdet := stiff_det c hc hz0 hf
  refine ⟨hdet, ?_⟩
  rw [eq_div_of_mul_eq hf (stiff_value c hc hz0 hdet)]
  convert hd using 3
  rw [stiffSum_zero, stiffSum_zero, ← Complex.ofReal_div, hw, hw, ← Finset.prod_div_distrib]
  congr 1
  refine Finset.prod_congr rfl fun i _ => ?_
  have := h0 i
  field_simp
  ring

theorem nodal_derivative_ne (hinj : Function.Injective c.nodes) (k : Fin M) :
    (derivative (Lagrange.nodal Finset.univ c.nodes)).eval (c.nodes k) ≠ 0 := by
  classical
  rw [Lagrange.eval_nodal_derivative_eval_node_eq (Finset.mem_univ k), Lagrange.eval_nodal]
  exact Finset.prod_ne_zero_iff.mpr fun i hi => sub_ne_zero.mpr fun e =>
    Finset.ne_of_mem_erase hi (hinj e.symm)

/-- The limit with nodes at both ends. -/
theorem coll_stiff_limit_both (hc : Collocation.new M nt qt 0 1 = .ok c) (h0 : ∃ i, c.nodes i = 0)
    (h1 : ∃ i, c.nodes i = 1) {ε : ℝ} (hε : 0 < ε) :
    ∃ B : ℝ, 0 < B ∧ ∀ z : ℂ, B ≤ ‖z‖ → (1 - z • c.Q.map Complex.ofReal).det ≠ 0 ∧
      ‖stabilityFunction c.Q c.weights z - (((derivative (Lagrange.nodal Finset.univ c.nodes)).eval 1 /
        (derivative (Lagrange.nodal Finset.univ c.nodes)).eval 0 : ℝ) : ℂ)‖ ≤ ε := by
  obtain ⟨x', hM, hS⟩ := collocation_spec hc
  obtain ⟨k, hk⟩ := h0
  obtain ⟨l, hl⟩ := h1
  have hd0 := nodal_derivative_ne c (hS.strictMono (by norm_num)).injective k
  rw [hk] at hd0
  have hw0 : (Lagrange.nodal Finset.univ c.nodes).eval 0 = 0 := by
    simpa only [hk] using Lagrange.eval_nodal_at_node (v := c.nodes) (Finset.mem_univ k)
  have hw1 : (Lagrange.nodal Finset.univ c.nodes).eval 1 = 0 := by
    rw [← hl]; exact Lagrange.eval_nodal_at_node (v := c.nodes) (Finset.mem_univ l)
  obtain ⟨B, hB, h⟩ := quotient_near (stiffSum1_continuous c.nodes 0) (stiffSum1_continuous c.nodes 1)
    (by rw [stiffSum1_zero hM]; exact_mod_cast hd0) hε
  refine ⟨B, hB, fun z hz => ?_⟩
  have hz0 : z ≠ 0 := fun e => by rw [e, norm_zero] at hz; linarith
  obtain ⟨hf, hd⟩ := h z hz
  have e0 := stiffSum_split c.nodes 0 z⁻¹
  have e1 := stiffSum_split c.nodes 1 z⁻¹
  rw [hw0, Complex.ofReal_zero, zero_add] at e0
  rw [hw1, Complex.ofReal_zero, zero_add] at e1
  have hdet := stiff_det c hc hz0 (by rw [e0]; exact mul_ne_zero (inv_ne_zero hz0) hf)
  refine ⟨hdet, ?_⟩
  have hv := stiff_value c hc hz0 hdet
  rw [e0, e1, mul_left_comm] at hv
  rw [eq_div_of_mul_eq hf (mul_left_cancel₀ (inv_ne_zero hz0) hv)]
  convert hd using 3
  rw [stiffSum1_zero hM, stiffSum1_zero hM, ← Complex.ofReal_div]

/-- With a node at the left end only, the stability function is unbounded. -/
theorem stiff_unbounded (hc : Collocation.new M nt qt 0 1 = .ok c) (h0 : ∃ i, c.nodes i = 0)
    (h1 : ∀ i, c.nodes i ≠ 1) (K : ℝ) :
    ∃ B : ℝ, 0 < B ∧ ∀ z : ℂ, B ≤ ‖z‖ → (1 - z • c.Q.map Complex.ofReal).det ≠ 0 ∧
      K ≤ ‖stabilityFunction c.Q c.weights z‖ := by
  obtain ⟨x', hM, hS⟩ := collocation_spec hc
  obtain ⟨k, hk⟩ := h0
  have hd0 := nodal_derivative_ne c (hS.strictMono (by norm_num)).injective k
  rw [hk] at hd0
  have hw0 : (Lagrange.nodal Finset.univ c.nodes).eval 0 = 0 := by
    simpa only [hk] using Lagrange.eval_nodal_at_node (v := c.nodes) (Finset.mem_univ k)
  have hw1 : (Lagrange.nodal Finset.univ c.nodes).eval 1 ≠ 0 := by
    rw [Lagrange.eval_nodal]
    exact Finset.prod_ne_zero_iff.mpr fun i _ => sub_ne_zero.mpr (h1 i).symm
  have hf0 : stiffSum1 c.nodes 0 0 ≠ 0 := by rw [stiffSum1_zero hM]; exact_mod_cast hd0
  have hg0 : stiffSum c.nodes 1 0 ≠ 0 := by rw [stiffSum_zero]; exact_mod_cast hw1
  set L := ‖stiffSum c.nodes 1 0 / stiffSum1 c.nodes 0 0‖ with hL
  have hL0 : 0 < L := norm_pos_iff.mpr (div_ne_zero hg0 hf0)
  obtain ⟨B, hB, h⟩ := quotient_near (stiffSum1_continuous c.nodes 0) (stiffSum_continuous c.nodes 1)
    hf0 (half_pos hL0)
  refine ⟨max B (2 * K / L), lt_max_of_lt_left hB, fun z hz => ?_⟩
  have hzB := (le_max_left _ _).trans hz
  have hz0 : z ≠ 0 := fun e => by rw [e, norm_zero] at hzB; linarith
  obtain ⟨hf, hd⟩ := h z hzB
  have e0 := stiffSum_split c.nodes 0 z⁻¹
  rw [hw0, Complex.ofReal_zero, zero_add] at e0
  have hne : stiffSum c.nodes 0 z⁻¹ ≠ 0 := by rw [e0]; exact mul_ne_zero (inv_ne_zero hz0) hf
  have hdet := stiff_det c hc hz0 hne
  refine ⟨hdet, ?_⟩
  have hv := eq_div_of_mul_eq hne (stiff_value c hc hz0 hdet)
  rw [hv, e0, div_mul_eq_div_div_swap, div_inv_eq_mul, norm_mul]
  have hq : L / 2 ≤ ‖stiffSum c.nodes 1 z⁻¹ / stiffSum1 c.nodes 0 z⁻¹‖ := by
    have := norm_sub_norm_le (stiffSum c.nodes 1 0 / stiffSum1 c.nodes 0 0)
      (stiffSum c.nodes 1 z⁻¹ / stiffSum1 c.nodes 0 z⁻¹)
    rw [norm_sub_rev] at this
    linarith
  have hKz : 2 * K / L ≤ ‖z‖ := (le_max_right _ _).trans hz
  rw [div_le_iff₀ hL0] at hKz
  have := mul_le_mul_of_nonneg_right hq (norm_nonneg z)
  linarith

/-- One step multiplies by the stability function. -/
theorem dahlquist_steps (g : QGenerator M) (lam u0 : ℂ) (tEnd : ℝ) (n : ℕ) (hn : 0 < n)
    (hdet : (1 - (lam * (tEnd / n : ℝ)) • g.Q.map Complex.ofReal).det ≠ 0) :
    ∃ u : List ℂ, g.solveDahlquist lam u0 tEnd n = .ok u ∧ u.length = n + 1 ∧ u.head? = some u0 ∧
      ∀ (k : ℕ) (v v' : ℂ), u[k]? = some v → u[k + 1]? = some v' →
        v' = stabilityFunction g.Q g.weights (lam * (tEnd / n : ℝ)) * v := by
  refine ⟨_, C30_solveDahlquist g lam u0 tEnd n hn hdet, by simp, by simp [List.range_succ_eq_map], ?_⟩
  intro k v v' hv hv'
  have hlen : k + 1 < n + 1 := by
    by_contra hk
    rw [List.getElem?_eq_none (by simp; omega)] at hv'
    cases hv'
  rw [List.getElem?_map, List.getElem?_range (by omega)] at hv
  rw [List.getElem?_map, List.getElem?_range hlen] at hv'
  simp only [Option.map_some, Option.some.injEq] at hv hv'
  rw [← hv, ← hv', pow_succ]
  ring

end limits

/-- C73: whatever the node family, if no node sits at the left end then a stiff enough equation is solvable and each
step multiplies the solution by `∏ (1 - 1 / c_i)`, up to any accuracy. -/
theorem C73_stiff_limit {M : ℕ} {nt qt : String} (c : Collocation M)
    (hc : Collocation.new M nt qt 0 1 = .ok c) (h0 : ∀ i, c.nodes i ≠ 0) (ε : ℝ) (hε : 0 < ε) :
    ∃ B : ℝ, ∀ (lam u0 : ℂ) (tEnd : ℝ) (n : ℕ), 0 < n → B ≤ ‖lam * (tEnd / n : ℝ)‖ →
      ∃ u : List ℂ, c.toQGenerator.solveDahlquist lam u0 tEnd n = .ok u ∧ u.length = n + 1 ∧ u.head? = some u0 ∧
        ∀ (k : ℕ) (v v' : ℂ), u[k]? = some v → u[k + 1]? = some v' →
          ‖v' - ((∏ i, (1 - 1 / c.nodes i) : ℝ) : ℂ) * v‖ ≤ ε * ‖v‖ := by
  obtain ⟨B, -, h⟩ := coll_stiff_limit c hc h0 hε
  refine ⟨B, fun lam u0 tEnd n hn hB => ?_⟩
  obtain ⟨hdet, hR⟩ := h _ hB
  obtain ⟨u, h1, h2, h3, h4⟩ := dahlquist_steps c.toQGenerator lam u0 tEnd n hn hdet
  refine ⟨u, h1, h2, h3, fun k v v' hv hv' => ?_⟩
  rw [h4 k v v' hv hv', ← sub_mul, norm_mul]
  exact mul_le_mul_of_nonneg_right hR (norm_nonneg v)

/-- C73, `RADAU-RIGHT`: stiff components are damped to nothing in one step, for every node family. -/
theorem C73_radau_right {M : ℕ} {nt : String} (c : Collocation M)
    (hc : Collocation.new M nt "RADAU-RIGHT" 0 1 = .ok c) (h0 : ∀ i, c.nodes i ≠ 0) (ε : ℝ) (hε : 0 < ε) :
    ∃ B : ℝ, ∀ (lam u0 : ℂ) (tEnd : ℝ) (n : ℕ), 0 < n → B ≤ ‖lam * (tEnd / n : ℝ)‖ →
      ∃ u : List ℂ, c.toQGenerator.solveDahlquist lam u0 tEnd n = .ok u ∧ u.length = n + 1 ∧ u.head? = some u0 ∧
        ∀ (k : ℕ) (v v' : ℂ), u[k]? = some v → u[k + 1]? = some v' → ‖v'‖ ≤ ε * ‖v‖ := by
  obtain ⟨B, h⟩ := C73_stiff_limit c hc h0 ε hε
  obtain ⟨-, -, -, hrr⟩ := C24_collocation_nodes (by norm_num) c hc
  obtain ⟨i, hi⟩ := hrr (Or.inl rfl) (Or.inr (by norm_num))
  have hL : ∏ i, (1 - 1 / c.nodes i) = 0 := Finset.prod_eq_zero (Finset.mem_univ i) (by rw [hi]; norm_num)
  refine ⟨B, ?_⟩
  simpa only [hL, Complex.ofReal_zero, zero_mul, sub_zero] using h

/-- Symmetric nodes on `[0, 1]`. -/
theorem nodes_symmetric {M : ℕ} {nt qt : String} (hnt : nt ∈ ["LEGENDRE", "EQUID", "CHEBY-1", "CHEBY-2"])
    (hqt : qt ∈ ["GAUSS", "LOBATTO"]) (c : Collocation M) (hun : Unmoved nt qt c) (i : Fin M) :
    c.nodes i.rev = 1 - c.nodes i := by
  obtain ⟨x, hx, hn⟩ := hun
  rw [hn, hn, C20_symmetric hnt hqt x hx i]
  ring

/-- The node polynomial of symmetric nodes. -/
theorem nodal_symmetric {M : ℕ} {x : Fin M → ℝ} (hx : ∀ i, x i.rev = 1 - x i) (t : ℝ) :
    (Lagrange.nodal Finset.univ x).eval (1 - t) = (-1) ^ M * (Lagrange.nodal Finset.univ x).eval t := by
  rw [Lagrange.eval_nodal, Lagrange.eval_nodal, ← Equiv.prod_comp Fin.revPerm]
  have : ∀ i, (1 - t - x (Fin.revPerm i)) = -1 * (t - x i) := fun i => by
    rw [Fin.revPerm_apply, hx]; ring
  simp only [this]
  rw [Finset.prod_mul_distrib, Finset.prod_const, Finset.card_univ, Fintype.card_fin]

/-- C73, `GAUSS` on symmetric nodes: stiff components are not damped, they are multiplied by `(-1)^M`. -/
theorem C73_gauss {M : ℕ} {nt : String} (hnt : nt ∈ ["LEGENDRE", "EQUID", "CHEBY-1", "CHEBY-2"]) (c : Collocation M)
    (hc : Collocation.new M nt "GAUSS" 0 1 = .ok c) (hun : Unmoved nt "GAUSS" c)
    (h0 : ∀ i, c.nodes i ≠ 0) (ε : ℝ) (hε : 0 < ε) :
    ∃ B : ℝ, ∀ (lam u0 : ℂ) (tEnd : ℝ) (n : ℕ), 0 < n → B ≤ ‖lam * (tEnd / n : ℝ)‖ →
      ∃ u : List ℂ, c.toQGenerator.solveDahlquist lam u0 tEnd n = .ok u ∧ u.length = n + 1 ∧ u.head? = some u0 ∧
        ∀ (k : ℕ) (v v' : ℂ), u[k]? = some v → u[k + 1]? = some v' → ‖v' - (-1) ^ M * v‖ ≤ ε * ‖v‖ := by
  obtain ⟨B, h⟩ := C73_stiff_limit c hc h0 ε hε
  have hsym := nodes_symmetric hnt (by decide) c hun
  have hL : ∏ i, (1 - 1 / c.nodes i) = (-1) ^ M := by
    have h1 := nodal_symmetric hsym 0
    rw [Lagrange.eval_nodal, Lagrange.eval_nodal] at h1
    have hne : ∏ i, (0 - c.nodes i) ≠ 0 := Finset.prod_ne_zero_iff.mpr fun i _ => by simpa using h0 i
    have : ∏ i, (1 - 1 / c.nodes i) = (∏ i, (1 - 0 - c.nodes i)) / ∏ i, (0 - c.nodes i) := by
      rw [← Finset.prod_div_distrib]
      refine Finset.prod_congr rfl fun i _ => ?_
      have := h0 i
      field_simp
      ring
    rw [this, h1, mul_div_cancel_right₀ _ hne]
  refine ⟨B, ?_⟩
  simpa only [hL, Complex.ofReal_pow, Complex.ofReal_neg, Complex.ofReal_one] using h

/-- C73, `LOBATTO` on symmetric nodes: stiff components are multiplied by `(-1)^(M-1)`. -/
theorem C73_lobatto {M : ℕ} {nt : String} (hnt : nt ∈ ["LEGENDRE", "EQUID", "CHEBY-1", "CHEBY-2"])
    (c : Collocation M) (hc : Collocation.new M nt "LOBATTO" 0 1 = .ok c) (ε : ℝ) (hε : 0 < ε) :
    ∃ B : ℝ, ∀ (lam u0 : ℂ) (tEnd : ℝ) (n : ℕ), 0 < n → B ≤ ‖lam * (tEnd / n : ℝ)‖ →
      ∃ u : List ℂ, c.toQGenerator.solveDahlquist lam u0 tEnd n = .ok u ∧ u.length = n + 1 ∧ u.head? = some u0 ∧
        ∀ (k : ℕ) (v v' : ℂ), u[k]? = some v → u[k + 1]? = some v' → ‖v' - (-1) ^ (M - 1) * v‖ ≤ ε * ‖v‖ := by
  obtain ⟨x', hM, hS⟩ := collocation_spec hc
  obtain ⟨-, hr, hl, hrr⟩ := C24_collocation_nodes (by norm_num) c hc
  have e1 := hrr (Or.inr rfl) (Or.inr (by norm_num))
  have e0 := hl (Or.inr rfl)
  obtain ⟨B, -, h⟩ := coll_stiff_limit_both c hc e0 e1 hε
  have hsym := nodes_symmetric hnt (by decide) c (unmoved_lobatto c hc)
  set w := Lagrange.nodal Finset.univ c.nodes with hw
  have hL : (derivative w).eval 1 / (derivative w).eval 0 = (-1) ^ (M - 1) := by
    have hcomp : w.comp (1 - X) = C ((-1) ^ M) * w := Polynomial.funext fun t => by
      rw [eval_comp, eval_sub, eval_one, eval_X, eval_mul, eval_C]
      exact nodal_symmetric hsym t
    have hd := congrArg (fun p => (derivative p).eval 0) hcomp
    simp only [derivative_comp, derivative_sub, derivative_one, derivative_X, eval_mul, eval_comp, eval_sub, eval_one,
      eval_X, derivative_C_mul, eval_C, sub_zero, zero_sub, eval_neg] at hd
    obtain ⟨k, hk⟩ := e0
    have hne := nodal_derivative_ne c (hS.strictMono (by norm_num)).injective k
    rw [hk, ← hw] at hne
    rw [div_eq_iff hne]
    obtain ⟨m, rfl⟩ : ∃ m, M = m + 1 := ⟨M - 1, by omega⟩
    rw [pow_succ] at hd
    simp only [Nat.add_sub_cancel]
    linarith
  refine ⟨B, fun lam u0 tEnd n hn hB => ?_⟩
  obtain ⟨hdet, hR⟩ := h _ hB
  obtain ⟨u, h1, h2, h3, h4⟩ := dahlquist_steps c.toQGenerator lam u0 tEnd n hn hdet
  refine ⟨u, h1, h2, h3, fun k v v' hv hv' => ?_⟩
  rw [hL, Complex.ofReal_pow, Complex.ofReal_neg, Complex.ofReal_one] at hR
  rw [h4 k v v' hv hv', ← sub_mul, norm_mul]
  exact mul_le_mul_of_nonneg_right hR (norm_nonneg v)

/-- C73, `RADAU-LEFT`: stiff decaying equations blow up, by any factor per step (these methods are not A-stable). -/
theorem C73_radau_left_fails {M : ℕ} {nt : String} (c : Collocation M)
    (hc : Collocation.new M nt "RADAU-LEFT" 0 1 = .ok c) (h1 : ∀ i, c.nodes i ≠ 1) (K : ℝ) :
    ∃ B : ℝ, ∀ (lam u0 : ℂ) (tEnd : ℝ) (n : ℕ), 0 < n → B ≤ ‖lam * (tEnd / n : ℝ)‖ →
      ∃ u : List ℂ, c.toQGenerator.solveDahlquist lam u0 tEnd n = .ok u ∧ u.length = n + 1 ∧ u.head? = some u0 ∧
        ∀ (k : ℕ) (v v' : ℂ), u[k]? = some v → u[k + 1]? = some v' → K * ‖v‖ ≤ ‖v'‖ := by
  obtain ⟨-, -, hl, -⟩ := C24_collocation_nodes (by norm_num) c hc
  obtain ⟨B, -, h⟩ := stiff_unbounded c hc (hl (Or.inl rfl)) h1 K
  refine ⟨B, fun lam u0 tEnd n hn hB => ?_⟩
  obtain ⟨hdet, hR⟩ := h _ hB
  obtain ⟨u, h1, h2, h3, h4⟩ := dahlquist_steps c.toQGenerator lam u0 tEnd n hn hdet
  refine ⟨u, h1, h2, h3, fun k v v' hv hv' => ?_⟩
  rw [h4 k v v' hv hv', norm_mul]
  exact mul_le_mul_of_nonneg_right hR (norm_nonneg v)

/-- A node can sit at an end only if the quadrature type puts it there, for up to 158 `LEGENDRE` nodes. -/
theorem legendre_ends_small {M : ℕ} (hM : M ≤ 158) {qt : String} (c : Collocation M)
    (hc : Collocation.new M "LEGENDRE" qt 0 1 = .ok c) :
    (qt = "GAUSS" ∨ qt = "RADAU-RIGHT" → ∀ i, c.nodes i ≠ 0) ∧
    (qt = "GAUSS" ∨ qt = "RADAU-LEFT" → ∀ i, c.nodes i ≠ 1) := by
  classical
  obtain ⟨x, hx, hun⟩ := unmoved_small hM c hc
  obtain ⟨x', hM0, h⟩ := collocation_spec hc
  obtain ⟨order, ho, -, hex⟩ := C28_quadrature_order_unmoved (by norm_num) c hc x hx (fun i => by rw [hun]; ring)
  have hcard := order_le_of_ends (by norm_num) hex
  obtain ⟨-, -, hl, hrr⟩ := C24_collocation_nodes (by norm_num) c hc
  rcases legendre_order c hc with ⟨hq, ho'⟩ | ⟨hq, ho'⟩ | ⟨hq, hM2, ho'⟩
  · rw [ho] at ho'; cases ho'
    have : (Finset.univ.filter fun i => c.nodes i = 0 ∨ c.nodes i = 1).card = 0 := by omega
    rw [Finset.card_eq_zero, Finset.filter_eq_empty_iff] at this
    exact ⟨fun _ i hi => this (Finset.mem_univ i) (Or.inl hi), fun _ i hi => this (Finset.mem_univ i) (Or.inr hi)⟩
  · rw [ho] at ho'; cases ho'
    have hle : (Finset.univ.filter fun i => c.nodes i = 0 ∨ c.nodes i = 1).card ≤ 1 := by omega
    rw [Finset.card_le_one] at hle
    have key : ∀ i j, c.nodes i = 0 → c.nodes j = 1 → False := fun i j hi hj => by
      have := hle i (by simp [hi]) j (by simp [hj])
      subst this
      rw [hi] at hj; norm_num at hj
    constructor
    · rintro (rfl | rfl) i hi
      · simp at hq
      · obtain ⟨j, hj⟩ := hrr (Or.inl rfl) (Or.inr (by norm_num))
        exact key i j hi hj
    · rintro (rfl | rfl) i hi
      · simp at hq
      · obtain ⟨j, hj⟩ := hl (Or.inl rfl)
        exact key j i hj hi
  · subst hq
    exact ⟨fun h => by simp at h, fun h => by simp at h⟩

/-- The hypotheses are met: five nodes of each kind. -/
example : (∃ c : Collocation 5, Collocation.new 5 "LEGENDRE" "GAUSS" 0 1 = .ok c ∧ Unmoved "LEGENDRE" "GAUSS" c ∧
      ∀ i, c.nodes i ≠ 0) ∧
    (∃ c : Collocation 5, Collocation.new 5 "LEGENDRE" "RADAU-RIGHT" 0 1 = .ok c ∧ ∀ i, c.nodes i ≠ 0) ∧
    (∃ c : Collocation 5, Collocation.new 5 "CHEBY-1" "LOBATTO" 0 1 = .ok c) ∧
    (∃ c : Collocation 5, Collocation.new 5 "LEGENDRE" "RADAU-LEFT" 0 1 = .ok c ∧ ∀ i, c.nodes i ≠ 1) := by
  refine ⟨?_, ?_, ?_, ?_⟩
  · obtain ⟨c, hc⟩ := collocation_new_ok (M := 5) (nt := "LEGENDRE") (qt := "GAUSS") (by decide)
      (by decide) ⟨by norm_num, fun h => by simp at h⟩ 0 1
    exact ⟨c, hc, unmoved_small (by norm_num) c hc, (legendre_ends_small (by norm_num) c hc).1 (Or.inl rfl)⟩
  · obtain ⟨c, hc⟩ := collocation_new_ok (M := 5) (nt := "LEGENDRE") (qt := "RADAU-RIGHT") (by decide)
      (by decide) ⟨by norm_num, fun _ => by norm_num⟩ 0 1
    exact ⟨c, hc, (legendre_ends_small (by norm_num) c hc).1 (Or.inr rfl)⟩
  · exact collocation_new_ok (by decide) (by decide) ⟨by norm_num, fun _ => by norm_num⟩ 0 1
  · obtain ⟨c, hc⟩ := collocation_new_ok (M := 5) (nt := "LEGENDRE") (qt := "RADAU-LEFT") (by decide)
      (by decide) ⟨by norm_num, fun _ => by norm_num⟩ 0 1
    exact ⟨c, hc, (legendre_ends_small (by norm_num) c hc).2 (Or.inr rfl)⟩

/-- Instance of `C73_stiff_limit`, `C73_radau_right`: five nodes, the damping of very stiff components. -/
example : ∃ c : Collocation 5, Collocation.new 5 "LEGENDRE" "RADAU-RIGHT" 0 1 = .ok c ∧
    ∃ B : ℝ, ∀ lam : ℂ, B ≤ ‖lam * ((2 : ℝ) / (4 : ℕ) : ℝ)‖ →
      ∃ u : List ℂ, c.toQGenerator.solveDahlquist lam 1 2 (4 : ℕ) = .ok u ∧ u.length = 5 ∧
        ∀ (k : ℕ) (v v' : ℂ), u[k]? = some v → u[k + 1]? = some v' → ‖v'‖ ≤ 1 / 100 * ‖v‖ := by
  obtain ⟨c, hc⟩ := collocation_new_ok (M := 5) (nt := "LEGENDRE") (qt := "RADAU-RIGHT") (by decide)
    (by decide) ⟨by norm_num, fun _ => by norm_num⟩ 0 1
  have h0 := (legendre_ends_small (by norm_num) c hc).1 (Or.inr rfl)
  obtain ⟨B, -⟩ := C73_stiff_limit c hc h0 (1 / 100) (by norm_num)
  obtain ⟨B, h⟩ := C73_radau_right c hc h0 (1 / 100) (by norm_num)
  refine ⟨c, hc, B, fun lam hB => ?_⟩
  obtain ⟨u, h1, h2, -, h3⟩ := h lam 1 2 4 (by norm_num) hB
  exact ⟨u, h1, h2, h3⟩

/-- Instance of `C73_gauss`. -/
example : ∃ c : Collocation 5, Collocation.new 5 "LEGENDRE" "GAUSS" 0 1 = .ok c ∧
    ∃ B : ℝ, ∀ lam : ℂ, B ≤ ‖lam * ((2 : ℝ) / (4 : ℕ) : ℝ)‖ →
      ∃ u : List ℂ, c.toQGenerator.solveDahlquist lam 1 2 (4 : ℕ) = .ok u ∧ u.length = 5 ∧
        ∀ (k : ℕ) (v v' : ℂ), u[k]? = some v → u[k + 1]? = some v' → ‖v' - (-1) ^ 5 * v‖ ≤ 1 / 100 * ‖v‖ := by
  obtain ⟨c, hc⟩ := collocation_new_ok (M := 5) (nt := "LEGENDRE") (qt := "GAUSS") (by decide)
    (by decide) ⟨by norm_num, fun h => by simp at h⟩ 0 1
  obtain ⟨B, h⟩ := C73_gauss (by decide) c hc (unmoved_small (by norm_num) c hc)
    ((legendre_ends_small (by norm_num) c hc).1 (Or.inl rfl)) (1 / 100) (by norm_num)
  refine ⟨c, hc, B, fun lam hB => ?_⟩
  obtain ⟨u, h1, h2, -, h3⟩ := h lam 1 2 4 (by norm_num) hB
  exact ⟨u, h1, h2, h3⟩

/-- Instance of `C73_lobatto`. -/
example : ∃ c : Collocation 5, Collocation.new 5 "CHEBY-1" "LOBATTO" 0 1 = .ok c ∧
    ∃ B : ℝ, ∀ lam : ℂ, B ≤ ‖lam * ((2 : ℝ) / (4 : ℕ) : ℝ)‖ →
      ∃ u : List ℂ, c.toQGenerator.solveDahlquist lam 1 2 (4 : ℕ) = .ok u ∧ u.length = 5 ∧
        ∀ (k : ℕ) (v v' : ℂ), u[k]? = some v → u[k + 1]? = some v' → ‖v' - (-1) ^ 4 * v‖ ≤ 1 / 100 * ‖v‖ := by
  obtain ⟨c, hc⟩ := collocation_new_ok (M := 5) (nt := "CHEBY-1") (qt := "LOBATTO") (by decide)
    (by decide) ⟨by norm_num, fun _ => by norm_num⟩ 0 1
  obtain ⟨B, h⟩ := C73_lobatto (by decide) c hc (1 / 100) (by norm_num)
  refine ⟨c, hc, B, fun lam hB => ?_⟩
  obtain ⟨u, h1, h2, -, h3⟩ := h lam 1 2 4 (by norm_num) hB
  exact ⟨u, h1, h2, h3⟩

end QMat
