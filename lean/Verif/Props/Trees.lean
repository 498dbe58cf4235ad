import Verif.Lemmas.Trees
import Verif.Spec.SDCTrees
import Verif.Props.AStable
import Verif.Props.OrderSDC
import Verif.Lemmas.Butcher

/-!
# C76, C77: order conditions of collocation and of SDC on `u' = f(u)`
-/

namespace QMat

open Polynomial Spec NodesGenerator Matrix SDCRat

theorem polyInt_finsum (s : Finset ℕ) (g : ℕ → ℝ[X]) (a b : ℝ) :
    polyInt (∑ k ∈ s, g k) a b = ∑ k ∈ s, polyInt (g k) a b := by
  classical
  induction s using Finset.induction_on with
  | empty => simp [polyInt]
  | insert k s hk ih => rw [Finset.sum_insert hk, Finset.sum_insert hk, polyInt_add, ih]

/-! ## C76 -/

/-- Exactness on the monomials. -/
theorem quad_of_moments {M p : ℕ} {x w : Fin M → ℝ} (hX : ∀ k < p, ∑ j, w j * x j ^ k = 1 / (k + 1 : ℕ)) (q : ℝ[X])
    (hq : q.degree < p) : ∑ j, w j * q.eval (x j) = ∫ t in (0:ℝ)..1, q.eval t := by
  rw [degree_lt_iff_coeff_zero] at hq
  have hn : q.natDegree < p ∨ q = 0 := by
    by_cases h0 : q = 0
    · exact Or.inr h0
    · refine Or.inl ((natDegree_lt_iff_degree_lt h0).mpr (degree_lt_iff_coeff_zero _ _ |>.mpr hq))
  rcases hn with hn | rfl
  · change _ = polyInt q 0 1
    have e : q = ∑ k ∈ Finset.range p, C (q.coeff k) * X ^ k := by
      conv_lhs => rw [q.as_sum_range' p hn]
      exact Finset.sum_congr rfl fun k _ => (C_mul_X_pow_eq_monomial).symm
    have e1 : ∀ j, w j * q.eval (x j) =
        ∑ k ∈ Finset.range p, q.coeff k * (w j * x j ^ k) := by
      intro j
      conv_lhs => rw [e, eval_finsetSum, Finset.mul_sum]
      refine Finset.sum_congr rfl fun k _ => ?_
      rw [eval_mul, eval_C, eval_pow, eval_X]
      ring
    rw [Finset.sum_congr rfl fun j _ => e1 j, Finset.sum_comm]
    have e2 : polyInt q 0 1 = ∑ k ∈ Finset.range p, q.coeff k * (1 / (k + 1 : ℕ)) := by
      conv_lhs => rw [e]
      rw [polyInt_finsum]
      refine Finset.sum_congr rfl fun k hk => ?_
      rw [polyInt_C_mul, polyInt_X_pow]
      simp
    rw [e2]
    refine Finset.sum_congr rfl fun k hk => ?_
    rw [← Finset.mul_sum, hX k (Finset.mem_range.mp hk)]
  · simp

/-- C76: the coefficients of a collocation on `[0, 1]` satisfy the order conditions of all rooted trees with at most `p`
vertices if and only if the weights integrate all polynomials of degree less than `p` exactly. -/
theorem C76_trees_iff {M : ℕ} {nt qt : String} (c : Collocation M)
    (hc : Collocation.new M nt qt 0 1 = .ok c) (p : ℕ) :
    (∀ t : RTree, t.order ≤ p → t.elementaryWeight c.Q c.weights = 1 / t.density) ↔
      ∀ q : ℝ[X], q.degree < p → ∑ j, c.weights j * q.eval (c.nodes j) = ∫ t in (0:ℝ)..1, q.eval t := by
  obtain ⟨x, hM, h⟩ := collocation_spec hc
  constructor
  · intro ht q hq
    have hX : ∀ k < p, ∑ j, c.weights j * c.nodes j ^ k = 1 / (k + 1 : ℕ) := by
      intro k hk
      have := ht (bushy k) (by rw [bushy_order]; omega)
      rw [bushy_density, RTree.elementaryWeight, dotProduct] at this
      rw [← this]
      refine Finset.sum_congr rfl fun i _ => ?_
      rw [bushy_weight, collocation_Q_one c hc]
    exact quad_of_moments hX q hq
  · intro hex t ht
    exact collocation_treeOrder (h.strictMono (by norm_num)).injective (h.Q_exact (by norm_num)) hex t ht

/-- C76 with the value of `Collocation.order`, when no node was moved. -/
theorem C76_order {M : ℕ} {nt qt : String} (c : Collocation M)
    (hc : Collocation.new M nt qt 0 1 = .ok c) (hun : Unmoved nt qt c) :
    ∃ order, c.order = some order ∧ M ≤ order ∧
      ∀ t : RTree, t.order ≤ order → t.elementaryWeight c.Q c.weights = 1 / t.density := by
  obtain ⟨x, hx, hun⟩ := hun
  obtain ⟨order, ho, hle, hex⟩ := C28_quadrature_order_unmoved (by norm_num) c hc x hx (fun i => by rw [hun]; ring)
  exact ⟨order, ho, hle, (C76_trees_iff c hc order).mpr hex⟩

/-- C76 with the value of `Collocation.order`, up to 158 nodes. -/
theorem C76_order_small {M : ℕ} (hM : M ≤ 158) {nt qt : String} (c : Collocation M)
    (hc : Collocation.new M nt qt 0 1 = .ok c) :
    ∃ order, c.order = some order ∧ M ≤ order ∧
      ∀ t : RTree, t.order ≤ order → t.elementaryWeight c.Q c.weights = 1 / t.density := by
  have hw : Wide M 0 1 := by
    have : (M:ℝ) ≤ 158 := by exact_mod_cast hM
    have h0 : (0:ℝ) ≤ M := by positivity
    unfold Wide
    norm_num
    nlinarith
  obtain ⟨order, ho, hle, hex⟩ := C28_quadrature_order hw c hc
  exact ⟨order, ho, hle, (C76_trees_iff c hc order).mpr hex⟩

/-- C76, `LOBATTO`, any number of nodes. -/
theorem C76_order_lobatto {M : ℕ} {nt : String} (c : Collocation M)
    (hc : Collocation.new M nt "LOBATTO" 0 1 = .ok c) :
    ∃ order, c.order = some order ∧ M ≤ order ∧
      ∀ t : RTree, t.order ≤ order → t.elementaryWeight c.Q c.weights = 1 / t.density := by
  obtain ⟨order, ho, hle, hex⟩ := C28_quadrature_order_lobatto (by norm_num) c hc
  exact ⟨order, ho, hle, (C76_trees_iff c hc order).mpr hex⟩

/-- Instance: three Lobatto nodes. -/
example : ∃ (c : Collocation 3) (order : ℕ), Collocation.new 3 "LEGENDRE" "LOBATTO" 0 1 = .ok c ∧ c.order = some order ∧
    ∀ t : RTree, t.order ≤ order → t.elementaryWeight c.Q c.weights = 1 / t.density := by
  obtain ⟨c, hc⟩ := collocation_new_ok (M := 3) (nt := "LEGENDRE") (qt := "LOBATTO") (by decide)
    (by decide) ⟨by norm_num, fun _ => by norm_num⟩ 0 1
  obtain ⟨order, h, -, h'⟩ := C76_order_lobatto c hc
  exact ⟨c, order, hc, h, h'⟩

/-- C76, any number of nodes of any type: at least the number of nodes. -/
theorem C76_nodes {M : ℕ} {nt qt : String} (c : Collocation M) (hc : Collocation.new M nt qt 0 1 = .ok c)
    (t : RTree) (ht : t.order ≤ M) : t.elementaryWeight c.Q c.weights = 1 / t.density := by
  obtain ⟨x, hM, h⟩ := collocation_spec hc
  exact (C76_trees_iff c hc M).mpr (fun q hq => h.weights_exact (by norm_num) q hq) t ht

/-- Instance: the tall tree of order three with five equidistant nodes. -/
example : ∃ c : Collocation 5, Collocation.new 5 "EQUID" "GAUSS" 0 1 = .ok c ∧
    (RTree.leaf.graft (RTree.leaf.graft .leaf)).elementaryWeight c.Q c.weights =
      1 / (RTree.leaf.graft (RTree.leaf.graft .leaf)).density := by
  obtain ⟨c, hc⟩ := collocation_new_ok (M := 5) (nt := "EQUID") (qt := "GAUSS") (by decide)
    (by decide) ⟨by norm_num, fun h => by simp at h⟩ 0 1
  exact ⟨c, hc, C76_nodes c hc _ (by decide)⟩

/-- C76, never more than twice the number of nodes. -/
theorem C76_barrier {M : ℕ} {nt qt : String} (c : Collocation M) (hc : Collocation.new M nt qt 0 1 = .ok c) :
    ∃ t : RTree, t.order ≤ 2 * M + 1 ∧ t.elementaryWeight c.Q c.weights ≠ 1 / t.density := by
  by_contra hno
  push Not at hno
  have := quad_order_le ((C76_trees_iff c hc (2 * M + 1)).mp hno)
  omega

/-- Instance: three Lobatto nodes. -/
example : ∃ (c : Collocation 3) (t : RTree), Collocation.new 3 "LEGENDRE" "LOBATTO" 0 1 = .ok c ∧ t.order ≤ 7 ∧
    t.elementaryWeight c.Q c.weights ≠ 1 / t.density := by
  obtain ⟨c, hc⟩ := collocation_new_ok (M := 3) (nt := "LEGENDRE") (qt := "LOBATTO") (by decide)
    (by decide) ⟨by norm_num, fun _ => by norm_num⟩ 0 1
  obtain ⟨t, h⟩ := C76_barrier c hc
  exact ⟨c, t, hc, h⟩

/-- C76 for `LEGENDRE` nodes: `Collocation.order` is right for all rooted trees if and only if no node was moved (or the
returned order is the number of nodes). -/
theorem C76_legendre_iff {M : ℕ} {qt : String} (c : Collocation M)
    (hc : Collocation.new M "LEGENDRE" qt 0 1 = .ok c) (x : Fin M → ℝ) (hx : getNodes ⟨"LEGENDRE", qt⟩ M = .ok x) :
    ∃ order, c.order = some order ∧
      ((∀ t : RTree, t.order ≤ order → t.elementaryWeight c.Q c.weights = 1 / t.density) ↔
        order = M ∨ ∀ i, c.nodes i = (x i + 1) / 2) := by
  obtain ⟨order, ho, hiff⟩ := C28_order_iff (by norm_num) c hc x hx
  refine ⟨order, ho, ?_⟩
  rw [C76_trees_iff c hc order, hiff]
  simp

/-- C76, instance: three Gauss-Radau nodes satisfy the conditions of all trees with five
vertices, for example of the one whose root has two children with one child each. -/
example : ∃ c : Collocation 3, Collocation.new 3 "LEGENDRE" "RADAU-RIGHT" 0 1 = .ok c ∧ c.order = some 5 ∧
    ((RTree.leaf.graft (RTree.leaf.graft .leaf)).graft (RTree.leaf.graft .leaf)).elementaryWeight c.Q c.weights
      = 1 / 20 := by
  obtain ⟨c, hc⟩ := collocation_new_ok (M := 3) (nt := "LEGENDRE") (qt := "RADAU-RIGHT") (by decide)
    (by decide) ⟨by decide, by decide⟩ 0 1
  obtain ⟨order, ho, -, h⟩ := C76_order_small (by norm_num) c hc
  have ho5 : c.order = some 5 := by
    unfold Collocation.order
    obtain ⟨x, hM0, h⟩ := collocation_spec hc
    rw [h.nodeType, h.quadType]
    decide
  obtain rfl : order = 5 := by rw [ho5] at ho; simpa using ho.symm
  refine ⟨c, hc, ho5, ?_⟩
  rw [h _ (by decide)]
  norm_num [RTree.density, RTree.order, RTree.childDensity]

/-! ## C77 -/

variable {M : ℕ}

theorem sdcStage_graft (Q : Matrix (Fin M) (Fin M) ℝ) (f : ℕ → Matrix (Fin M) (Fin M) ℝ) (t s : RTree) (k : ℕ)
    (i : Fin M) : sdcStageWeight Q f (t.graft s) (k + 1) i = sdcStageWeight Q f t (k + 1) i *
      sdcNodeWeight Q f s (k + 1) i := rfl

/-- Each sweep makes the trees with one more vertex right. -/
theorem sdcStage_step (Q : Matrix (Fin M) (Fin M) ℝ) (f : ℕ → Matrix (Fin M) (Fin M) ℝ) {k r : ℕ}
    (h : ∀ t : RTree, t.order ≤ r → sdcStageWeight Q f t k = t.stageWeight Q) (t : RTree) :
    (t.order ≤ r + 1 → sdcStageWeight Q f t (k + 1) = t.stageWeight Q) ∧
    (t.order ≤ r → sdcNodeWeight Q f t (k + 1) = Q *ᵥ t.stageWeight Q) := by
  have step : ∀ t : RTree, (t.order ≤ r + 1 → sdcStageWeight Q f t (k + 1) = t.stageWeight Q) →
      (t.order ≤ r → sdcNodeWeight Q f t (k + 1) = Q *ᵥ t.stageWeight Q) := by
    intro t ht hr
    rw [sdcNodeWeight, ht (by omega), h t hr, sub_mulVec, add_sub_cancel]
  have main : t.order ≤ r + 1 → sdcStageWeight Q f t (k + 1) = t.stageWeight Q := by
    induction t with
    | leaf => intro _; rfl
    | graft t s iht ihs =>
      intro ho
      simp only [RTree.order] at ho
      have h1 := RTree.order_pos t
      have h2 := RTree.order_pos s
      funext i
      rw [sdcStage_graft, stageWeight_graft, iht (by omega), step s ihs (by omega)]
  exact ⟨main, step t main⟩

theorem sdcStage_sweeps (Q : Matrix (Fin M) (Fin M) ℝ) (f : ℕ → Matrix (Fin M) (Fin M) ℝ) {k r : ℕ}
    (h : ∀ t : RTree, t.order ≤ r → sdcStageWeight Q f t k = t.stageWeight Q) (j : ℕ) (t : RTree)
    (ht : t.order ≤ r + j) : sdcStageWeight Q f t (k + j) = t.stageWeight Q := by
  induction j generalizing t with
  | zero => exact h t ht
  | succ j ih => exact (sdcStage_step Q f (r := r + j) ih t).1 ht

/-- C77: `K` sweeps from the copied value, with any matrices `QΔ`, reproduce the elementary weights of the collocation
method in the stages `f(u^K)` for all trees with at most `K + 1` vertices and in the node values for those with at most
`K`. -/
theorem C77_stages (Q : Matrix (Fin M) (Fin M) ℝ) (f : ℕ → Matrix (Fin M) (Fin M) ℝ) (K : ℕ) (t : RTree) :
    (t.order ≤ K + 1 → sdcStageWeight Q f t K = t.stageWeight Q) ∧
    (t.order ≤ K → sdcNodeWeight Q f t K = Q *ᵥ t.stageWeight Q) := by
  have h0 : ∀ t : RTree, t.order ≤ 1 → sdcStageWeight Q f t 0 = t.stageWeight Q := by
    intro t ht
    cases t with
    | leaf => rfl
    | graft t s =>
      have h1 := RTree.order_pos t
      have h2 := RTree.order_pos s
      simp only [RTree.order] at ht
      omega
  have h := sdcStage_sweeps Q f h0
  refine ⟨fun ht => by simpa using h K t (by omega), fun ht => ?_⟩
  have := RTree.order_pos t
  obtain ⟨k, rfl⟩ : ∃ k, K = k + 1 := ⟨K - 1, by omega⟩
  refine (sdcStage_step Q f (k := k) (r := k + 1) (fun t ht => by simpa using h k t (by omega)) t).2 ht

/-- Instance: trees of order three after two sweeps. -/
example (Q : Matrix (Fin M) (Fin M) ℝ) (f : ℕ → Matrix (Fin M) (Fin M) ℝ) :
    sdcStageWeight Q f (RTree.leaf.graft (RTree.leaf.graft .leaf)) 2 =
      (RTree.leaf.graft (RTree.leaf.graft .leaf)).stageWeight Q :=
  (C77_stages Q f 2 _).1 (by decide)

/-- C77 when the first matrix is exact on the nodes (the trapezoidal rules): one vertex more, from the first sweep
on. -/
theorem C77_stages_trap (Q : Matrix (Fin M) (Fin M) ℝ) (f : ℕ → Matrix (Fin M) (Fin M) ℝ)
    (hf : f 0 *ᵥ (Q *ᵥ fun _ => 1) = Q *ᵥ (Q *ᵥ fun _ => 1)) {K : ℕ} (hK : 0 < K) (t : RTree) :
    (t.order ≤ K + 2 → sdcStageWeight Q f t K = t.stageWeight Q) ∧
    (t.order ≤ K + 1 → sdcNodeWeight Q f t K = Q *ᵥ t.stageWeight Q) := by
  have hnode : ∀ t : RTree, t.order ≤ 2 → sdcNodeWeight Q f t 1 = Q *ᵥ t.stageWeight Q := by
    intro t ht
    by_cases h1 : t.order ≤ 1
    · exact (C77_stages Q f 1 t).2 h1
    cases t with
    | leaf => simp [RTree.order] at h1
    | graft t s =>
      have h1 := RTree.order_pos t
      have h2 := RTree.order_pos s
      simp only [RTree.order] at ht
      have e : sdcStageWeight Q f (t.graft s) 1 = (t.graft s).stageWeight Q :=
        (C77_stages Q f 1 _).1 (by simp only [RTree.order]; omega)
      have e0 : sdcStageWeight Q f (t.graft s) 0 = 0 := rfl
      have hl : ∀ t : RTree, t.order ≤ 1 → t = .leaf := by
        intro t ht
        cases t with
        | leaf => rfl
        | graft t s =>
          have h1 := RTree.order_pos t
          have h2 := RTree.order_pos s
          simp only [RTree.order] at ht
          omega
      obtain rfl := hl t (by omega)
      obtain rfl := hl s (by omega)
      have e2 : (RTree.leaf.graft .leaf).stageWeight Q = Q *ᵥ fun _ => 1 := by
        funext i
        rw [stageWeight_graft]
        exact one_mul _
      rw [sdcNodeWeight, e, e0, mulVec_zero, add_zero, e2, hf]
  have hstage : ∀ t : RTree, t.order ≤ 3 → sdcStageWeight Q f t 1 = t.stageWeight Q := by
    intro t
    induction t with
    | leaf => intro _; rfl
    | graft t s iht _ =>
      intro ho
      simp only [RTree.order] at ho
      have h1 := RTree.order_pos t
      have h2 := RTree.order_pos s
      funext i
      rw [sdcStage_graft, stageWeight_graft, iht (by omega), hnode s (by omega)]
  obtain ⟨k, rfl⟩ : ∃ k, K = 1 + k := ⟨K - 1, by omega⟩
  have h := sdcStage_sweeps Q f hstage
  refine ⟨fun ht => h k t (by omega), fun ht => ?_⟩
  cases k with
  | zero => exact hnode t (by omega)
  | succ k =>
    refine (sdcStage_step Q f (k := 1 + k) (r := 3 + k) (h k) t).2 (by omega)

/-- C77 for collocation methods on `[0, 1]`: the order that `getOrderSDC` starts from (before its special cases) is
right for all rooted trees, for every number of sweeps, with any `QΔ`, if it starts from the order of the quadrature. -/
theorem C77_base_order {nt qt : String} (c : Collocation M) (hc : Collocation.new M nt qt 0 1 = .ok c) (K : ℕ)
    (f : ℕ → Matrix (Fin M) (Fin M) ℝ) (qDelta : String)
    (hq : qDelta ∈ ["TRAPAR", "TRAP"] → IsTrapezoidal c (f 0)) (order : ℕ)
    (hex : ∀ q : ℝ[X], q.degree < order →
      ∑ j, c.weights j * q.eval (c.nodes j) = ∫ t in (0:ℝ)..1, q.eval t) :
    SDCTreeOrder c.Q f K (some c.weights) (baseOrderSDC order K qDelta "QUADRATURE").toNat ∧
    (qt = "RADAU-RIGHT" ∨ qt = "LOBATTO" →
      SDCTreeOrder c.Q f K none (baseOrderSDC order K qDelta "LASTNODE").toNat) := by
  obtain ⟨x, hM0, h⟩ := collocation_spec hc
  have htree := (C76_trees_iff c hc order).mpr hex
  have htrap : qDelta ∈ ["TRAPAR", "TRAP"] → 2 ≤ M →
      f 0 *ᵥ (c.Q *ᵥ fun _ => 1) = c.Q *ᵥ (c.Q *ᵥ fun _ => 1) := by
    intro hq1 hM2
    obtain ⟨g, hg, hA⟩ := hq hq1
    obtain ⟨g', hg', h1, h2⟩ := C42_trap_matches_Q (by norm_num) hM2 c hc
    rw [hg] at hg'
    cases hg'
    rw [collocation_Q_one c hc]
    rcases hA with hA | hA
    · rw [hA]
      simpa using h1
    · rw [hA]
      exact h2 rfl
  refine ⟨fun t ht => ?_, fun hr t ht => ?_⟩
  · rw [toNat_baseOrder, if_pos rfl] at ht
    have e : sdcStageWeight c.Q f t K = t.stageWeight c.Q := by
      by_cases hex' : t.order ≤ K + 1
      · exact (C77_stages c.Q f K t).1 hex'
      · have hK : 0 < K := by
          by_contra h0
          rw [if_neg h0] at ht
          omega
        have hq1 : qDelta ∈ ["TRAPAR", "TRAP"] := by
          by_contra h0
          rw [if_neg h0] at ht
          split_ifs at ht <;> omega
        have hM2 : 2 ≤ M := by
          by_contra hM1
          have := (order_one c hc (by omega) hex).1
          omega
        refine (C77_stages_trap c.Q f (htrap hq1 hM2) hK t).1 ?_
        rw [if_pos hK, if_pos hq1] at ht
        omega
    rw [sdcElementaryWeight, e]
    exact htree t (by omega)
  · have hlast : c.nodes ⟨M - 1, by omega⟩ = 1 := by
      obtain ⟨hmono, hmem, -, hb⟩ := C24_collocation_nodes (by norm_num) c hc
      obtain ⟨i, hi⟩ := hb hr (Or.inr (by norm_num))
      have h1 : c.nodes i ≤ c.nodes ⟨M - 1, by omega⟩ :=
        hmono.monotone (Fin.mk_le_mk.mpr (by have := i.2; omega))
      exact le_antisymm (hmem _).2 (hi ▸ h1)
    have hrow := C26_weights_last_row (by norm_num) c hc ⟨M - 1, by omega⟩ hlast
    have hpos := RTree.order_pos t
    rw [toNat_baseOrder, if_neg (show ¬ "LASTNODE" = "QUADRATURE" by decide), add_zero] at ht
    have hK : 0 < K := by
      by_contra h0
      rw [if_neg h0] at ht
      omega
    rw [if_pos hK] at ht
    have e : sdcNodeWeight c.Q f t K = c.Q *ᵥ t.stageWeight c.Q := by
      by_cases hex' : t.order ≤ K
      · exact (C77_stages c.Q f K t).2 hex'
      · have hq1 : qDelta ∈ ["TRAPAR", "TRAP"] := by
          by_contra h0
          rw [if_neg h0] at ht
          omega
        have hM2 : 2 ≤ M := by
          by_contra hM1
          have := (order_one c hc (by omega) hex).2 hr
          omega
        refine (C77_stages_trap c.Q f (htrap hq1 hM2) hK t).2 ?_
        rw [if_pos hq1] at ht
        omega
    rw [sdcElementaryWeight, dif_pos hM0, e, ← htree t (by omega), RTree.elementaryWeight, hrow]
    rfl

/-- C77 with the value of `Collocation.order`, whenever no node was moved. -/
theorem C77_order {nt qt : String} (c : Collocation M) (hc : Collocation.new M nt qt 0 1 = .ok c)
    (hun : Unmoved nt qt c) (K : ℕ) (f : ℕ → Matrix (Fin M) (Fin M) ℝ) (qDelta : String)
    (hq : qDelta ∈ ["TRAPAR", "TRAP"] → IsTrapezoidal c (f 0)) :
    ∃ order, c.order = some order ∧
      SDCTreeOrder c.Q f K (some c.weights) (baseOrderSDC order K qDelta "QUADRATURE").toNat ∧
      (qt = "RADAU-RIGHT" ∨ qt = "LOBATTO" →
        SDCTreeOrder c.Q f K none (baseOrderSDC order K qDelta "LASTNODE").toNat) := by
  obtain ⟨order, ho, -, ht⟩ := C76_order c hc hun
  exact ⟨order, ho, C77_base_order c hc K f qDelta hq order ((C76_trees_iff c hc order).mp ht)⟩

/-- C77 with the value of `Collocation.order`, up to 158 nodes. -/
theorem C77_order_small {nt qt : String} (hM : M ≤ 158) (c : Collocation M)
    (hc : Collocation.new M nt qt 0 1 = .ok c) (K : ℕ) (f : ℕ → Matrix (Fin M) (Fin M) ℝ) (qDelta : String)
    (hq : qDelta ∈ ["TRAPAR", "TRAP"] → IsTrapezoidal c (f 0)) :
    ∃ order, c.order = some order ∧
      SDCTreeOrder c.Q f K (some c.weights) (baseOrderSDC order K qDelta "QUADRATURE").toNat ∧
      (qt = "RADAU-RIGHT" ∨ qt = "LOBATTO" →
        SDCTreeOrder c.Q f K none (baseOrderSDC order K qDelta "LASTNODE").toNat) := by
  obtain ⟨order, ho, -, ht⟩ := C76_order_small hM c hc
  exact ⟨order, ho, C77_base_order c hc K f qDelta hq order ((C76_trees_iff c hc order).mp ht)⟩

theorem sdcStage_tall (Q : Matrix (Fin M) (Fin M) ℝ) (f : ℕ → Matrix (Fin M) (Fin M) ℝ) (n k : ℕ) :
    sdcStageWeight Q f (RTree'.tall n) k = sdcTaylor Q f k n := by
  induction n generalizing k with
  | zero => cases k <;> (funext i; simp [RTree'.tall, sdcStageWeight, sdcTaylor])
  | succ n ih =>
    cases k with
    | zero => funext i; simp [RTree'.tall, sdcStageWeight, sdcTaylor]
    | succ k =>
      funext i
      rw [RTree'.tall, sdcStage_graft, sdcTaylor, sdcNodeWeight, ih, ih]
      exact one_mul _

/-- C77, what it says on Dahlquist's equation: the conditions of the trees without branches are the linear order, so
that `C60_one_order_per_sweep` bounds the order from above. -/
theorem C77_linear (Q : Matrix (Fin M) (Fin M) ℝ) (f : ℕ → Matrix (Fin M) (Fin M) ℝ) (K : ℕ)
    (w : Option (Fin M → ℝ)) (hM : 0 < M) (p : ℕ) (h : SDCTreeOrder Q f K w p) : SDCLinearOrder Q f K w p := by
  intro j hj
  cases w with
  | some w =>
    cases j with
    | zero => simp [sdcFactorTaylor]
    | succ j =>
      have := h (RTree'.tall j) (by rw [RTree'.tall_order]; exact hj)
      rw [sdcElementaryWeight, sdcStage_tall, RTree'.tall_density] at this
      exact this
  | none =>
    cases j with
    | zero => cases K <;> simp [sdcFactorTaylor, sdcTaylor, hM]
    | succ j =>
      have := h (RTree'.tall j) (by rw [RTree'.tall_order]; exact hj)
      rw [sdcElementaryWeight, dif_pos hM, RTree'.tall_density] at this
      rw [sdcFactorTaylor, dif_pos hM, ← this]
      cases K with
      | zero => rfl
      | succ K => rw [sdcNodeWeight, sdcStage_tall, sdcStage_tall, sdcTaylor]

/-- A collocation with a last node at the end of the step has the weights in the last row. -/
theorem last_node_row {nt qt : String} (c : Collocation M) (hc : Collocation.new M nt qt 0 1 = .ok c) (hM0 : 0 < M)
    (hr : qt = "RADAU-RIGHT" ∨ qt = "LOBATTO") : c.weights = c.Q ⟨M - 1, by omega⟩ := by
  have hlast : c.nodes ⟨M - 1, by omega⟩ = 1 := by
    obtain ⟨hmono, hmem, -, hb⟩ := C24_collocation_nodes (by norm_num) c hc
    obtain ⟨i, hi⟩ := hb hr (Or.inr (by norm_num))
    have h1 : c.nodes i ≤ c.nodes ⟨M - 1, by omega⟩ :=
      hmono.monotone (Fin.mk_le_mk.mpr (by have := i.2; omega))
    exact le_antisymm (hmem _).2 (hi ▸ h1)
  exact C26_weights_last_row (by norm_num) c hc ⟨M - 1, by omega⟩ hlast

theorem sdcStage_bushy {nt qt : String} (c : Collocation M) (hc : Collocation.new M nt qt 0 1 = .ok c)
    (f : ℕ → Matrix (Fin M) (Fin M) ℝ) {K : ℕ} (hK : 0 < K) (k : ℕ) :
    sdcStageWeight c.Q f (bushy k) K = fun i => c.nodes i ^ k := by
  obtain ⟨K, rfl⟩ : ∃ m, K = m + 1 := ⟨K - 1, by omega⟩
  induction k with
  | zero => funext i; simp [bushy, sdcStageWeight]
  | succ k ih =>
    funext i
    rw [bushy, sdcStage_graft, ih, (C77_stages c.Q f (K + 1) .leaf).2 (by simp [RTree.order]), pow_succ]
    congr 1
    exact congrFun (collocation_Q_one c hc) i

/-- C77, no order beyond the collocation: with at least one sweep (two for the last node value) the order conditions
never hold beyond the order of the quadrature, whatever the `QΔ`; on Dahlquist's equation they can. -/
theorem C77_barrier {nt qt : String} (c : Collocation M) (hc : Collocation.new M nt qt 0 1 = .ok c)
    (f : ℕ → Matrix (Fin M) (Fin M) ℝ) (K p : ℕ)
    (h : 0 < K ∧ SDCTreeOrder c.Q f K (some c.weights) p ∨
      2 ≤ K ∧ (qt = "RADAU-RIGHT" ∨ qt = "LOBATTO") ∧ SDCTreeOrder c.Q f K none p) (q : ℝ[X]) (hq : q.degree < p) :
    ∑ j, c.weights j * q.eval (c.nodes j) = ∫ t in (0:ℝ)..1, q.eval t := by
  obtain ⟨x, hM0, -⟩ := collocation_spec hc
  refine quad_of_moments (fun k hk => ?_) q hq
  rcases h with ⟨hK, h⟩ | ⟨hK, hr, h⟩
  · have := h (bushy k) (by rw [bushy_order]; omega)
    rw [sdcElementaryWeight, sdcStage_bushy c hc f hK, bushy_density] at this
    exact this
  · have := h (bushy k) (by rw [bushy_order]; omega)
    obtain ⟨K, rfl⟩ : ∃ m, K = m + 1 := ⟨K - 1, by omega⟩
    rw [sdcElementaryWeight, dif_pos hM0, sdcNodeWeight, sdcStage_bushy c hc f (by omega),
      sdcStage_bushy c hc f (by omega), sub_mulVec, add_sub_cancel, bushy_density] at this
    rw [last_node_row c hc hM0 hr]
    exact this

/-! ## Equidistant nodes: the orders announced by `getOrderSDC` -/

/-- `sdcStageWeight` in rational numbers. -/
def stageL (D R : List (List ℚ)) (M : ℕ) : RTree → ℕ → List ℚ
  | .leaf => fun _ => List.replicate M 1
  | .graft t s => fun k => match k with
    | 0 => List.replicate M 0
    | k + 1 => List.zipWith (· * ·) (stageL D R M t (k + 1))
      (vadd (mv D (stageL D R M s (k + 1))) (mv R (stageL D R M s k)))

theorem stageL_spec {D R : List (List ℚ)} (hD : Shape M D) (hR : Shape M R) (t : RTree) (k : ℕ) :
    (stageL D R M t k).length = M ∧
      vec M (stageL D R M t k) = sdcStageWeight (mat M D + mat M R) (fun _ => mat M D) t k := by
  induction t generalizing k with
  | leaf =>
    refine ⟨by simp [stageL], ?_⟩
    rw [stageL, vec_replicate]
    funext i
    simp [sdcStageWeight]
  | graft t s iht ihs =>
    cases k with
    | zero =>
      refine ⟨by simp [stageL], ?_⟩
      rw [stageL, vec_replicate]
      funext i
      simp [sdcStageWeight]
    | succ k =>
      have hl : (vadd (mv D (stageL D R M s (k + 1))) (mv R (stageL D R M s k))).length = M := by
        simp [vadd, mv_length hD, mv_length hR]
      have hl' := (iht (k + 1)).1
      refine ⟨by simp [stageL, hl, hl'], ?_⟩
      have hv := vec_vadd (mv_length hD (stageL D R M s (k + 1))) (mv_length hR (stageL D R M s k))
      rw [vec_mv hD, vec_mv hR, (ihs (k + 1)).2, (ihs k).2] at hv
      funext i
      have h1 : (i:ℕ) < (stageL D R M t (k + 1)).length := by rw [hl']; exact i.2
      have h2 : (i:ℕ) < (vadd (mv D (stageL D R M s (k + 1))) (mv R (stageL D R M s k))).length := by rw [hl]; exact i.2
      rw [sdcStage_graft, sdcNodeWeight, add_sub_cancel_left, ← hv, ← (iht (k + 1)).2]
      simp [vec, stageL, List.getD_eq_getElem?_getD, h1, h2]

/-- All conditions up to `p` vertices for the last node value. -/
def treesLast (D R : List (List ℚ)) (M K p : ℕ) : Bool :=
  (List.range (p + 1)).all fun n => (RTree'.trees p n).all fun t =>
    (vadd (mv D (stageL D R M t (K + 1))) (mv R (stageL D R M t K))).getD (M - 1) 0 = 1 / (t.density : ℚ)

theorem treesLast_sound {D R : List (List ℚ)} (hD : Shape M D) (hR : Shape M R) (hM : 0 < M) {K p : ℕ}
    (h : treesLast D R M K p = true) :
    SDCTreeOrder (mat M D + mat M R) (fun _ => mat M D) (K + 1) none p := by
  intro t ht
  simp only [treesLast, List.all_eq_true, List.mem_range, decide_eq_true_eq] at h
  have h1 := h t.order (by omega) t (RTree'.mem_trees t p ht)
  have hv := vec_vadd (mv_length hD (stageL D R M t (K + 1))) (mv_length hR (stageL D R M t K))
  rw [vec_mv hD, vec_mv hR, (stageL_spec hD hR t (K + 1)).2, (stageL_spec hD hR t K).2] at hv
  rw [sdcElementaryWeight, dif_pos hM, sdcNodeWeight, add_sub_cancel_left, ← hv, vec]
  simp only
  rw [h1]
  push_cast
  rfl

/-- Configurations with equidistant nodes where the order announced by `getOrderSDC` is right on Dahlquist's equation only:
it is beyond the order of the collocation. -/
def linearOnly (M : ℕ) (qt name upd : String) (K : ℕ) : Bool :=
  (M = 3 ∧ qt = "RADAU-LEFT" ∧ name = "TRAP" ∧ upd = "QUADRATURE" ∧ K = 1) ∨
  (M = 3 ∧ qt = "RADAU-RIGHT" ∧ name = "FE" ∧ upd = "LASTNODE" ∧ K = 3)

/-- The configurations of the trapezoidal rule with a true bonus. -/
def bonusSizes : List (ℕ × String) := [(3, "LOBATTO"), (4, "LOBATTO"), (4, "RADAU-RIGHT")]

theorem bonus_trees : (bonusSizes.all fun s =>
    treesLast (build s.1 (schemeQ "TRAP" (equid s.2 s.1)))
      (residue s.1 (qmat (equid s.2 s.1)) (schemeQ "TRAP" (equid s.2 s.1))) s.1 1 4) = true := by
  decide +kernel

theorem bonus_mem {M : ℕ} {qt : String} (h : (M, qt) ∈ bonusSizes) :
    treesLast (build M (schemeQ "TRAP" (equid qt M)))
      (residue M (qmat (equid qt M)) (schemeQ "TRAP" (equid qt M))) M 1 4 = true := by
  have := bonus_trees
  rw [List.all_eq_true] at this
  exact this (M, qt) h

def trueTreeOrder (M : ℕ) (qt name upd : String) (K : ℕ) : ℕ :=
  trueOrder M qt name upd K - if linearOnly M qt name upd K then 1 else 0

theorem treeOrder_table : (equidSizes.all fun s => ["BE", "FE", "TRAP", "BEPAR", "TRAPAR"].all fun name =>
    (List.range 6).all fun K => ["QUADRATURE", "LASTNODE"].all fun upd =>
      decide (trueTreeOrder s.1 s.2 name upd K ≤ (baseOrderSDC (equidOrder s.1 s.2) K name upd).toNat) ||
      decide (upd = "LASTNODE" ∧ (s.2 = "GAUSS" ∨ s.2 = "RADAU-LEFT")) ||
      decide (upd = "LASTNODE" ∧ name = "TRAP" ∧ s ∈ bonusSizes ∧ K = 2 ∧ trueTreeOrder s.1 s.2 name upd K = 4)) =
    true := by
  decide +kernel

/-- The quadrature of three equidistant Radau nodes has order three. -/
theorem radau_three : (["RADAU-LEFT", "RADAU-RIGHT"].all fun qt =>
    !decide (dot (intRow (equid qt 3) 1) ((equid qt 3).map fun y => y ^ 3) = 1 / 4)) = true := by
  decide +kernel

/-- C77, equidistant nodes: for two to four nodes, up to five sweeps and five of the six time stepping types, the order of
SDC on `u' = f(u)` (all rooted trees) is exactly the one announced by `getOrderSDC`, except for the `overstated`
configurations, where it is one less, and for two configurations with an announced order beyond the one of the
collocation, which is right on Dahlquist's equation only. -/
theorem C77_equidistant {qt : String} (ext : ExternalNum) (hM : 2 ≤ M ∧ M ≤ 4) (c : Collocation M)
    (hc : Collocation.new M "EQUID" qt 0 1 = .ok c) {name : String}
    (hname : name ∈ ["BE", "FE", "TRAP", "BEPAR", "TRAPAR"]) (A : Matrix (Fin M) (Fin M) ℝ)
    (hA : getQD ext name (kwColl c) none = .ok ⟨M, A⟩) (K : ℕ) (hK : K ≤ 5) :
    ∃ order, c.order = some order ∧
    ∀ upd w, (upd = "QUADRATURE" ∧ w = some c.weights ∨
        upd = "LASTNODE" ∧ w = none ∧ 0 < K ∧ (qt = "RADAU-RIGHT" ∨ qt = "LOBATTO")) →
      ∃ p : ℕ, (p : ℤ) = getOrderSDC M "EQUID" qt order K name upd -
          (if overstated M qt name upd K then 1 else 0) - (if linearOnly M qt name upd K then 1 else 0) ∧
        SDCTreeOrder c.Q (fun _ => A) K w p ∧ ¬ SDCTreeOrder c.Q (fun _ => A) K w (p + 1) := by
  obtain ⟨x, hM0, h⟩ := collocation_spec hc
  obtain ⟨hs, hW, hQ, hord⟩ := equid_mats hM c hc
  have hAe := getQD_scheme ext hM.2 c hc hname hA
  obtain ⟨order, ho, hlin⟩ := C61_equidistant ext hM c hc hname A hA K hK
  obtain rfl : order = equidOrder M qt := by rw [hord] at ho; simpa using ho.symm
  refine ⟨_, hord, fun upd w hw => ?_⟩
  obtain ⟨p, hp, -, hnf⟩ := hlin upd w hw
  have hupd : upd ∈ ["QUADRATURE", "LASTNODE"] := by
    rcases hw with ⟨rfl, -⟩ | ⟨rfl, -⟩ <;> simp
  -- the order conditions
  have hex : ∀ q : ℝ[X], q.degree < (equidOrder M qt : ℕ) →
      ∑ j, c.weights j * q.eval (c.nodes j) = ∫ t in (0:ℝ)..1, q.eval t := by
    obtain ⟨order, ho, -, ht⟩ := C76_order_small (by omega) c hc
    obtain rfl : order = equidOrder M qt := by rw [hord] at ho; simpa using ho.symm
    exact (C76_trees_iff c hc _).mp ht
  have htrap : name ∈ ["TRAPAR", "TRAP"] → IsTrapezoidal c A := by
    intro hn
    obtain ⟨g, hg⟩ : ∃ g, TimeStepping.new c.nodes 0 = .ok g := by
      unfold TimeStepping.new
      rw [if_pos hM0]
      exact ⟨_, rfl⟩
    obtain ⟨-, -, h3, -, h5⟩ := getQD_time ext c none g hg
    refine ⟨g, hg, ?_⟩
    simp only [List.mem_cons, List.not_mem_nil, or_false] at hn
    rcases hn with rfl | rfl
    · rw [h5] at hA
      exact Or.inr (by simpa using hA.symm)
    · rw [h3] at hA
      exact Or.inl (by simpa using hA.symm)
  have hbase := C77_base_order c hc K (fun _ => A) name htrap _ hex
  have hpT : p = trueOrder M qt name upd K := by
    unfold trueOrder
    split_ifs at hp ⊢ <;> omega
  have hpos : 0 < trueOrder M qt name upd K := by
    have hpos := List.all_eq_true.mp (List.all_eq_true.mp (List.all_eq_true.mp equid_pos _ hs) name hname) K
      (List.mem_range.mpr (by omega))
    simp only [Bool.and_eq_true, Bool.or_eq_true, decide_eq_true_eq] at hpos
    rcases hw with ⟨rfl, -⟩ | ⟨rfl, -, hK0, -⟩
    · exact hpos.1
    · exact hpos.2.resolve_left (by omega)
  have htab := List.all_eq_true.mp (List.all_eq_true.mp (List.all_eq_true.mp (List.all_eq_true.mp treeOrder_table _ hs)
    name hname) K (List.mem_range.mpr (by omega))) upd hupd
  simp only [Bool.or_eq_true, decide_eq_true_eq] at htab
  have hsum := residue_add M (qmat (equid qt M)) (schemeQ name (equid qt M))
  rw [← hAe, ← hQ] at hsum
  refine ⟨trueTreeOrder M qt name upd K, ?_, ?_, ?_⟩
  · unfold trueTreeOrder
    rw [← hp, ← hpT]
    split_ifs <;> omega
  · rcases htab with (htab | ⟨rfl, hg⟩) | ⟨rfl, rfl, hb, rfl, h4⟩
    · rcases hw with ⟨rfl, rfl⟩ | ⟨rfl, rfl, -, hr⟩
      · exact fun t ht => hbase.1 t (ht.trans htab)
      · exact fun t ht => hbase.2 hr t (ht.trans htab)
    · rcases hw with ⟨h1, -⟩ | ⟨-, -, -, hr⟩
      · simp at h1
      · rcases hg with rfl | rfl <;> simp at hr
    · rcases hw with ⟨h1, -⟩ | ⟨-, rfl, -, -⟩
      · simp at h1
      have hbt : treesLast (build M (schemeQ "TRAP" (equid qt M)))
          (residue M (qmat (equid qt M)) (schemeQ "TRAP" (equid qt M))) M 1 4 = true := bonus_mem hb
      have := treesLast_sound (K := 1) (p := 4) (build_shape M (schemeQ "TRAP" (equid qt M)))
        (R := residue M (qmat (equid qt M)) (schemeQ "TRAP" (equid qt M))) (build_shape _ _) hM0 hbt
      rw [← hAe, hsum] at this
      rw [h4]
      exact this
  · intro hT
    by_cases hl : linearOnly M qt name upd K
    · have h3 : trueTreeOrder M qt name upd K + 1 = 4 := by
        simp only [linearOnly, decide_eq_true_eq] at hl
        rcases hl with ⟨rfl, rfl, rfl, rfl, rfl⟩ | ⟨rfl, rfl, rfl, rfl, rfl⟩ <;> decide +kernel
      have hM3 : M = 3 ∧ qt ∈ ["RADAU-LEFT", "RADAU-RIGHT"] := by
        simp only [linearOnly, decide_eq_true_eq] at hl
        rcases hl with ⟨rfl, rfl, -⟩ | ⟨rfl, rfl, -⟩ <;> simp
      have hq := C77_barrier c hc (fun _ => A) K (trueTreeOrder M qt name upd K + 1) (by
        simp only [linearOnly, decide_eq_true_eq] at hl
        rcases hl with ⟨rfl, rfl, rfl, rfl, rfl⟩ | ⟨rfl, rfl, rfl, rfl, rfl⟩
        · rcases hw with ⟨-, rfl⟩ | ⟨h1, -⟩
          · exact Or.inl ⟨by norm_num, hT⟩
          · simp at h1
        · rcases hw with ⟨h1, -⟩ | ⟨-, rfl, -, -⟩
          · simp at h1
          · exact Or.inr ⟨by norm_num, Or.inl rfl, hT⟩) (X ^ 3) (by
          rw [h3, degree_X_pow]
          norm_num)
      have hx := equid_nodes (by omega) c hc
      obtain ⟨rfl, hqt⟩ := hM3
      have hr := List.all_eq_true.mp radau_three qt hqt
      simp only [Bool.not_eq_true', decide_eq_false_iff_not] at hr
      apply hr
      have e : ∑ j, c.weights j * (X ^ 3 : ℝ[X]).eval (c.nodes j) =
          ((dot (intRow (equid qt 3) 1) ((equid qt 3).map fun y => y ^ 3) : ℚ) : ℝ) := by
        rw [dot_cast _ _ 3 (by simp [intRow, equid]), hW, hx]
        refine Finset.sum_congr rfl fun j _ => ?_
        have hj : (j:ℕ) < (equid qt 3).length := by simp [equid]
        simp [vec, List.getD_eq_getElem?_getD, hj]
      rw [e] at hq
      have e2 : ∫ t in (0:ℝ)..1, (X ^ 3 : ℝ[X]).eval t = ((1 / 4 : ℚ) : ℝ) := by
        have := polyInt_X_pow 3 0 1
        rw [polyInt] at this
        rw [this]
        norm_num
      rw [e2] at hq
      exact_mod_cast hq
    · have e : trueTreeOrder M qt name upd K = p := by
        unfold trueTreeOrder
        rw [if_neg hl, hpT, Nat.sub_zero]
      rw [e] at hT
      have hlin := C77_linear c.Q (fun _ => A) K w hM0 (p + 1) hT
      have hSQD : SweepMatrices M (K:ℤ) (.mat M M A) (fun _ => A) := .same K A
      exact hnf.not_converges (Nat.lt_succ_self p) (C60_criterion c.Q _ K _ hSQD w (fun _ => hM0) _ hlin).1

/-- C77, finding: for three equidistant `RADAU-LEFT` nodes, `TRAP`, one sweep and the quadrature update, `getOrderSDC`
announces 4, which is the order on Dahlquist's equation, but the order on `u' = f(u)` is 3. -/
theorem C77_bonus_fails (ext : ExternalNum) : ∃ (c : Collocation 3) (A : Matrix (Fin 3) (Fin 3) ℝ),
    Collocation.new 3 "EQUID" "RADAU-LEFT" 0 1 = .ok c ∧ c.order = some 3 ∧
    getQD ext "TRAP" (kwColl c) none = .ok ⟨3, A⟩ ∧
    getOrderSDC 3 "EQUID" "RADAU-LEFT" 3 1 "TRAP" "QUADRATURE" = 4 ∧
    SDCConverges c.Q (.mat 3 3 A) 1 (some c.weights) 4 ∧
    SDCTreeOrder c.Q (fun _ => A) 1 (some c.weights) 3 ∧ ¬ SDCTreeOrder c.Q (fun _ => A) 1 (some c.weights) 4 := by
  obtain ⟨c, hc⟩ := collocation_new_ok (M := 3) (nt := "EQUID") (qt := "RADAU-LEFT") (by decide)
    (by decide) ⟨by decide, by decide⟩ 0 1
  obtain ⟨g, hg⟩ : ∃ g, TimeStepping.new c.nodes 0 = .ok g := ⟨_, rfl⟩
  have hA := (getQD_time ext c none g hg).2.2.1
  have ho3 : c.order = some 3 := by
    unfold Collocation.order
    rw [(coll_types hc).1, (coll_types hc).2]
    decide
  have h4 : getOrderSDC 3 "EQUID" "RADAU-LEFT" 3 1 "TRAP" "QUADRATURE" = 4 := by decide +kernel
  have e : ((1:ℕ):ℤ) = 1 := rfl
  obtain ⟨order, ho, h⟩ := C77_equidistant ext (by norm_num) c hc (name := "TRAP") (by decide) _ hA 1 (by norm_num)
  obtain rfl : order = 3 := by rw [ho3] at ho; simpa using ho.symm
  obtain ⟨p, hp, h1, h2⟩ := h "QUADRATURE" _ (Or.inl ⟨rfl, rfl⟩)
  rw [e, h4, if_neg (by decide), if_pos (by decide)] at hp
  obtain rfl : p = 3 := by omega
  obtain ⟨order, ho, h⟩ := C61_equidistant ext (by norm_num) c hc (name := "TRAP") (by decide) _ hA 1 (by norm_num)
  obtain rfl : order = 3 := by rw [ho3] at ho; simpa using ho.symm
  obtain ⟨p, hp, h5, -⟩ := h "QUADRATURE" _ (Or.inl ⟨rfl, rfl⟩)
  rw [e, h4, if_neg (by decide)] at hp
  obtain rfl : p = 4 := by omega
  exact ⟨c, _, hc, ho3, hA, h4, h5, h1, h2⟩

/-- C77, instance: two sweeps of the trapezoidal rule on three Gauss-Radau nodes satisfy the conditions of all trees with
four vertices. -/
example : ∃ (c : Collocation 3) (g : TimeStepping 3), Collocation.new 3 "LEGENDRE" "RADAU-RIGHT" 0 1 = .ok c ∧
    TimeStepping.new c.nodes 0 = .ok g ∧ SDCTreeOrder c.Q (fun _ => g.computeTRAP) 2 (some c.weights) 4 ∧
    SDCTreeOrder c.Q (fun _ => g.computeTRAP) 2 none 3 := by
  obtain ⟨c, hc⟩ := collocation_new_ok (M := 3) (nt := "LEGENDRE") (qt := "RADAU-RIGHT") (by decide)
    (by decide) ⟨by decide, by decide⟩ 0 1
  obtain ⟨g, hg⟩ : ∃ g, TimeStepping.new c.nodes 0 = .ok g := ⟨_, rfl⟩
  obtain ⟨order, ho, h1, h2⟩ := C77_order_small (by norm_num) c hc 2 (fun _ => g.computeTRAP) "TRAP"
    (fun _ => ⟨g, hg, Or.inl rfl⟩)
  have ho5 : c.order = some 5 := by
    unfold Collocation.order
    obtain ⟨x, hM0, h⟩ := collocation_spec hc
    rw [h.nodeType, h.quadType]
    decide
  obtain rfl : order = 5 := by rw [ho5] at ho; simpa using ho.symm
  exact ⟨c, g, hc, hg, h1, h2 (Or.inl rfl)⟩

/-- Instance of `C76_trees_iff`, `C76_order`, `C77_order`, `C77_linear`: three Lobatto nodes, two sweeps of backward
Euler. -/
example : ∃ (c : Collocation 3) (g : TimeStepping 3) (order : ℕ), Collocation.new 3 "LEGENDRE" "LOBATTO" 0 1 = .ok c ∧
    TimeStepping.new c.nodes 0 = .ok g ∧ c.order = some order ∧
    (∀ q : ℝ[X], q.degree < order → ∑ j, c.weights j * q.eval (c.nodes j) = ∫ t in (0:ℝ)..1, q.eval t) ∧
    SDCLinearOrder c.Q (fun _ => g.computeBE) 2 (some c.weights) (baseOrderSDC order 2 "BE" "QUADRATURE").toNat := by
  obtain ⟨c, hc⟩ := collocation_new_ok (M := 3) (nt := "LEGENDRE") (qt := "LOBATTO") (by decide)
    (by decide) ⟨by norm_num, fun _ => by norm_num⟩ 0 1
  obtain ⟨g, hg⟩ : ∃ g, TimeStepping.new c.nodes 0 = .ok g := ⟨_, rfl⟩
  have hun := unmoved_small (by norm_num) c hc
  obtain ⟨order, ho, -, h⟩ := C76_order c hc hun
  obtain ⟨order', ho', h1, -⟩ := C77_order c hc hun 2 (fun _ => g.computeBE) "BE" (fun h => by simp at h)
  obtain rfl : order = order' := Option.some.inj (ho.symm.trans ho')
  exact ⟨c, g, order, hc, hg, ho, (C76_trees_iff c hc order).1 h, C77_linear _ _ 2 _ (by norm_num) _ h1⟩

/-- Instance of `C77_equidistant`: three equidistant nodes, two sweeps of backward Euler. -/
example (ext : ExternalNum) : ∃ (c : Collocation 3) (A : Matrix (Fin 3) (Fin 3) ℝ) (order p : ℕ),
    Collocation.new 3 "EQUID" "GAUSS" 0 1 = .ok c ∧ c.order = some order ∧
    SDCTreeOrder c.Q (fun _ => A) 2 (some c.weights) p ∧ ¬ SDCTreeOrder c.Q (fun _ => A) 2 (some c.weights) (p + 1) := by
  obtain ⟨c, hc⟩ := collocation_new_ok (M := 3) (nt := "EQUID") (qt := "GAUSS") (by decide)
    (by decide) ⟨by norm_num, fun h => by simp at h⟩ 0 1
  obtain ⟨g, hg⟩ : ∃ g, TimeStepping.new c.nodes 0 = .ok g := ⟨_, rfl⟩
  have hA : getQD ext "BE" (kwColl c) none = .ok ⟨3, g.computeBE⟩ := (getQD_time ext c none g hg).1
  obtain ⟨order, ho, h⟩ := C77_equidistant ext (by norm_num) c hc (name := "BE") (by simp) _ hA 2 (by norm_num)
  obtain ⟨p, -, h1, h2⟩ := h "QUADRATURE" _ (Or.inl ⟨rfl, rfl⟩)
  exact ⟨c, _, order, p, hc, ho, h1, h2⟩

/-- Instance of `C77_base_order`, `C77_barrier`: no sweep gains more than the quadrature. -/
example : ∃ (c : Collocation 3) (g : TimeStepping 3), Collocation.new 3 "EQUID" "GAUSS" 0 1 = .ok c ∧
    TimeStepping.new c.nodes 0 = .ok g ∧
    SDCTreeOrder c.Q (fun _ => g.computeBE) 2 (some c.weights) (baseOrderSDC 3 2 "BE" "QUADRATURE").toNat ∧
    ∀ p, SDCTreeOrder c.Q (fun _ => g.computeBE) 2 (some c.weights) p → ∀ q : ℝ[X], q.degree < p →
      ∑ j, c.weights j * q.eval (c.nodes j) = ∫ t in (0:ℝ)..1, q.eval t := by
  obtain ⟨c, S, hc, -, h⟩ := C22_collocation_exact (M := 3) (nt := "EQUID") (qt := "GAUSS") (by decide)
    (by decide) ⟨by norm_num, fun h => by simp at h⟩ (a := 0) (b := 1) (by norm_num)
  obtain ⟨g, hg⟩ : ∃ g, TimeStepping.new c.nodes 0 = .ok g := ⟨_, rfl⟩
  exact ⟨c, g, hc, hg, (C77_base_order c hc 2 _ "BE" (fun h => by simp at h) 3 (fun q hq => (h q hq).2.1)).1,
    fun p hp q hq => C77_barrier c hc _ 2 p (Or.inl ⟨by norm_num, hp⟩) q hq⟩

/-- Instance of `C77_stages_trap`: a first sweep with the exact matrix. -/
example (Q : Matrix (Fin M) (Fin M) ℝ) : sdcStageWeight Q (fun _ => Q) (RTree.leaf.graft (RTree.leaf.graft .leaf)) 1 =
    (RTree.leaf.graft (RTree.leaf.graft .leaf)).stageWeight Q :=
  (C77_stages_trap Q (fun _ => Q) rfl one_pos _).1 (by decide)

end QMat
