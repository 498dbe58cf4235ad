import Verif.Lemmas.SDCTransfer
import Verif.Props.ODEOrder

/-!
# C84: order of spectral deferred correction on every smooth equation `u' = f(u)`
-/

namespace QMat

open Spec Matrix RTree

section General

variable {M : ℕ} {Q : Matrix (Fin M) (Fin M) ℝ} {QDelta : ℕ → Matrix (Fin M) (Fin M) ℝ} {K : ℕ} {w : Option (Fin M → ℝ)}

/-- C84: a step has order `p` on the equation of the trees with up to `p` vertices only if all order conditions hold. -/
theorem C84_necessary {p : ℕ} (hw : w = none → 0 < M)
    (h : SDCLocalOrder Q QDelta K w p (treeField p) (treeSol p) 0 1) : SDCTreeOrder Q QDelta K w p := by
  intro t ht
  obtain ⟨ρ, hρ, h0, hh0, C, H⟩ := h
  obtain ⟨h1, hh1, H1⟩ := treeStage_small p (sdcA Q QDelta K)
    (fun t a => sdcStageWeight Q QDelta t a.1 a.2) hρ
  refine sub_eq_zero.1 (eq_of_pow_bound (C := C) (lt_min (lt_min hh0 hh1) one_pos) ht
    fun h hpos hlt => ?_)
  have hl0 := hlt.trans_le ((min_le_left _ _).trans (min_le_left _ _))
  have hl1 := hlt.trans_le ((min_le_left _ _).trans (min_le_right _ _))
  have hl2 := hlt.trans_le (min_le_right _ _)
  have h2 := (H 0 h le_rfl hpos.le hl0 (by linarith)).2.2
  rw [treeSol_zero] at h2
  obtain ⟨U, -, hU⟩ := sdc_of_stages hw (treeStage_stages (sdcStageWeight_node Q QDelta) p h) (H1 h hpos.le hl1)
  have h3 := h2 _ _ hU
  rw [tree_weighted (sdcStageWeight_node Q QDelta), zero_add, zero_add] at h3
  have h4 := (norm_le_pi_norm _ (⟨t, (mem_upTo p t).2 ht⟩ : upTo p)).trans h3
  rw [Real.norm_eq_abs] at h4
  refine le_trans (le_of_eq ?_) h4
  simp only [Pi.sub_apply, treeSol, mul_sub]
  rw [← sdcB_weight]

/-- C84: the order conditions decide the order on all smooth equations `u' = f(u)`. -/
theorem C84_order_iff {p : ℕ} (hp : 1 ≤ p) (hM : 0 < M) :
    (∀ (E : Type) [NormedAddCommGroup E] [NormedSpace ℝ E] [CompleteSpace E] (f : E → E) (y : ℝ → E)
      (t0 T : ℝ), Solves (fun _ => f) y t0 T → (∀ t ∈ Set.Icc t0 T, ContDiffAt ℝ p f (y t)) →
        SDCLocalOrder Q QDelta K w p f y t0 T) ↔ SDCTreeOrder Q QDelta K w p :=
  ⟨fun h => C84_necessary (fun _ => hM)
    (h _ _ _ 0 1 (treeSol_solves p 0 1) fun _ _ => (treeField_contDiff p).contDiffAt),
    fun h _ _ _ _ _ _ _ _ hy hf => sdcLocal_of_trees hp h hy hf⟩

end General

variable {M : ℕ} {nt qt : String}

/-- C84: local and global order of spectral deferred correction with `K` sweeps on every smooth equation `u' = f(u)`, for the order that
`getOrderSDC` computes before its special cases. -/
theorem C84_order (hM : M ≤ 158) (c : Collocation M)
    (hc : Collocation.new M nt qt 0 1 = .ok c) (K : ℕ) (g : ℕ → Matrix (Fin M) (Fin M) ℝ) (qDelta : String)
    (hq : qDelta ∈ ["TRAPAR", "TRAP"] → IsTrapezoidal c (g 0)) :
    ∃ order, c.order = some order ∧ M ≤ order ∧
      ∀ {E : Type*} [NormedAddCommGroup E] [NormedSpace ℝ E] [CompleteSpace E] (f : E → E) (y : ℝ → E) (t0 t1 : ℝ),
        Solves (fun _ => f) y t0 t1 → (∀ n : ℕ, n ≤ order → ∀ t ∈ Set.Icc t0 t1, ContDiffAt ℝ n f (y t)) →
        (SDCLocalOrder c.Q g K (some c.weights) (baseOrderSDC order K qDelta "QUADRATURE").toNat f y t0 t1 ∧
          SDCGlobalOrder c.Q g K (some c.weights) (baseOrderSDC order K qDelta "QUADRATURE").toNat f y t0 t1) ∧
        (0 < K → qt = "RADAU-RIGHT" ∨ qt = "LOBATTO" →
          SDCLocalOrder c.Q g K none (baseOrderSDC order K qDelta "LASTNODE").toNat f y t0 t1 ∧
          SDCGlobalOrder c.Q g K none (baseOrderSDC order K qDelta "LASTNODE").toNat f y t0 t1) := by
  obtain ⟨order, ho, h1, h2⟩ := C77_order_small hM c hc K g qDelta hq
  obtain ⟨order', ho', hle, -⟩ := C76_order_small hM c hc
  obtain rfl : order = order' := by rw [ho] at ho'; simpa using ho'
  obtain ⟨x, hM0, -⟩ := collocation_spec hc
  refine ⟨order, ho, hle, fun f y t0 t1 hy hf => ⟨?_, fun hK hr => ?_⟩⟩
  · have hp : 1 ≤ (baseOrderSDC order K qDelta "QUADRATURE").toNat ∧
        (baseOrderSDC order K qDelta "QUADRATURE").toNat ≤ order := by
      unfold baseOrderSDC
      simp only [if_true]
      split_ifs <;> omega
    exact ⟨sdcLocal_of_trees hp.1 h1 hy (hf _ hp.2), sdcGlobal_of_trees hp.1 h1 hy (hf _ hp.2)⟩
  · have hp : 1 ≤ (baseOrderSDC order K qDelta "LASTNODE").toNat ∧
        (baseOrderSDC order K qDelta "LASTNODE").toNat ≤ order := by
      unfold baseOrderSDC
      dsimp only
      split_ifs <;> simp_all <;> omega
    exact ⟨sdcLocal_of_trees hp.1 (h2 hr) hy (hf _ hp.2), sdcGlobal_of_trees hp.1 (h2 hr) hy (hf _ hp.2)⟩

/-- C84: however many sweeps of whatever matrices, a step of order `p` on the equation of the trees has weights that integrate all
polynomials of degree less than `p`; in particular `p` is at most `2 M`. -/
theorem C84_barrier (c : Collocation M) (hc : Collocation.new M nt qt 0 1 = .ok c)
    (g : ℕ → Matrix (Fin M) (Fin M) ℝ) (K p : ℕ)
    (h : 0 < K ∧ SDCLocalOrder c.Q g K (some c.weights) p (treeField p) (treeSol p) 0 1 ∨
      2 ≤ K ∧ (qt = "RADAU-RIGHT" ∨ qt = "LOBATTO") ∧ SDCLocalOrder c.Q g K none p (treeField p) (treeSol p) 0 1) :
    (∀ q : Polynomial ℝ, q.degree < p → ∑ j, c.weights j * q.eval (c.nodes j) = ∫ t in (0:ℝ)..1, q.eval t) ∧
    p ≤ 2 * M := by
  obtain ⟨x, hM0, -⟩ := collocation_spec hc
  have hq := C77_barrier c hc g K p (h.imp (fun h => ⟨h.1, C84_necessary (fun _ => hM0) h.2⟩)
    (fun h => ⟨h.1, h.2.1, C84_necessary (fun _ => hM0) h.2.2⟩))
  refine ⟨hq, ?_⟩
  by_contra hp
  obtain ⟨t, ht, hne⟩ := C76_barrier c hc
  exact hne ((C76_trees_iff c hc p).mpr hq t (by omega))

/-- Example for C84: two sweeps of `TRAP` on three RADAU-RIGHT nodes give order 4 with the quadrature, and order 3 with the last node,
on `u' = u^2`. -/
example : ∃ (c : Collocation 3) (g : TimeStepping 3), Collocation.new 3 "LEGENDRE" "RADAU-RIGHT" 0 1 = .ok c ∧
    TimeStepping.new c.nodes 0 = .ok g ∧
    SDCGlobalOrder c.Q (fun _ => g.computeTRAP) 2 (some c.weights) 4 (fun u : ℝ => u ^ 2) (fun t => (1 - t)⁻¹) 0 (1 / 2) ∧
    SDCGlobalOrder c.Q (fun _ => g.computeTRAP) 2 none 3 (fun u : ℝ => u ^ 2) (fun t => (1 - t)⁻¹) 0 (1 / 2) := by
  obtain ⟨c, hc⟩ := collocation_new_ok (M := 3) (nt := "LEGENDRE") (qt := "RADAU-RIGHT") (by decide)
    (by decide) ⟨by decide, by decide⟩ 0 1
  obtain ⟨g, hg⟩ : ∃ g, TimeStepping.new c.nodes 0 = .ok g := ⟨_, rfl⟩
  obtain ⟨order, ho, -, h⟩ := C84_order (by norm_num) c hc 2 (fun _ => g.computeTRAP) "TRAP"
    (fun _ => ⟨g, hg, Or.inl rfl⟩)
  have ho5 : c.order = some 5 := by
    unfold Collocation.order
    obtain ⟨x, hM0, h⟩ := collocation_spec hc
    rw [h.nodeType, h.quadType]
    decide
  obtain rfl : order = 5 := by rw [ho5] at ho; simpa using ho.symm
  obtain ⟨h1, h2⟩ := h (fun u : ℝ => u ^ 2) _ 0 (1 / 2) solves_riccati (fun n _ t _ => (contDiff_id.pow 2).contDiffAt)
  exact ⟨c, g, hc, hg, h1.2, (h2 (by norm_num) (Or.inl rfl)).2⟩

end QMat
