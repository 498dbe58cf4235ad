import Verif.Lemmas.SDCOrder
import Verif.Props.SDC
import Verif.Props.CollExact
import Verif.Props.TimeStep

/-!
# C60: order of SDC on Dahlquist's equation
-/

namespace QMat

open Matrix Spec

variable {M : ℕ}

/-- `errorDahlquistSDC` is the largest distance to the exact solution at the time steps. -/
theorem errorDahlquistSDC_of_solve (lam u0 : ℂ) (tEnd : ℝ) (n K : ℕ) (hn : 0 < n)
    (Q : Matrix (Fin M) (Fin M) ℝ) (QD : SDCQDelta) (f : ℕ → Matrix (Fin M) (Fin M) ℝ)
    (hQD : SweepMatrices M K QD f) (w : Option (Fin M → ℝ)) (hw : w = none → 0 < M)
    (hdet : ∀ k < K, (1 - (lam * (tEnd / n : ℝ)) • cmat (f k)).det ≠ 0) :
    ∃ e, errorDahlquistSDC lam u0 tEnd n K Q QD (sigmaWeights w) = .ok e ∧
      (∀ k ≤ n, ‖sdcFactor (lam * (tEnd / n : ℝ)) Q f K (sigmaWeights w) ^ k * u0 -
        u0 * Complex.exp (lam * (k * (tEnd / n) : ℝ))‖ ≤ e) ∧
      ∀ B, 0 ≤ B → (∀ k ≤ n, ‖sdcFactor (lam * (tEnd / n : ℝ)) Q f K (sigmaWeights w) ^ k * u0 -
        u0 * Complex.exp (lam * (k * (tEnd / n) : ℝ))‖ ≤ B) → e ≤ B := by
  have hw' : WeightsFit M (sigmaWeights w) := by
    cases w with
    | none => exact hw rfl
    | some w => rfl
  have hs := solveSDC_eq lam u0 tEnd n K hn Q QD f hQD (sigmaWeights w) hw' [] (fun k hk => by simp at hk) hdet
  refine ⟨npNormInf (((List.range (n + 1)).map fun k =>
      sdcFactor (lam * (tEnd / n : ℝ)) Q f K (sigmaWeights w) ^ k * u0).mapIdx fun i u =>
      u - u0 * Complex.exp (lam * (i * (tEnd / (n:ℤ)) : ℝ))), ?_, ?_, ?_⟩
  · simp only [errorDahlquistSDC, hs, bind, Except.bind, pure, Except.pure]
    exact errorInf_ok (by simp [sdcResult]) _
  · intro k hk
    refine norm_le_npNormInf (List.mem_mapIdx.mpr ⟨k, by simp; omega, ?_⟩)
    simp
  · intro B hB hb
    refine npNormInf_le hB fun z hz => ?_
    obtain ⟨i, hi, rfl⟩ := List.mem_mapIdx.mp hz
    have hi' : i ≤ n := by simp at hi; omega
    have := hb i hi'
    simpa using this

/-- The errors of SDC with `K` sweeps are `O(nSteps^{-p})`, for every problem and final time. -/
def SDCConverges (Q : Matrix (Fin M) (Fin M) ℝ) (QD : SDCQDelta) (K : ℕ) (w : Option (Fin M → ℝ))
    (p : ℕ) : Prop :=
  ∀ (lam u0 : ℂ) (tEnd : ℝ), ∃ (C : ℝ) (N : ℕ), ∀ n : ℕ, N ≤ n →
    ∃ e, errorDahlquistSDC lam u0 tEnd n K Q QD (sigmaWeights w) = .ok e ∧ e ≤ C / n ^ p

/-- The errors of SDC with `K` sweeps are at least a multiple of `nSteps^{-p}`, for every problem and
final time that is not trivial. -/
def SDCNotFaster (Q : Matrix (Fin M) (Fin M) ℝ) (QD : SDCQDelta) (K : ℕ) (w : Option (Fin M → ℝ))
    (p : ℕ) : Prop :=
  ∀ (lam u0 : ℂ) (tEnd : ℝ), lam ≠ 0 → u0 ≠ 0 → tEnd ≠ 0 → ∃ (c : ℝ) (N : ℕ), 0 < c ∧ ∀ n : ℕ, N ≤ n →
    ∃ e, errorDahlquistSDC lam u0 tEnd n K Q QD (sigmaWeights w) = .ok e ∧ c / n ^ p ≤ e

/-- The two bounds exclude each other: an order that is not faster than `p` is not `p + 1`. -/
theorem SDCNotFaster.not_converges {Q : Matrix (Fin M) (Fin M) ℝ} {QD : SDCQDelta} {K : ℕ}
    {w : Option (Fin M → ℝ)} {p q : ℕ} (hpq : p < q) (h : SDCNotFaster Q QD K w p) :
    ¬ SDCConverges Q QD K w q := by
  intro hc
  obtain ⟨C, N, hN⟩ := hc 1 1 1
  obtain ⟨c, N', hc0, hN'⟩ := h 1 1 1 one_ne_zero one_ne_zero one_ne_zero
  obtain ⟨m, hm⟩ := exists_nat_gt (C / c)
  set n := max (max N N') (m + 1) with hn
  have hn0 : (0:ℝ) < n := by exact_mod_cast (by omega : 0 < n)
  obtain ⟨e, he, hle⟩ := hN n (by omega)
  obtain ⟨e', he', hle'⟩ := hN' n (by omega)
  rw [he] at he'
  cases he'
  have h1 : c / (n:ℝ) ^ p ≤ C / (n:ℝ) ^ q := hle'.trans hle
  rw [div_le_div_iff₀ (by positivity) (by positivity)] at h1
  obtain ⟨r, rfl⟩ : ∃ r, q = p + 1 + r := ⟨q - p - 1, by omega⟩
  have h2 : c * n ≤ C := by
    have h3 : (1:ℝ) ≤ (n:ℝ) ^ r := one_le_pow₀ (by exact_mod_cast (by omega : 1 ≤ n))
    have h4 : c * n * (n:ℝ) ^ p ≤ C * (n:ℝ) ^ p := by
      calc c * n * (n:ℝ) ^ p = c * (n:ℝ) ^ (p + 1) * 1 := by ring
        _ ≤ c * (n:ℝ) ^ (p + 1) * (n:ℝ) ^ r := mul_le_mul_of_nonneg_left h3 (by positivity)
        _ = c * (n:ℝ) ^ (p + 1 + r) := by ring
        _ ≤ _ := h1
    exact le_of_mul_le_mul_right h4 (by positivity)
  rw [div_lt_iff₀ hc0] at hm
  have h5 : (m:ℝ) ≤ n := by exact_mod_cast (by omega : m ≤ n)
  nlinarith

/-- C60, criterion: SDC with `K` sweeps converges with order `p` if the Taylor coefficients of the
factor of one step are `1/j!` up to `j = p`, and not faster if the next one is not. -/
theorem C60_criterion (Q : Matrix (Fin M) (Fin M) ℝ) (QD : SDCQDelta) (K : ℕ)
    (f : ℕ → Matrix (Fin M) (Fin M) ℝ) (hQD : SweepMatrices M K QD f)
    (w : Option (Fin M → ℝ)) (hw : w = none → 0 < M) (p : ℕ) (h : SDCLinearOrder Q f K w p) :
    SDCConverges Q QD K w p ∧
    (0 < p → sdcFactorTaylor Q f K w (p + 1) ≠ 1 / (p + 1).factorial → SDCNotFaster Q QD K w p) := by
  have hz : ∀ z : ℂ, ∑ j ∈ Finset.range (p + 1),
      z ^ j * ((sdcFactorTaylor Q f K w j - 1 / j.factorial : ℝ) : ℂ) = 0 := fun z => by
    refine Finset.sum_eq_zero fun j hj => ?_
    rw [h j (by simpa [Nat.lt_succ_iff] using hj), sub_self]
    simp
  constructor
  · intro lam u0 tEnd
    obtain ⟨C, δ, hC, hδ, hδ1, hloc⟩ := sdcFactor_error Q f K w p
    obtain ⟨B, N, hB, hN⟩ := global_of_local (p := p) (R := fun z => sdcFactor z Q f K (sigmaWeights w))
      hC hδ hδ1 (fun z hzz => by have := (hloc z hzz).2; rwa [hz z, sub_zero] at this) lam u0 tEnd
    refine ⟨B, N, fun n hn => ?_⟩
    obtain ⟨hn0, hzδ, herr⟩ := hN n hn
    obtain ⟨e, he, -, hle⟩ := errorDahlquistSDC_of_solve lam u0 tEnd n K hn0 Q QD f hQD w hw
      (hloc _ hzδ).1
    exact ⟨e, he, hle _ (by positivity) herr⟩
  · intro hp hne lam u0 tEnd hlam hu0 htEnd
    obtain ⟨C, δ, hC, hδ, hδ1, hloc⟩ := sdcFactor_error Q f K w (p + 1)
    obtain ⟨c, N, hc, hN⟩ := global_of_local_sharp (p := p)
      (R := fun z => sdcFactor z Q f K (sigmaWeights w)) hp hC hδ hδ1 (sub_ne_zero.mpr hne)
      (fun z hzz => by
        have := (hloc z hzz).2
        rwa [Finset.sum_range_succ, hz z, zero_add] at this) lam u0 tEnd hlam hu0 htEnd
    refine ⟨c, N, hc, fun n hn => ?_⟩
    obtain ⟨hn0, hzδ, herr⟩ := hN n hn
    obtain ⟨e, he, hle, -⟩ := errorDahlquistSDC_of_solve lam u0 tEnd n K hn0 Q QD f hQD w hw
      (hloc _ hzδ).1
    exact ⟨e, he, herr.trans (hle n le_rfl)⟩

/-- Instance: one exact sweep of implicit Euler. -/
example : SDCConverges (!![1] : Matrix (Fin 1) (Fin 1) ℝ) (.mat 1 1 !![1]) (1 : ℕ) (some ![1]) 0 :=
  (C60_criterion !![1] (.mat 1 1 !![1]) 1 (fun _ => !![1]) (.same 1 _) (some ![1]) (by simp) 0
    (fun j hj => by obtain rfl : j = 0 := by omega
                    simp [sdcFactorTaylor])).1

/-! ## One order per sweep -/

theorem sdcLinearOrder_quadrature {Q : Matrix (Fin M) (Fin M) ℝ} {w : Fin M → ℝ} {p : ℕ}
    (h : LinearOrder Q w p) (f : ℕ → Matrix (Fin M) (Fin M) ℝ) (K : ℕ) :
    SDCLinearOrder Q f K (some w) (min p (K + 1)) := by
  intro j hj
  cases j with
  | zero => simp [sdcFactorTaylor]
  | succ j =>
    rw [sdcFactorTaylor, sdcTaylor_eq Q f K j (by omega)]
    exact h j (by omega)

theorem sdcLinearOrder_quadrature_succ {Q : Matrix (Fin M) (Fin M) ℝ} {w : Fin M → ℝ} {p : ℕ}
    (h : LinearOrder Q w p) (f : ℕ → Matrix (Fin M) (Fin M) ℝ) (K : ℕ)
    (hd : w ⬝ᵥ sdcDefect Q f K = 0) :
    SDCLinearOrder Q f K (some w) (min p (K + 2)) := by
  intro j hj
  by_cases hjK : j ≤ K + 1
  · exact sdcLinearOrder_quadrature h f K j (by omega)
  · obtain rfl : j = K + 2 := by omega
    rw [sdcFactorTaylor, sdcTaylor_defect, dotProduct_sub, hd, sub_zero]
    exact h (K + 1) (by omega)

theorem pow_mulVec_last {Q : Matrix (Fin M) (Fin M) ℝ} (i : Fin M) (j : ℕ) :
    ((Q ^ (j + 1)) *ᵥ fun _ => 1) i = Q i ⬝ᵥ ((Q ^ j) *ᵥ fun _ => 1) := by
  rw [pow_succ', ← Matrix.mulVec_mulVec]
  rfl

theorem sdcLinearOrder_lastNode {Q : Matrix (Fin M) (Fin M) ℝ} (hM : 0 < M) {p : ℕ}
    (h : LinearOrder Q (Q ⟨M - 1, by omega⟩) p) (f : ℕ → Matrix (Fin M) (Fin M) ℝ) (K : ℕ) :
    SDCLinearOrder Q f K none (min p K) := by
  intro j hj
  rw [sdcFactorTaylor, dif_pos hM, sdcTaylor_eq Q f K j (by omega)]
  cases j with
  | zero => simp
  | succ j => rw [pow_mulVec_last, h j (by omega)]

theorem sdcLinearOrder_lastNode_succ {Q : Matrix (Fin M) (Fin M) ℝ} (hM : 0 < M) {p : ℕ}
    (h : LinearOrder Q (Q ⟨M - 1, by omega⟩) p) (f : ℕ → Matrix (Fin M) (Fin M) ℝ) (K : ℕ)
    (hd : sdcDefect Q f K ⟨M - 1, by omega⟩ = 0) :
    SDCLinearOrder Q f K none (min p (K + 1)) := by
  intro j hj
  by_cases hjK : j ≤ K
  · exact sdcLinearOrder_lastNode hM h f K j (by omega)
  · obtain rfl : j = K + 1 := by omega
    rw [sdcFactorTaylor, dif_pos hM, sdcTaylor_defect, Pi.sub_apply, hd, sub_zero, pow_mulVec_last,
      h K (by omega)]

/-- C60: whatever `QΔ`, every sweep gains one order on Dahlquist's equation up to the order `p` of the
method `(Q, w)`: `min p (K + 1)` with the quadrature after the last sweep, `min p K` with the last node
value (`p` the order for the last row of `Q`).  As long as `p` is not reached, it is exactly this order
unless the quadrature (the last entry) of the defect `(Q - QΔ_{K-1}) ⋯ (Q - QΔ_0) Q 1` vanishes, and
then one more. -/
theorem C60_one_order_per_sweep (Q : Matrix (Fin M) (Fin M) ℝ) (QD : SDCQDelta) (K : ℕ)
    (f : ℕ → Matrix (Fin M) (Fin M) ℝ) (hQD : SweepMatrices M K QD f) :
    (∀ (w : Fin M → ℝ) (p : ℕ), LinearOrder Q w p →
      SDCConverges Q QD K (some w) (min p (K + 1)) ∧
      (w ⬝ᵥ sdcDefect Q f K = 0 → SDCConverges Q QD K (some w) (min p (K + 2))) ∧
      (K + 2 ≤ p → w ⬝ᵥ sdcDefect Q f K ≠ 0 → SDCNotFaster Q QD K (some w) (K + 1))) ∧
    (∀ (hM : 0 < M) (p : ℕ), LinearOrder Q (Q ⟨M - 1, by omega⟩) p →
      SDCConverges Q QD K none (min p K) ∧
      (sdcDefect Q f K ⟨M - 1, by omega⟩ = 0 → SDCConverges Q QD K none (min p (K + 1))) ∧
      (0 < K → K + 1 ≤ p → sdcDefect Q f K ⟨M - 1, by omega⟩ ≠ 0 → SDCNotFaster Q QD K none K)) := by
  refine ⟨fun w p h => ⟨?_, fun hd => ?_, fun hp hd => ?_⟩, fun hM p h => ⟨?_, fun hd => ?_,
    fun hK hp hd => ?_⟩⟩
  · exact (C60_criterion Q QD K f hQD _ (by simp) _ (sdcLinearOrder_quadrature h f K)).1
  · exact (C60_criterion Q QD K f hQD _ (by simp) _ (sdcLinearOrder_quadrature_succ h f K hd)).1
  · have h1 := sdcLinearOrder_quadrature h f K
    rw [min_eq_right (by omega)] at h1
    refine (C60_criterion Q QD K f hQD _ (by simp) _ h1).2 (by omega) ?_
    rw [sdcFactorTaylor, sdcTaylor_defect, dotProduct_sub, h (K + 1) (by omega)]
    intro h2
    exact hd (by linarith)
  · exact (C60_criterion Q QD K f hQD _ (fun _ => hM) _ (sdcLinearOrder_lastNode hM h f K)).1
  · exact (C60_criterion Q QD K f hQD _ (fun _ => hM) _ (sdcLinearOrder_lastNode_succ hM h f K hd)).1
  · have h1 := sdcLinearOrder_lastNode hM h f K
    rw [min_eq_right (by omega)] at h1
    refine (C60_criterion Q QD K f hQD _ (fun _ => hM) _ h1).2 hK ?_
    rw [sdcFactorTaylor, dif_pos hM, sdcTaylor_defect, Pi.sub_apply, pow_mulVec_last, h K (by omega)]
    intro h2
    exact hd (by linarith)

/-! ## Collocation -/

theorem sdcDefect_zero {R : Type*} [CommRing R] {Q : Matrix (Fin M) (Fin M) R}
    {f : ℕ → Matrix (Fin M) (Fin M) R} (h : f 0 *ᵥ (Q *ᵥ fun _ => 1) = Q *ᵥ (Q *ᵥ fun _ => 1))
    {K : ℕ} (hK : 0 < K) : sdcDefect Q f K = 0 := by
  obtain ⟨k, rfl⟩ : ∃ k, K = k + 1 := ⟨K - 1, by omega⟩
  induction k with
  | zero => rw [sdcDefect, sdcDefect, Matrix.sub_mulVec, h, sub_self]
  | succ k ih => rw [sdcDefect, ih (by omega), Matrix.mulVec_zero]

theorem toNat_baseOrder (order K : ℕ) (qDelta upd : String) :
    (baseOrderSDC order K qDelta upd).toNat = min order
      ((if 0 < K then K + (if qDelta ∈ ["TRAPAR", "TRAP"] then 1 else 0) else 0) +
        if upd = "QUADRATURE" then 1 else 0) := by
  unfold baseOrderSDC
  by_cases hK : 0 < K
  · have : (K:ℤ) > 0 := by omega
    simp only [this, hK, if_true]
    split_ifs <;> omega
  · have : ¬ (K:ℤ) > 0 := by omega
    simp only [this, hK, if_false]
    split_ifs <;> omega

/-- A `QΔ` that is the trapezoidal rule, step by step or from zero, on the nodes of a collocation. -/
def IsTrapezoidal (c : Collocation M) (A : Matrix (Fin M) (Fin M) ℝ) : Prop :=
  ∃ g, TimeStepping.new c.nodes 0 = .ok g ∧ (A = g.computeTRAP ∨ A = g.computeTRAPAR)

theorem collocation_Q_one {nt qt : String} (c : Collocation M)
    (hc : Collocation.new M nt qt 0 1 = .ok c) : (c.Q *ᵥ fun _ => 1) = c.nodes := by
  funext i
  have := (C23_collocation_row_sums (by norm_num) c hc).1 i
  change ∑ j, c.Q i j * 1 = _
  simpa using this

/-- With one node the quadrature order is at most 2, and at most 1 when the node is the end of the step. -/
theorem order_one {nt qt : String} (c : Collocation M) (hc : Collocation.new M nt qt 0 1 = .ok c)
    (hM : M = 1) {p : ℕ}
    (hex : ∀ q : Polynomial ℝ, q.degree < p →
      ∑ j, c.weights j * q.eval (c.nodes j) = ∫ t in (0:ℝ)..1, q.eval t) :
    p ≤ 2 ∧ (qt = "RADAU-RIGHT" ∨ qt = "LOBATTO" → p ≤ 1) := by
  subst hM
  have hcard := order_le_of_ends (by norm_num) hex
  refine ⟨by omega, fun hr => ?_⟩
  obtain ⟨-, -, -, hb⟩ := C24_collocation_nodes (by norm_num) c hc
  obtain ⟨i, hi⟩ := hb hr (Or.inr (by norm_num))
  have : 0 < (Finset.univ.filter fun i => c.nodes i = 0 ∨ c.nodes i = 1).card :=
    Finset.card_pos.mpr ⟨i, Finset.mem_filter.mpr ⟨Finset.mem_univ _, Or.inr hi⟩⟩
  omega

theorem base_linearOrder {nt qt : String} (c : Collocation M)
    (hc : Collocation.new M nt qt 0 1 = .ok c) (K : ℕ)
    (f : ℕ → Matrix (Fin M) (Fin M) ℝ) (qDelta : String)
    (hq : qDelta ∈ ["TRAPAR", "TRAP"] → IsTrapezoidal c (f 0)) (order : ℕ)
    (hex : ∀ q : Polynomial ℝ, q.degree < order →
      ∑ j, c.weights j * q.eval (c.nodes j) = ∫ t in (0:ℝ)..1, q.eval t) :
      SDCLinearOrder c.Q f K (some c.weights) (baseOrderSDC order K qDelta "QUADRATURE").toNat ∧
      (qt = "RADAU-RIGHT" ∨ qt = "LOBATTO" →
        SDCLinearOrder c.Q f K none (baseOrderSDC order K qDelta "LASTNODE").toNat) := by
  obtain ⟨x, hM0, h⟩ := collocation_spec hc
  have hlin := collocation_order_conditions c hc hex
  have hdef : qDelta ∈ ["TRAPAR", "TRAP"] → 0 < K → 2 ≤ M → sdcDefect c.Q f K = 0 := by
    intro hq1 hK hM2
    obtain ⟨g, hg, hA⟩ := hq hq1
    obtain ⟨g', hg', h1, h2⟩ := C42_trap_matches_Q (by norm_num) hM2 c hc
    rw [hg] at hg'
    cases hg'
    refine sdcDefect_zero ?_ hK
    rw [collocation_Q_one c hc]
    rcases hA with hA | hA
    · rw [hA]
      simpa using h1
    · rw [hA]
      exact h2 rfl
  refine ⟨?_, fun hr => ?_⟩
  · rw [toNat_baseOrder, if_pos rfl]
    have k1 := sdcLinearOrder_quadrature hlin f K
    by_cases hK : 0 < K
    · rw [if_pos hK]
      by_cases hq1 : qDelta ∈ ["TRAPAR", "TRAP"]
      · rw [if_pos hq1]
        by_cases hM2 : 2 ≤ M
        · refine sdcLinearOrder_quadrature_succ hlin f K ?_
          rw [hdef hq1 hK hM2, dotProduct_zero]
        · have := (order_one c hc (by omega) hex).1
          have e : min order (K + 1 + 1) = min order (K + 1) := by omega
          rw [e]
          exact k1
      · rw [if_neg hq1]
        exact k1
    · rw [if_neg hK]
      obtain rfl : K = 0 := by omega
      exact k1
  · have hlast : c.nodes ⟨M - 1, by omega⟩ = 1 := by
      obtain ⟨hmono, hmem, -, hb⟩ := C24_collocation_nodes (by norm_num) c hc
      obtain ⟨i, hi⟩ := hb hr (Or.inr (by norm_num))
      have h1 : c.nodes i ≤ c.nodes ⟨M - 1, by omega⟩ :=
        hmono.monotone (Fin.mk_le_mk.mpr (by have := i.2; omega))
      exact le_antisymm (hmem _).2 (hi ▸ h1)
    have hrow := C26_weights_last_row (by norm_num) c hc ⟨M - 1, by omega⟩ hlast
    rw [toNat_baseOrder, if_neg (show ¬ "LASTNODE" = "QUADRATURE" by decide)]
    have hlin' : LinearOrder c.Q (c.Q ⟨M - 1, by omega⟩) order := by rw [← hrow]; exact hlin
    have k2 := sdcLinearOrder_lastNode hM0 hlin' f K
    by_cases hK : 0 < K
    · rw [if_pos hK]
      by_cases hq1 : qDelta ∈ ["TRAPAR", "TRAP"]
      · rw [if_pos hq1]
        by_cases hM2 : 2 ≤ M
        · refine sdcLinearOrder_lastNode_succ hM0 hlin' f K ?_
          rw [hdef hq1 hK hM2, Pi.zero_apply]
        · have := (order_one c hc (by omega) hex).2 hr
          have e : min order (K + 1 + 0) = min order K := by omega
          rw [e]
          exact k2
      · rw [if_neg hq1]
        exact k2
    · rw [if_neg hK]
      obtain rfl : K = 0 := by omega
      exact k2

/-- C60 for collocation methods on `[0, 1]`: the order that `getOrderSDC` starts from (before its special
cases) is right, for every number of sweeps, with any `QΔ`, if it starts from the order of the quadrature: `K + 1`
sweeps count with the quadrature update, `K` with the last node (when it is the end of the step), one more if the
first `QΔ` is a trapezoidal rule, and never more than the order of the collocation. -/
theorem C60_base_order {nt qt : String} (c : Collocation M)
    (hc : Collocation.new M nt qt 0 1 = .ok c) (QD : SDCQDelta) (K : ℕ)
    (f : ℕ → Matrix (Fin M) (Fin M) ℝ) (hQD : SweepMatrices M K QD f) (qDelta : String)
    (hq : qDelta ∈ ["TRAPAR", "TRAP"] → IsTrapezoidal c (f 0)) (order : ℕ)
    (hex : ∀ q : Polynomial ℝ, q.degree < order →
      ∑ j, c.weights j * q.eval (c.nodes j) = ∫ t in (0:ℝ)..1, q.eval t) :
      SDCConverges c.Q QD K (some c.weights) (baseOrderSDC order K qDelta "QUADRATURE").toNat ∧
      (qt = "RADAU-RIGHT" ∨ qt = "LOBATTO" →
        SDCConverges c.Q QD K none (baseOrderSDC order K qDelta "LASTNODE").toNat) := by
  obtain ⟨x, hM0, -⟩ := collocation_spec hc
  obtain ⟨h1, h2⟩ := base_linearOrder c hc K f qDelta hq order hex
  exact ⟨(C60_criterion c.Q QD K f hQD _ (by simp) _ h1).1,
    fun hr => (C60_criterion c.Q QD K f hQD _ (fun _ => hM0) _ (h2 hr)).1⟩

/-- C60 with the value of `Collocation.order`: whenever the closeness tests of the constructor moved no node. -/
theorem C60_base_order_unmoved {nt qt : String} (c : Collocation M)
    (hc : Collocation.new M nt qt 0 1 = .ok c) (x : Fin M → ℝ) (hx : NodesGenerator.getNodes ⟨nt, qt⟩ M = .ok x)
    (hun : ∀ i, c.nodes i = (x i + 1) / 2) (QD : SDCQDelta) (K : ℕ)
    (f : ℕ → Matrix (Fin M) (Fin M) ℝ) (hQD : SweepMatrices M K QD f) (qDelta : String)
    (hq : qDelta ∈ ["TRAPAR", "TRAP"] → IsTrapezoidal c (f 0)) :
    ∃ order, c.order = some order ∧
      SDCConverges c.Q QD K (some c.weights) (baseOrderSDC order K qDelta "QUADRATURE").toNat ∧
      (qt = "RADAU-RIGHT" ∨ qt = "LOBATTO" →
        SDCConverges c.Q QD K none (baseOrderSDC order K qDelta "LASTNODE").toNat) := by
  obtain ⟨order, ho, -, hex⟩ := C28_quadrature_order_unmoved (by norm_num) c hc x hx
    (fun i => by rw [hun]; ring)
  exact ⟨order, ho, C60_base_order c hc QD K f hQD qDelta hq order hex⟩

/-- C60 with the value of `Collocation.order`, up to 158 nodes: no node can have been moved. -/
theorem C60_base_order_small {nt qt : String} (hM : M ≤ 158) (c : Collocation M)
    (hc : Collocation.new M nt qt 0 1 = .ok c) (QD : SDCQDelta) (K : ℕ)
    (f : ℕ → Matrix (Fin M) (Fin M) ℝ) (hQD : SweepMatrices M K QD f) (qDelta : String)
    (hq : qDelta ∈ ["TRAPAR", "TRAP"] → IsTrapezoidal c (f 0)) :
    ∃ order, c.order = some order ∧
      SDCConverges c.Q QD K (some c.weights) (baseOrderSDC order K qDelta "QUADRATURE").toNat ∧
      (qt = "RADAU-RIGHT" ∨ qt = "LOBATTO" →
        SDCConverges c.Q QD K none (baseOrderSDC order K qDelta "LASTNODE").toNat) := by
  have hw : Wide M 0 1 := by
    have : (M:ℝ) ≤ 158 := by exact_mod_cast hM
    have h0 : (0:ℝ) ≤ M := by positivity
    unfold Wide
    norm_num
    nlinarith
  obtain ⟨order, ho, -, hex⟩ := C28_quadrature_order hw c hc
  exact ⟨order, ho, C60_base_order c hc QD K f hQD qDelta hq order hex⟩

/-- C60, instance: two sweeps of implicit Euler on three Gauss-Radau nodes. -/
example : ∃ (c : Collocation 3) (A : Matrix (Fin 3) (Fin 3) ℝ),
    Collocation.new 3 "LEGENDRE" "RADAU-RIGHT" 0 1 = .ok c ∧ c.order = some 5 ∧
    SweepMatrices 3 2 (.mat 3 3 A) (fun _ => A) ∧
    SDCConverges c.Q (.mat 3 3 A) 2 (some c.weights) 3 ∧ SDCConverges c.Q (.mat 3 3 A) 2 none 2 := by
  obtain ⟨c, hc⟩ := collocation_new_ok (M := 3) (nt := "LEGENDRE") (qt := "RADAU-RIGHT") (by decide)
    (by decide) ⟨by decide, by decide⟩ 0 1
  obtain ⟨g, hg⟩ : ∃ g, TimeStepping.new c.nodes 0 = .ok g := ⟨_, rfl⟩
  have hS : SweepMatrices 3 (2:ℕ) (.mat 3 3 g.computeBE) (fun _ => g.computeBE) := .same 2 _
  obtain ⟨order, ho, h1, h2⟩ := C60_base_order_small (by norm_num) c hc _ 2 _ hS "BE" (by simp)
  have ho5 : c.order = some 5 := by
    unfold Collocation.order
    obtain ⟨x, hM0, h⟩ := collocation_spec hc
    rw [h.nodeType, h.quadType]
    decide
  obtain rfl : order = 5 := by rw [ho5] at ho; simpa using ho.symm
  exact ⟨c, g.computeBE, hc, ho5, hS, h1, h2 (Or.inl rfl)⟩

/-- Instance of `C60_base_order`, `C60_base_order_unmoved`: three Lobatto nodes, starting from order four. -/
example : ∃ (c : Collocation 3) (A : Matrix (Fin 3) (Fin 3) ℝ), Collocation.new 3 "LEGENDRE" "LOBATTO" 0 1 = .ok c ∧
    SDCConverges c.Q (.mat 3 3 A) 5 (some c.weights) 4 ∧ SDCConverges c.Q (.mat 3 3 A) 3 none 3 := by
  obtain ⟨c, hc⟩ := collocation_new_ok (M := 3) (nt := "LEGENDRE") (qt := "LOBATTO") (by decide)
    (by decide) ⟨by decide, by decide⟩ 0 1
  obtain ⟨g, hg⟩ : ∃ g, TimeStepping.new c.nodes 0 = .ok g := ⟨_, rfl⟩
  obtain ⟨x, hM, hs⟩ := collocation_spec hc
  have hun : ∀ i, c.nodes i = (x i + 1) / 2 := fun i => by
    rw [nodes_unsnapped c hc x hs.getNodes hM (Or.inl (hs.first (Or.inr rfl))) (Or.inl (hs.last (Or.inr rfl)))]
    ring
  have ho4 : c.order = some 4 := by
    unfold Collocation.order
    rw [hs.nodeType, hs.quadType]
    decide
  obtain ⟨order, ho, h1, -⟩ := C60_base_order_unmoved c hc x hs.getNodes hun (.mat 3 3 g.computeBE) 5
    (fun _ => g.computeBE) (.same 5 _) "BE" (by simp)
  obtain ⟨order', ho', -, h2⟩ := C60_base_order_unmoved c hc x hs.getNodes hun (.mat 3 3 g.computeBE) 3
    (fun _ => g.computeBE) (.same 3 _) "BE" (by simp)
  obtain rfl : order = 4 := by rw [ho4] at ho; simpa using ho.symm
  obtain rfl : order' = 4 := by rw [ho4] at ho'; simpa using ho'.symm
  exact ⟨c, g.computeBE, hc, h1, h2 (Or.inr rfl)⟩

/-- C60, instance: the defect of one sweep of explicit Euler (`QΔ = 0`) with `Q = (1)`, `w = (1)` does not
vanish, that of implicit Euler does; the orders of `w` alone are one. -/
example : LinearOrder (!![1] : Matrix (Fin 1) (Fin 1) ℝ) ![1] 1 ∧
    sdcDefect (!![1] : Matrix (Fin 1) (Fin 1) ℝ) (fun _ => 0) 1 0 ≠ 0 ∧
    sdcDefect (!![1] : Matrix (Fin 1) (Fin 1) ℝ) (fun _ => !![1]) 1 0 = 0 := by
  refine ⟨?_, ?_, ?_⟩
  · intro j hj
    interval_cases j <;> simp
  · simp [sdcDefect, Matrix.mulVec, dotProduct]
  · simp [sdcDefect, Matrix.mulVec, dotProduct]

/-- Instance of `C60_one_order_per_sweep`: two sweeps of any kind with weights of order three. -/
example (Q A : Matrix (Fin M) (Fin M) ℝ) (w : Fin M → ℝ) (h : LinearOrder Q w 3) :
    SDCConverges Q (.mat M M A) (2 : ℕ) (some w) (min 3 (2 + 1)) :=
  ((C60_one_order_per_sweep Q (.mat M M A) 2 (fun _ => A) (.same 2 _)).1 w 3 h).1

end QMat
