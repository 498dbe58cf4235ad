import Verif.Lemmas.TreeODE
import Verif.Props.Trees
import Verif.Props.Butcher
import Mathlib.Analysis.Calculus.Deriv.Pow
import Mathlib.Analysis.Calculus.Deriv.Inv

/-!
# C82, C83: order of the Runge-Kutta classes and of collocation on every smooth differential equation
-/

namespace QMat

open Spec Matrix RTree

section General

variable {s : ℕ} {c b : Fin s → ℝ} {A : Matrix (Fin s) (Fin s) ℝ}

theorem treeOrder_zero {p : ℕ} : TreeOrder A b p 0 ↔
    ∀ t : RTree, t.order ≤ p → t.elementaryWeight A b = 1 / t.density :=
  forall₂_congr fun t _ => by rw [abs_nonpos_iff, sub_eq_zero]

/-- The step from zero for the equation of the trees. -/
theorem tree_nearStep (m : ℕ) {ρ : ℝ} (hρ : 0 < ρ) : ∃ h0 > 0, ∀ h, 0 ≤ h → h < h0 →
    NearStep c A b (fun _ => treeField m) 0 h 0 ρ (treeStage m (fun i j => A i j) (stageWeight A) h)
      (fun τ : upTo m => h ^ τ.1.order * τ.1.elementaryWeight A b) := by
  obtain ⟨h0, hh0, H⟩ := treeStage_small m (fun i j => A i j) (stageWeight A) hρ
  refine ⟨h0, hh0, fun h hh hlt => ⟨⟨treeStage_stages (stageWeight_node A) m h, ?_⟩, H h hh hlt⟩⟩
  rw [tree_weighted (stageWeight_node A), zero_add]
  rfl

/-- C82: a Runge-Kutta method has order `p` on the polynomial equation of the trees with up to `p` vertices only if it satisfies
all order conditions. -/
theorem C82_necessary {p : ℕ}
    (h : LocalOrder c A b p (fun _ => treeField p) (treeSol p) 0 1) : TreeOrder A b p 0 := by
  rw [treeOrder_zero]
  intro t ht
  obtain ⟨ρ, hρ, h0, hh0, C, H⟩ := h
  obtain ⟨h1, hh1, H1⟩ := tree_nearStep (c := c) (A := A) (b := b) p hρ
  refine sub_eq_zero.1 (eq_of_pow_bound (C := C) (lt_min (lt_min hh0 hh1) one_pos) ht
    fun h hpos hlt => ?_)
  have hl0 := hlt.trans_le ((min_le_left _ _).trans (min_le_left _ _))
  have hl1 := hlt.trans_le ((min_le_left _ _).trans (min_le_right _ _))
  have hl2 := hlt.trans_le (min_le_right _ _)
  have h2 := (H 0 h le_rfl hpos.le hl0 (by linarith)).2
  rw [treeSol_zero] at h2
  have h3 := h2 _ _ (H1 h hpos.le hl1)
  rw [zero_add] at h3
  have h4 := (norm_le_pi_norm ((fun τ : upTo p => h ^ τ.1.order * τ.1.elementaryWeight A b) - treeSol p h)
    ⟨t, (mem_upTo p t).2 ht⟩).trans h3
  rw [Real.norm_eq_abs] at h4
  refine le_trans (le_of_eq ?_) h4
  simp only [Pi.sub_apply, treeSol, mul_sub]

/-- C82: the order conditions decide the order: a Runge-Kutta method whose nodes are the row sums has order `p` on all smooth
differential equations in all Banach spaces if and only if it satisfies the conditions of all rooted trees with up to `p`
vertices. -/
theorem C82_order_iff (hrow : ∀ i, ∑ j, A i j = c i) {p : ℕ} (hp : 1 ≤ p) :
    (∀ (E : Type) [NormedAddCommGroup E] [NormedSpace ℝ E] [CompleteSpace E] (f : ℝ → E → E) (y : ℝ → E)
      (t0 T : ℝ), Solves f y t0 T → SmoothAlong p f y t0 T → LocalOrder c A b p f y t0 T) ↔
      TreeOrder A b p 0 := by
  constructor
  · intro h
    refine C82_necessary (h _ _ _ 0 1 (treeSol_solves p 0 1) fun t _ => ?_)
    exact ((treeField_contDiff p).comp contDiff_snd).contDiffAt
  · intro h E _ _ _ f y t0 T hy hf
    exact localOrder_of_trees hrow hp (treeOrder_zero.1 h) hy hf

/-- C82: a scheme that is good for the quadrature `u' = t^k` of order `p > k` integrates `t^k`. -/
theorem C82_quadrature {k p : ℕ} (hk : k < p) {T : ℝ} (hT : 0 < T)
    (h : LocalOrder c A b p (fun t (_ : ℝ) => t ^ k) (fun t => t ^ (k + 1) / (k + 1)) 0 T) :
    ∑ i, b i * c i ^ k = 1 / (k + 1 : ℝ) := by
  obtain ⟨ρ, hρ, h0, hh0, C, H⟩ := h
  refine sub_eq_zero.1 (eq_of_pow_bound (C := C) (n := k + 1) (p := p) (lt_min hh0 hT) hk
    fun h hpos hlt => ?_)
  have hl0 := hlt.trans_le (min_le_left _ _)
  have hl1 := hlt.trans_le (min_le_right _ _)
  obtain ⟨⟨v, hv, -⟩, h2⟩ := H 0 h le_rfl hpos.le hl0 (by linarith)
  have h3 := h2 _ _ hv
  rw [hv.1.result, Real.norm_eq_abs] at h3
  refine le_trans (le_of_eq ?_) h3
  congr 1
  simp only [zero_add, ne_eq, Nat.add_eq_zero_iff, one_ne_zero, and_false, not_false_eq_true, zero_pow, zero_div,
    smul_eq_mul, mul_pow, mul_sub, Finset.mul_sum]
  congr 1
  · refine Finset.sum_congr rfl fun i _ => ?_
    ring
  · ring

/-- Instance of the conclusion for the midpoint rule: `∑ bᵢ cᵢ = 1 / 2` if it has local order two on `y' = t`. -/
example (h : LocalOrder ![(1:ℝ)/2] !![(1:ℝ)/2] ![1] 2 (fun t (_ : ℝ) => t ^ 1) (fun t => t ^ (1 + 1) / ((1:ℕ) + 1)) 0 1) :
    ∑ i, ![(1:ℝ)] i * ![(1:ℝ)/2] i ^ 1 = 1 / ((1:ℕ) + 1 : ℝ) :=
  C82_quadrature (by norm_num) one_pos h

/-- With a strictly lower triangular matrix there is only one step. -/
theorem explicit_unique {E : Type*} [NormedAddCommGroup E] [NormedSpace ℝ E] (hA : ∀ i j : Fin s, i ≤ j → A i j = 0)
    {f : ℝ → E → E} {t h : ℝ} {u u1 u1' : E} {Y Y' : Fin s → E} (H : RKStep c A b f t h u Y u1)
    (H' : RKStep c A b f t h u Y' u1') : Y = Y' ∧ u1 = u1' := by
  have hY : ∀ n (i : Fin s), (i : ℕ) < n → Y i = Y' i := by
    intro n
    induction n with
    | zero => intro i hi; omega
    | succ n ih =>
      intro i hi
      rw [H.stages i, H'.stages i]
      congr 2
      refine Finset.sum_congr rfl fun j _ => ?_
      by_cases hij : i ≤ j
      · rw [hA i j hij, zero_smul, zero_smul]
      · have : (j : ℕ) < i := Fin.lt_def.1 (not_le.1 hij)
        rw [ih j (by omega)]
  have e : Y = Y' := funext fun i => hY s i i.2
  exact ⟨e, by rw [H.result, H'.result, e]⟩

end General

/-! ## Registered classes -/

section Tables

/-- The exact tables satisfy the row sums, unless they are `RK53`. -/
theorem table_rows {T : RKTable} (hT : T ∈ Tables.rkSchemes) (hx : tableAccuracy T.name = 0) (hn : T.name ≠ "RK53")
    (i : Fin T.toRK.s) : ∑ j, T.toRK.A i j = T.toRK.c i := by
  have := C34_row_sums T hT hn i
  rw [hx, Rat.cast_zero] at this
  exact sub_eq_zero.1 (abs_nonpos_iff.1 this)

/-- The exact tables satisfy the order conditions, with the exceptions of C33. -/
theorem table_trees {T : RKTable} (hT : T ∈ Tables.rkSchemes) (hx : tableAccuracy T.name = 0)
    (hn : T.name ∉ ["RK32", "ARK343ERK"]) : TreeOrder T.toRK.A T.toRK.b T.order 0 := by
  have := C33_tree_conditions T hT hn
  rwa [hx, Rat.cast_zero] at this

/-- C82: every registered class with exact coefficients, other than `RK32` and `RK53`, has its declared order on every
differential equation `u' = f(t, u)` that is smooth along the solution, in every Banach space. -/
theorem C82_tables (T : RKTable) (hT : T ∈ Tables.rkSchemes) (hx : tableAccuracy T.name = 0)
    (hn : T.name ∉ ["RK32", "RK53"]) {E : Type*} [NormedAddCommGroup E] [NormedSpace ℝ E] [CompleteSpace E]
    (f : ℝ → E → E) (y : ℝ → E) (t0 t1 : ℝ) (hy : Solves f y t0 t1) (hf : SmoothAlong T.order f y t0 t1) :
    LocalOrder T.toRK.c T.toRK.A T.toRK.b T.order f y t0 t1 := by
  have hn' : T.name ∉ ["RK32", "ARK343ERK"] := by
    simp only [List.mem_cons, List.not_mem_nil, or_false, not_or] at hn ⊢
    refine ⟨hn.1, fun h => ?_⟩
    rw [h] at hx
    exact absurd hx (by decide +kernel)
  have hn'' : T.name ≠ "RK53" := fun h => hn (by simp [h])
  exact localOrder_of_trees (table_rows hT hx hn'') (tables_shape T hT).2.2.2.1
    (treeOrder_zero.1 (table_trees hT hx hn')) hy hf

/-- C83: ... and all steps up to a given time converge with the declared order. -/
theorem C83_tables (T : RKTable) (hT : T ∈ Tables.rkSchemes) (hx : tableAccuracy T.name = 0)
    (hn : T.name ∉ ["RK32", "RK53"]) {E : Type*} [NormedAddCommGroup E] [NormedSpace ℝ E] [CompleteSpace E]
    (f : ℝ → E → E) (y : ℝ → E) (t0 t1 : ℝ) (hy : Solves f y t0 t1) (hf : SmoothAlong T.order f y t0 t1) :
    GlobalOrder T.toRK.c T.toRK.A T.toRK.b T.order f y t0 t1 := by
  have hn' : T.name ∉ ["RK32", "ARK343ERK"] := by
    simp only [List.mem_cons, List.not_mem_nil, or_false, not_or] at hn ⊢
    refine ⟨hn.1, fun h => ?_⟩
    rw [h] at hx
    exact absurd hx (by decide +kernel)
  have hn'' : T.name ≠ "RK53" := fun h => hn (by simp [h])
  exact globalOrder_of_trees (table_rows hT hx hn'') (tables_shape T hT).2.2.2.1
    (treeOrder_zero.1 (table_trees hT hx hn')) hy hf

/-- C82: every registered class other than `RK32` and `ARK343ERK`, also with rounded coefficients, on `u' = f(u)`: the local error is at most
`ε B h + C h^(p+1)`, with the accuracy `ε` of the coefficients and a number `B` that depends on the equation and the order only. -/
theorem C82_tables_rounded {E : Type*} [NormedAddCommGroup E] [NormedSpace ℝ E] [CompleteSpace E] (p : ℕ)
    (f : E → E) (y : ℝ → E) (t0 t1 : ℝ) (hy : Solves (fun _ => f) y t0 t1)
    (hf : ∀ t ∈ Set.Icc t0 t1, ContDiffAt ℝ p f (y t)) :
    ∃ B, 0 ≤ B ∧ ∀ T ∈ Tables.rkSchemes, T.name ∉ ["RK32", "ARK343ERK"] → T.order = p →
      ∃ ρ > 0, ∃ h0 > 0, ∃ C, ∀ t h, t0 ≤ t → 0 ≤ h → h < h0 → t + h ≤ t1 →
        (∃! v : (Fin T.toRK.s → E) × E, NearStep T.toRK.c T.toRK.A T.toRK.b (fun _ => f) t h (y t) ρ v.1 v.2) ∧
        ∀ Y u1, NearStep T.toRK.c T.toRK.A T.toRK.b (fun _ => f) t h (y t) ρ Y u1 →
          ‖u1 - y (t + h)‖ ≤ tableAccuracy T.name * B * h + C * h ^ (p + 1) := by
  have hf' : ∀ s ∈ Set.Icc (0 : ℝ) (t1 - t0), ContDiffAt ℝ p f (y (t0 + s)) := fun s hs =>
    hf _ ⟨by linarith [hs.1], by linarith [hs.2]⟩
  have hy' := shift_solves hy
  obtain ⟨B, hB0, hB⟩ := elemDiff_bound (isCompact_Icc.image_of_continuousOn fun s hs =>
    (hy' s hs).continuousWithinAt) (p := p) (f := f) (by
      rintro _ ⟨s, hs, rfl⟩
      exact hf' s hs)
  refine ⟨B, hB0, fun T hT hn hp => ?_⟩
  obtain ⟨ρ, hρ, H⟩ := local_full (A := fun i j => T.toRK.A i j) (b := T.toRK.b) (W := stageWeight T.toRK.A)
    (ε := tableAccuracy T.name) (stageWeight_node T.toRK.A) (hp ▸ (tables_shape T hT).2.2.2.1) hy' hf'
    (fun s hs => hB _ ⟨s, hs, rfl⟩) (fun t ht => C33_tree_conditions T hT hn t (by omega))
  obtain ⟨h0, hh0, C, hC, H⟩ := H ρ hρ le_rfl
  refine ⟨ρ, hρ, h0, hh0, C, fun t h ht hh hlt hth => ?_⟩
  obtain ⟨⟨Z, hZ, hZn⟩, H2, H3⟩ := H (t - t0) ⟨by linarith, by linarith⟩ h ⟨hh, hlt⟩ (by linarith)
  simp only [add_sub_cancel] at hZ hZn H2 H3
  refine ⟨⟨(Z, y t + h • ∑ i, T.toRK.b i • f (Z i)), ⟨⟨hZ, rfl⟩, hZn⟩, ?_⟩, ?_⟩
  · rintro ⟨Y, u1⟩ hv
    have hYZ := H2 _ _ hv.1.stages hZ hv.2 hZn
    have hu1 := hv.1.result
    change Y = Z at hYZ
    subst hYZ
    exact Prod.ext rfl hu1
  · intro Y u1 hv
    have := H3 _ hv.1.stages hv.2
    rw [show t0 + (t - t0 + h) = t + h by ring] at this
    rw [hv.1.result]
    exact this

/-- C82, finding: `RK32` (declared order 3) and `ARK343ERK` (declared order 4) do not have their declared order on the polynomial
equation of the trees. -/
theorem C82_order_fails : ∃ T ∈ Tables.rkSchemes, ∃ T' ∈ Tables.rkSchemes,
    T.name = "RK32" ∧ T'.name = "ARK343ERK" ∧
    ¬ LocalOrder T.toRK.c T.toRK.A T.toRK.b T.order (fun _ => treeField T.order) (treeSol T.order) 0 1 ∧
    ¬ LocalOrder T'.toRK.c T'.toRK.A T'.toRK.b T'.order (fun _ => treeField T'.order) (treeSol T'.order) 0 1 := by
  obtain ⟨⟨T, hT, hn, t, ht, h⟩, ⟨T', hT', hn', t', ht', h'⟩, -⟩ := C33_tree_fails
  refine ⟨T, hT, T', hT', hn, hn', fun hl => ?_, fun hl => ?_⟩
  · have := C82_necessary hl t ht.le
    linarith
  · have := C82_necessary hl t' ht'.le
    linarith

/-- C82, finding: `RK32` misses the solution `t^3 / 3` of `u' = t^2`. -/
theorem C82_quadrature_fails : ∃ T ∈ Tables.rkSchemes, T.name = "RK32" ∧ T.order = 3 ∧
    ¬ LocalOrder T.toRK.c T.toRK.A T.toRK.b 3 (fun t (_ : ℝ) => t ^ 2) (fun t => t ^ (2 + 1) / ((2 : ℕ) + 1)) 0 1 := by
  refine ⟨Tables.tRK32, by simp [Tables.rkSchemes], rfl, rfl, fun h => ?_⟩
  have := C82_quadrature (by norm_num) one_pos h
  revert this
  change ¬ ∑ i : Fin 3, Tables.tRK32.toRK.b i * Tables.tRK32.toRK.c i ^ 2 = _
  rw [Fin.sum_univ_three]
  change ¬ (Quad.q 1 2 : Quad 2).toReal * (Quad.q 0 : Quad 2).toReal ^ 2 +
    (Quad.q 0 : Quad 2).toReal * (Quad.q 1 3 : Quad 2).toReal ^ 2 +
    (Quad.q 1 2 : Quad 2).toReal * (Quad.q 1 : Quad 2).toReal ^ 2 = _
  simp only [Quad.toReal_q]
  norm_num

/-- C82: the embedded weights of the exact tables have the declared embedded order. -/
theorem C82_embedded (T : RKTable) (hT : T ∈ Tables.rkSchemes) (hx : tableAccuracy T.name = 0) (hn : T.name ≠ "RK53")
    (w : Fin T.toRK.s → ℝ) (hw : T.toRK.b2 = some ⟨T.toRK.s, w⟩) (hp : 1 ≤ T.orderEmbedded)
    {E : Type*} [NormedAddCommGroup E] [NormedSpace ℝ E] [CompleteSpace E]
    (f : ℝ → E → E) (y : ℝ → E) (t0 t1 : ℝ) (hy : Solves f y t0 t1) (hf : SmoothAlong T.orderEmbedded f y t0 t1) :
    LocalOrder T.toRK.c T.toRK.A w T.orderEmbedded f y t0 t1 ∧
    GlobalOrder T.toRK.c T.toRK.A w T.orderEmbedded f y t0 t1 := by
  have ht := C33_tree_conditions_embedded T hT (fun h => by
    rw [h] at hx
    exact absurd hx (by decide +kernel)) w hw
  rw [hx, Rat.cast_zero] at ht
  exact ⟨localOrder_of_trees (table_rows hT hx hn) hp (treeOrder_zero.1 ht) hy hf,
    globalOrder_of_trees (table_rows hT hx hn) hp (treeOrder_zero.1 ht) hy hf⟩

/-- C82, finding: the embedded weights of `ARK548L2SAESDIRK` miss their declared order 5. -/
theorem C82_embedded_fails : ∃ T ∈ Tables.rkSchemes, T.name = "ARK548L2SAESDIRK" ∧ ∃ w : Fin T.toRK.s → ℝ,
    T.toRK.b2 = some ⟨T.toRK.s, w⟩ ∧
    ¬ LocalOrder T.toRK.c T.toRK.A w T.orderEmbedded (fun _ => treeField T.orderEmbedded) (treeSol T.orderEmbedded) 0 1 := by
  obtain ⟨-, -, T, hT, hn, w, hw, t, ht, h⟩ := C33_tree_fails
  refine ⟨T, hT, hn, w, hw, fun hl => ?_⟩
  have := C82_necessary hl t ht.le
  linarith

/-- C83: with an explicit class the steps are unique; the values of `N` steps converge. -/
theorem C83_explicit (T : RKTable) (hT : T ∈ Tables.rkSchemes) (he : T.name ∈ explicitSchemes)
    (hx : tableAccuracy T.name = 0)
    (hn : T.name ∉ ["RK32", "RK53"]) {E : Type*} [NormedAddCommGroup E] [NormedSpace ℝ E] [CompleteSpace E]
    (f : ℝ → E → E) (y : ℝ → E) (t0 t1 : ℝ) (hy : Solves f y t0 t1) (hf : SmoothAlong T.order f y t0 t1) :
    ∃ h0 > 0, ∃ C, ∀ h, 0 ≤ h → h < h0 → ∀ N : ℕ, t0 + N * h ≤ t1 → ∀ (u : ℕ → E) (Y : ℕ → Fin T.toRK.s → E),
      u 0 = y t0 → (∀ n < N, RKStep T.toRK.c T.toRK.A T.toRK.b f (t0 + n * h) h (u n) (Y n) (u (n + 1))) →
      ∀ n ≤ N, ‖u n - y (t0 + n * h)‖ ≤ C * h ^ T.order := by
  obtain ⟨ρ, hρ, h0, hh0, C, H⟩ := C83_tables T hT hx hn f y t0 t1 hy hf
  refine ⟨h0, hh0, C, fun h hh hlt N hN u Y hu0 hst n hn => ?_⟩
  obtain ⟨⟨u', Y', hr⟩, H2, -⟩ := H h hh hlt N hN
  have hu : ∀ n ≤ N, u n = u' n := by
    intro n
    induction n with
    | zero => intro _; rw [hu0, hr.start]
    | succ n ih =>
      intro hn
      have h1 := hst n (by omega)
      rw [ih (by omega)] at h1
      exact (explicit_unique (C35_explicit T hT he) h1 (hr.step n (by omega)).1).2
  rw [hu n hn]
  exact H2 u' Y' hr n hn

/-- The solution `1 / (1 - t)` of `u' = u^2` on `[0, 1/2]`. -/
theorem solves_riccati : Solves (fun _ (u : ℝ) => u ^ 2) (fun t => (1 - t)⁻¹) 0 (1 / 2) := by
  intro t ht
  have h1 : (1 : ℝ) - t ≠ 0 := by linarith [ht.2]
  have := (((hasDerivAt_id t).const_sub 1).inv h1).hasDerivWithinAt (s := Set.Icc 0 (1 / 2))
  refine this.congr_deriv ?_
  change - -1 / (1 - t) ^ 2 = ((1 - t)⁻¹) ^ 2
  rw [neg_neg, one_div, inv_pow]

/-- Example for C82, C83: `RK4` converges with order 4 on `u' = u^2`. -/
example : ∃ h0 > 0, ∃ C, ∀ h : ℝ, 0 ≤ h → h < h0 → ∀ N : ℕ, 0 + N * h ≤ 1 / 2 →
    ∀ (u : ℕ → ℝ) (Y : ℕ → Fin Tables.tRK4.toRK.s → ℝ), u 0 = 1 →
      (∀ n < N, RKStep Tables.tRK4.toRK.c Tables.tRK4.toRK.A Tables.tRK4.toRK.b (fun _ u => u ^ 2) (0 + n * h) h
        (u n) (Y n) (u (n + 1))) →
      ∀ n ≤ N, ‖u n - (1 - (0 + n * h))⁻¹‖ ≤ C * h ^ 4 := by
  have := C83_explicit Tables.tRK4 (by simp [Tables.rkSchemes]) (by decide) (by decide +kernel) (by decide) _ _ 0 (1 / 2)
    solves_riccati (fun t _ => (contDiff_snd.pow 2).contDiffAt)
  simp only [sub_zero, inv_one] at this
  exact this

/-- Example for C82: the embedded weights of `CashKarp` have order 4. -/
example : ∃ w : Fin Tables.tCashKarp.toRK.s → ℝ, Tables.tCashKarp.toRK.b2 = some ⟨_, w⟩ ∧
    LocalOrder Tables.tCashKarp.toRK.c Tables.tCashKarp.toRK.A w 4 (fun _ (u : ℝ) => u ^ 2) (fun t => (1 - t)⁻¹) 0 (1 / 2) :=
  ⟨_, rfl, (C82_embedded Tables.tCashKarp (by simp [Tables.rkSchemes]) (by decide +kernel) (by decide) _ rfl (by decide)
    _ _ 0 (1 / 2) solves_riccati (fun t _ => (contDiff_snd.pow 2).contDiffAt)).1⟩

end Tables

/-! ## Collocation -/

section Collocation

variable {M : ℕ} {nt qt : String}

/-- C82: the collocation method has the order returned by `Collocation.order` on every smooth differential equation, up to 158 nodes. -/
theorem C82_collocation (hM : M ≤ 158) (c : Collocation M) (hc : Collocation.new M nt qt 0 1 = .ok c) :
    ∃ order, c.order = some order ∧ M ≤ order ∧
      ∀ {E : Type*} [NormedAddCommGroup E] [NormedSpace ℝ E] [CompleteSpace E] (f : ℝ → E → E) (y : ℝ → E) (t0 t1 : ℝ),
        Solves f y t0 t1 → SmoothAlong order f y t0 t1 →
          LocalOrder c.nodes c.Q c.weights order f y t0 t1 := by
  obtain ⟨order, ho, hle, ht⟩ := C76_order_small hM c hc
  obtain ⟨x, hM0, -⟩ := collocation_spec hc
  refine ⟨order, ho, hle, fun f y t0 t1 hy hf => localOrder_of_trees (fun i => ?_) (by omega) ht hy hf⟩
  have := congrFun (collocation_Q_one c hc) i
  simpa [mulVec, dotProduct] using this

/-- C83: ... and converges with this order. -/
theorem C83_collocation (hM : M ≤ 158) (c : Collocation M) (hc : Collocation.new M nt qt 0 1 = .ok c) :
    ∃ order, c.order = some order ∧ M ≤ order ∧
      ∀ {E : Type*} [NormedAddCommGroup E] [NormedSpace ℝ E] [CompleteSpace E] (f : ℝ → E → E) (y : ℝ → E) (t0 t1 : ℝ),
        Solves f y t0 t1 → SmoothAlong order f y t0 t1 →
          GlobalOrder c.nodes c.Q c.weights order f y t0 t1 := by
  obtain ⟨order, ho, hle, ht⟩ := C76_order_small hM c hc
  obtain ⟨x, hM0, -⟩ := collocation_spec hc
  refine ⟨order, ho, hle, fun f y t0 t1 hy hf => globalOrder_of_trees (fun i => ?_) (by omega) ht hy hf⟩
  have := congrFun (collocation_Q_one c hc) i
  simpa [mulVec, dotProduct] using this

/-- C83: any number of nodes of any type give at least the order `M`. -/
theorem C83_collocation_nodes (c : Collocation M) (hc : Collocation.new M nt qt 0 1 = .ok c)
    {E : Type*} [NormedAddCommGroup E] [NormedSpace ℝ E] [CompleteSpace E] (f : ℝ → E → E) (y : ℝ → E) (t0 t1 : ℝ)
    (hy : Solves f y t0 t1) (hf : SmoothAlong M f y t0 t1) :
    LocalOrder c.nodes c.Q c.weights M f y t0 t1 ∧ GlobalOrder c.nodes c.Q c.weights M f y t0 t1 := by
  obtain ⟨x, hM0, -⟩ := collocation_spec hc
  have hrow : ∀ i, ∑ j, c.Q i j = c.nodes i := fun i => by
    have := congrFun (collocation_Q_one c hc) i
    simpa [mulVec, dotProduct] using this
  exact ⟨localOrder_of_trees hrow hM0 (C76_nodes c hc) hy hf, globalOrder_of_trees hrow hM0 (C76_nodes c hc) hy hf⟩

/-- C82: the order is never more than twice the number of nodes, for the equation of the trees. -/
theorem C82_collocation_barrier (c : Collocation M) (hc : Collocation.new M nt qt 0 1 = .ok c) :
    ¬ LocalOrder c.nodes c.Q c.weights (2 * M + 1) (fun _ => treeField (2 * M + 1)) (treeSol (2 * M + 1)) 0 1 := by
  intro h
  obtain ⟨t, ht, hne⟩ := C76_barrier c hc
  exact hne (treeOrder_zero.1 (C82_necessary h) t ht)

/-- Example for C82, C83: Gauss collocation with 3 nodes converges with order 6 on `u' = u^2`. -/
example : ∃ c : Collocation 3, Collocation.new 3 "LEGENDRE" "GAUSS" 0 1 = .ok c ∧
    GlobalOrder c.nodes c.Q c.weights 6 (fun _ (u : ℝ) => u ^ 2) (fun t => (1 - t)⁻¹) 0 (1 / 2) := by
  obtain ⟨c, hc⟩ := collocation_new_ok (M := 3) (nt := "LEGENDRE") (qt := "GAUSS") (by decide)
    (by decide) ⟨by decide, by decide⟩ 0 1
  obtain ⟨order, ho, -, h⟩ := C83_collocation (by norm_num) c hc
  have ho6 : c.order = some 6 := by
    unfold Collocation.order
    obtain ⟨x, hM0, h⟩ := collocation_spec hc
    rw [h.nodeType, h.quadType]
    decide
  obtain rfl : order = 6 := by rw [ho6] at ho; simpa using ho.symm
  exact ⟨c, hc, h _ _ 0 (1 / 2) solves_riccati (fun t _ => (contDiff_snd.pow 2).contDiffAt)⟩

end Collocation

/-- Instance of `C82_order_iff`, `C82_necessary`: the implicit midpoint rule has order two on every equation, and
not order three on some. -/
example : (∀ (E : Type) [NormedAddCommGroup E] [NormedSpace ℝ E] [CompleteSpace E] (f : ℝ → E → E) (y : ℝ → E)
      (t0 T : ℝ), Solves f y t0 T → SmoothAlong 2 f y t0 T → LocalOrder ![(1:ℝ)/2] !![(1:ℝ)/2] ![1] 2 f y t0 T) ↔
      TreeOrder !![(1:ℝ)/2] ![1] 2 0 :=
  C82_order_iff (fun i => by fin_cases i; simp) (by norm_num)

/-- Instance of `C82_tables`, `C83_tables`: the classical scheme RK4 on `y' = y ^ 2`. -/
example : GlobalOrder Tables.tRK4.toRK.c Tables.tRK4.toRK.A Tables.tRK4.toRK.b 4 (fun _ (u : ℝ) => u ^ 2)
      (fun t => (1 - t)⁻¹) 0 (1 / 2) ∧
    LocalOrder Tables.tRK4.toRK.c Tables.tRK4.toRK.A Tables.tRK4.toRK.b 4 (fun _ (u : ℝ) => u ^ 2)
      (fun t => (1 - t)⁻¹) 0 (1 / 2) :=
  ⟨C83_tables Tables.tRK4 (by simp [Tables.rkSchemes]) (by decide +kernel) (by decide) _ _ 0 (1 / 2) solves_riccati
    (fun t _ => (contDiff_snd.pow 2).contDiffAt),
   C82_tables Tables.tRK4 (by simp [Tables.rkSchemes]) (by decide +kernel) (by decide) _ _ 0 (1 / 2) solves_riccati
    (fun t _ => (contDiff_snd.pow 2).contDiffAt)⟩

/-- Instance of `C82_tables_rounded`. -/
example := C82_tables_rounded 4 (fun u : ℝ => u ^ 2) _ 0 (1 / 2) solves_riccati
  (fun t _ => (contDiff_id.pow 2).contDiffAt)

/-- Instance of `C82_collocation`, `C83_collocation_nodes`: three equidistant nodes. -/
example : ∃ c : Collocation 3, Collocation.new 3 "EQUID" "GAUSS" 0 1 = .ok c ∧
    GlobalOrder c.nodes c.Q c.weights 3 (fun _ (u : ℝ) => u ^ 2) (fun t => (1 - t)⁻¹) 0 (1 / 2) ∧
    ∃ order, c.order = some order ∧
      LocalOrder c.nodes c.Q c.weights order (fun _ (u : ℝ) => u ^ 2) (fun t => (1 - t)⁻¹) 0 (1 / 2) := by
  obtain ⟨c, hc⟩ := collocation_new_ok (M := 3) (nt := "EQUID") (qt := "GAUSS") (by decide)
    (by decide) ⟨by norm_num, fun h => by simp at h⟩ 0 1
  obtain ⟨order, ho, -, h⟩ := C82_collocation (by norm_num) c hc
  exact ⟨c, hc, (C83_collocation_nodes c hc _ _ 0 (1 / 2) solves_riccati (fun _ _ => (contDiff_snd.pow 2).contDiffAt)).2,
    order, ho, h _ _ 0 (1 / 2) solves_riccati (fun _ _ => (contDiff_snd.pow 2).contDiffAt)⟩

end QMat
