import Verif.Props.ODEOrder

/-!
# C114: the embedded weights estimate the error
-/

namespace QMat

open Spec Matrix RTree

/-- The embedded order is below the order, with one exception, and the next linear condition is missed. -/
theorem tables_embedded_bad : ∀ T ∈ Tables.rkSchemes, T.name ≠ "ARK548L2SAESDIRK" → ∀ b2, T.b2 = some b2 →
    0 < T.orderEmbedded ∧ T.orderEmbedded < T.order ∧ T.linBad b2 T.orderEmbedded (1 / 10 ^ 4) = true := by
  have : (Tables.rkSchemes.all fun T => decide (T.name = "ARK548L2SAESDIRK") ||
      (match T.b2 with
        | none => true
        | some b2 => decide (0 < T.orderEmbedded) && decide (T.orderEmbedded < T.order) &&
            T.linBad b2 T.orderEmbedded (1 / 10 ^ 4))) = true := by
    decide +kernel
  intro T hT hn b2 hb
  have := List.all_eq_true.mp this T hT
  rw [hb] at this
  simpa [hn, and_assoc] using this

theorem table_b2 {T : RKTable} {w : Fin T.toRK.s → ℝ} (hw : T.toRK.b2 = some ⟨T.toRK.s, w⟩) :
    ∃ b2, T.b2 = some b2 ∧ b2.length = T.c.length ∧ w = fun i : Fin T.toRK.s => (b2.getD i 0).toReal := by
  change (T.b2.map fun l => (⟨l.length, fun i => (l.getD i 0).toReal⟩ : Σ k, Fin k → ℝ)) = _ at hw
  cases hb : T.b2 with
  | none => rw [hb] at hw; cases hw
  | some b2 =>
    rw [hb, Option.map_some, Option.some.injEq] at hw
    obtain ⟨h1, h2⟩ := Sigma.mk.inj_iff.1 hw
    refine ⟨b2, rfl, h1, ?_⟩
    have key : ∀ (m : ℕ) (h : b2.length = m) (v : Fin m → ℝ),
        HEq (fun i : Fin b2.length => (b2.getD i 0).toReal) v → v = fun i : Fin m => (b2.getD i 0).toReal := by
      rintro _ rfl v hv
      exact (eq_of_heq hv).symm
    exact key _ h1 w h2

/-- C114: the pairs of orders are those of an error estimator, and the embedded order is the exact one. -/
theorem C114_orders (T : RKTable) (hT : T ∈ Tables.rkSchemes) (hn : T.name ≠ "ARK548L2SAESDIRK")
    (w : Fin T.toRK.s → ℝ) (hw : T.toRK.b2 = some ⟨T.toRK.s, w⟩) :
    0 < T.orderEmbedded ∧ T.orderEmbedded < T.order ∧
      (1 / 10 ^ 4 : ℝ) ≤ |w ⬝ᵥ ((T.toRK.A ^ T.orderEmbedded) *ᵥ fun _ => 1) - 1 / (T.orderEmbedded + 1).factorial| := by
  obtain ⟨b2, hb, hl, rfl⟩ := table_b2 hw
  obtain ⟨h0, h1, h2⟩ := tables_embedded_bad T hT hn b2 hb
  obtain ⟨hd, hs, -, -⟩ := tables_shape T hT
  have := T.linBad_sound hd hs b2 hl h2
  push_cast at this
  exact ⟨h0, h1, this⟩

/-- C114: in a step from the exact solution of any smooth equation, the difference of the two results is the error of the
embedded result, up to the error of the result with the weights, which is of a higher order. `ε` is the accuracy of the coefficients,
`B` depends on the equation and the order only. -/
theorem C114_estimate {E : Type*} [NormedAddCommGroup E] [NormedSpace ℝ E] [CompleteSpace E] (p : ℕ)
    (f : E → E) (y : ℝ → E) (t0 t1 : ℝ) (hy : Solves (fun _ => f) y t0 t1)
    (hf : ∀ t ∈ Set.Icc t0 t1, ContDiffAt ℝ p f (y t)) :
    ∃ B, 0 ≤ B ∧ ∀ T ∈ Tables.rkSchemes, T.name ≠ "ARK548L2SAESDIRK" → T.order = p →
      ∀ w : Fin T.toRK.s → ℝ, T.toRK.b2 = some ⟨T.toRK.s, w⟩ →
      T.orderEmbedded < p ∧ ∃ ρ > 0, ∃ h0 > 0, ∃ C, ∀ t h, t0 ≤ t → 0 ≤ h → h < h0 → t + h ≤ t1 →
        ∃ Y u v, NearStep T.toRK.c T.toRK.A T.toRK.b (fun _ => f) t h (y t) ρ Y u ∧
          NearStep T.toRK.c T.toRK.A w (fun _ => f) t h (y t) ρ Y v ∧
          (∀ Y' u', NearStep T.toRK.c T.toRK.A T.toRK.b (fun _ => f) t h (y t) ρ Y' u' → Y' = Y ∧ u' = u) ∧
          ‖(v - u) - (v - y (t + h))‖ ≤ tableAccuracy T.name * B * h + C * h ^ (p + 1) ∧
          ‖v - y (t + h)‖ ≤ tableAccuracy T.name * B * h + C * h ^ (T.orderEmbedded + 1) ∧
          ‖v - u‖ ≤ 2 * (tableAccuracy T.name * B) * h + C * h ^ (T.orderEmbedded + 1) := by
  have hf' : ∀ s ∈ Set.Icc (0 : ℝ) (t1 - t0), ContDiffAt ℝ p f (y (t0 + s)) := fun s hs =>
    hf _ ⟨by linarith [hs.1], by linarith [hs.2]⟩
  have hy' := shift_solves hy
  have hK := isCompact_Icc.image_of_continuousOn fun s hs => (hy' s hs).continuousWithinAt
  have hbound : ∀ q, q ≤ p → ∃ B, 0 ≤ B ∧ ∀ s ∈ Set.Icc (0 : ℝ) (t1 - t0),
      ∑ t ∈ upTo q, ‖elemDiff (taylorP q f (y (t0 + s))) t‖ ≤ B := by
    intro q hq
    obtain ⟨B, hB0, hB⟩ := elemDiff_bound hK (p := q) (f := f) (by
      rintro _ ⟨s, hs, rfl⟩
      exact (hf' s hs).of_le (by exact_mod_cast hq))
    exact ⟨B, hB0, fun s hs => hB _ ⟨s, hs, rfl⟩⟩
  choose! B hB0 hB using hbound
  have hBs : 0 ≤ ∑ q ∈ Finset.range (p + 1), B q :=
    Finset.sum_nonneg fun q hq => hB0 q (Nat.lt_succ_iff.1 (Finset.mem_range.1 hq))
  have hBle : ∀ q, q ≤ p → B q ≤ ∑ q ∈ Finset.range (p + 1), B q := fun q hq =>
    Finset.single_le_sum (f := B) (fun q hq => hB0 q (Nat.lt_succ_iff.1 (Finset.mem_range.1 hq)))
      (Finset.mem_range.2 (Nat.lt_succ_of_le hq))
  refine ⟨_, hBs, fun T hT hn hp w hw => ?_⟩
  obtain ⟨hq0, hqp, -⟩ := C114_orders T hT hn w hw
  rw [hp] at hqp
  have hn' : T.name ∉ ["RK32", "ARK343ERK"] := by
    obtain ⟨b2, hb, -, -⟩ := table_b2 hw
    have : (Tables.rkSchemes.all fun T => decide (T.name ∉ ["RK32", "ARK343ERK"]) || T.b2.isNone) = true := by
      decide +kernel
    have := List.all_eq_true.mp this T hT
    rw [hb] at this
    simpa using this
  have hp1 : 1 ≤ p := by omega
  refine ⟨hqp, ?_⟩
  set Bs := ∑ q ∈ Finset.range (p + 1), B q with hBsdef
  set ε : ℝ := (tableAccuracy T.name : ℝ) with hε
  have hε0 : 0 ≤ ε := by
    have h1 := C33_tree_conditions T hT hn' .leaf (by
      have : leaf.order = 1 := by simp [order]
      omega)
    exact (abs_nonneg _).trans h1
  obtain ⟨ρ1, hρ1, H1⟩ := local_full (A := fun i j => T.toRK.A i j) (b := T.toRK.b) (W := stageWeight T.toRK.A)
    (ε := ε) (stageWeight_node T.toRK.A) hp1 hy' hf' (fun s hs => (hB p le_rfl s hs).trans (hBle p le_rfl))
    (fun t ht => C33_tree_conditions T hT hn' t (by omega))
  obtain ⟨ρ2, hρ2, H2⟩ := local_full (A := fun i j => T.toRK.A i j) (b := w) (W := stageWeight T.toRK.A)
    (ε := ε) (stageWeight_node T.toRK.A) hq0 hy' (fun s hs => (hf' s hs).of_le (by exact_mod_cast hqp.le))
    (fun s hs => (hB _ hqp.le s hs).trans (hBle _ hqp.le))
    (fun t ht => C33_tree_conditions_embedded T hT hn w hw t ht)
  have hρ : 0 < min ρ1 ρ2 := lt_min hρ1 hρ2
  obtain ⟨h1, hh1, C1, hC1, H1⟩ := H1 _ hρ (min_le_left _ _)
  obtain ⟨h2, hh2, C2, hC2, H2⟩ := H2 _ hρ (min_le_right _ _)
  refine ⟨min ρ1 ρ2, hρ, min (min h1 h2) 1, lt_min (lt_min hh1 hh2) one_pos, C1 + C2, fun t h ht hh hlt hth => ?_⟩
  have hl1 : h < h1 := hlt.trans_le ((min_le_left _ _).trans (min_le_left _ _))
  have hl2 : h < h2 := hlt.trans_le ((min_le_left _ _).trans (min_le_right _ _))
  have hl3 : h ≤ 1 := (hlt.trans_le (min_le_right _ _)).le
  obtain ⟨⟨Z, hZ, hZn⟩, U, E1⟩ := H1 (t - t0) ⟨by linarith, by linarith⟩ h ⟨hh, hl1⟩ (by linarith)
  obtain ⟨-, -, E2⟩ := H2 (t - t0) ⟨by linarith, by linarith⟩ h ⟨hh, hl2⟩ (by linarith)
  simp only [add_sub_cancel] at hZ hZn U E1 E2
  have e1 := E1 _ hZ hZn
  have e2 := E2 _ hZ hZn
  rw [show t0 + (t - t0 + h) = t + h by ring] at e1 e2
  have hpow : h ^ (p + 1) ≤ h ^ (T.orderEmbedded + 1) := pow_le_pow_of_le_one hh hl3 (by omega)
  have hC1p : C1 * h ^ (p + 1) ≤ (C1 + C2) * h ^ (p + 1) :=
    mul_le_mul_of_nonneg_right (by linarith) (by positivity)
  have hC1q : C1 * h ^ (p + 1) ≤ C1 * h ^ (T.orderEmbedded + 1) := mul_le_mul_of_nonneg_left hpow hC1
  have hC1q0 : 0 ≤ C1 * h ^ (T.orderEmbedded + 1) := by positivity
  refine ⟨Z, _, _, ⟨⟨hZ, rfl⟩, hZn⟩, ⟨⟨hZ, rfl⟩, hZn⟩, fun Y' u' hv => ?_, ?_, ?_, ?_⟩
  · have hYZ := U _ _ hv.1.stages hZ hv.2 hZn
    have hu := hv.1.result
    change Y' = Z at hYZ
    subst hYZ
    exact ⟨rfl, hu⟩
  · rw [sub_sub_sub_cancel_left, norm_sub_rev]
    exact e1.trans (by linarith)
  · exact e2.trans (by linarith)
  · have := norm_sub_le (y t + h • ∑ i, w i • f (Z i) - y (t + h)) (y t + h • ∑ i, T.toRK.b i • f (Z i) - y (t + h))
    rw [sub_sub_sub_cancel_right] at this
    refine this.trans ?_
    linarith

/-! ## One step for Dahlquist's equation -/

theorem embedded_expansion {M : ℕ} (A : Matrix (Fin M) (Fin M) ℝ) (w : Fin M → ℝ) (q : ℕ) (ε : ℝ)
    (h : ∀ k < q, |linResidual A w k| ≤ ε) : ∃ C δ : ℝ, 0 ≤ C ∧ 0 < δ ∧ δ ≤ 1 ∧ ∀ z : ℂ, ‖z‖ ≤ δ →
      (1 - z • A.map Complex.ofReal).det ≠ 0 ∧
      ‖stabilityFunction A w z - Complex.exp z - z ^ (q + 1) * (linResidual A w q : ℂ)‖ ≤ q * ε * ‖z‖ + C * ‖z‖ ^ (q + 2) := by
  obtain ⟨C, δ, hC, hδ, hδ1, H⟩ := local_expansion A w (q + 1)
  refine ⟨C, δ, hC, hδ, hδ1, fun z hz => ⟨(H z hz).1, ?_⟩⟩
  have h1 := (H z hz).2
  rw [Finset.sum_range_succ] at h1
  have h2 : ‖∑ k ∈ Finset.range q, z ^ (k + 1) * (linResidual A w k : ℂ)‖ ≤ q * ε * ‖z‖ := by
    refine (norm_sum_le _ _).trans ?_
    have : ∀ k ∈ Finset.range q, ‖z ^ (k + 1) * (linResidual A w k : ℂ)‖ ≤ ε * ‖z‖ := by
      intro k hk
      have hk' := h k (Finset.mem_range.1 hk)
      rw [norm_mul, norm_pow, Complex.norm_real, Real.norm_eq_abs, mul_comm]
      refine mul_le_mul hk' ?_ (by positivity) ((abs_nonneg _).trans hk')
      rw [pow_succ]
      exact mul_le_of_le_one_left (norm_nonneg z) (pow_le_one₀ (norm_nonneg z) (hz.trans hδ1))
    refine (Finset.sum_le_sum this).trans (le_of_eq ?_)
    rw [Finset.sum_const, Finset.card_range, nsmul_eq_mul, mul_assoc]
  have h3 := norm_add_le (∑ k ∈ Finset.range q, z ^ (k + 1) * (linResidual A w k : ℂ))
    (stabilityFunction A w z - Complex.exp z - (∑ k ∈ Finset.range q, z ^ (k + 1) * (linResidual A w k : ℂ) +
      z ^ (q + 1) * (linResidual A w q : ℂ)))
  refine le_trans (le_of_eq ?_) (h3.trans (add_le_add h2 h1))
  congr 1
  ring

/-- C114: one step of `solveDahlquist` with and without `useEmbeddedWeights`: the difference of the two values is the error
of the embedded one up to a higher power of the step size, and it is not smaller than its order says. -/
theorem C114_dahlquist (T : RKTable) (hT : T ∈ Tables.rkSchemes) (hn : T.name ≠ "ARK548L2SAESDIRK")
    (w : Fin T.toRK.s → ℝ) (hw : T.toRK.b2 = some ⟨T.toRK.s, w⟩) :
    ∃ κ C δ : ℝ, 1 / 10 ^ 4 ≤ κ ∧ 0 < δ ∧ ∀ (lam u0 : ℂ) (tEnd : ℝ), ‖lam * tEnd‖ ≤ δ →
      ∃ u v, T.toRK.toQGenerator.solveDahlquist lam u0 tEnd 1 = .ok [u0, u] ∧
        T.toRK.toQGenerator.solveDahlquist lam u0 tEnd 1 true = .ok [u0, v] ∧
        ‖(v - u) - (v - Complex.exp (lam * tEnd) * u0)‖ ≤
          (5 * tableAccuracy T.name * ‖lam * tEnd‖ + C * ‖lam * tEnd‖ ^ (T.orderEmbedded + 2)) * ‖u0‖ ∧
        κ * ‖lam * tEnd‖ ^ (T.orderEmbedded + 1) * ‖u0‖ ≤ ‖v - u‖ +
          (10 * tableAccuracy T.name * ‖lam * tEnd‖ + C * ‖lam * tEnd‖ ^ (T.orderEmbedded + 2)) * ‖u0‖ := by
  obtain ⟨hq0, hqp, hκ⟩ := C114_orders T hT hn w hw
  obtain ⟨hd, hs, -, hp0, hp5⟩ := tables_shape T hT
  set ε : ℝ := (tableAccuracy T.name : ℝ) with hε
  have hlb := C32_linear_conditions T hT
  have hε0 : 0 ≤ ε := (abs_nonneg _).trans (hlb 0 hp0)
  have hlw : ∀ k < T.orderEmbedded, |linResidual T.toRK.A w k| ≤ ε := fun k hk =>
    (C32_linear_conditions_embedded T hT _ w hw).2 hn rfl k hk
  obtain ⟨C1, δ1, hC1, hδ1, hδ1', H1⟩ := embedded_expansion T.toRK.A T.toRK.b T.order ε hlb
  obtain ⟨C2, δ2, hC2, hδ2, hδ2', H2⟩ := embedded_expansion T.toRK.A w T.orderEmbedded ε hlw
  set κb : ℝ := linResidual T.toRK.A T.toRK.b T.order with hκb
  set κw : ℝ := linResidual T.toRK.A w T.orderEmbedded with hκw
  refine ⟨|κw|, C1 + C2 + |κb|, min δ1 δ2, hκ, lt_min hδ1 hδ2, fun lam u0 tEnd hz => ?_⟩
  have z1 := hz.trans (min_le_left _ _)
  have z2 := hz.trans (min_le_right _ _)
  obtain ⟨hdet, e1⟩ := H1 _ z1
  obtain ⟨-, e2⟩ := H2 _ z2
  have hz' : lam * ((tEnd / (1:ℕ) : ℝ) : ℂ) = lam * tEnd := by simp
  have s1 := C30_solveDahlquist T.toRK.toQGenerator lam u0 tEnd 1 one_pos (by rw [hz']; exact hdet)
  have s2 := C30_solveDahlquist_embedded T.toRK.toQGenerator w (by
    change (match T.toRK.b2 with | none => _ | some w => _) = _
    rw [hw]) lam u0 tEnd 1 one_pos (by rw [hz']; exact hdet)
  rw [hz'] at s1 s2
  refine ⟨_, _, s1.trans (by simp [List.range_succ]; rfl), s2.trans (by simp [List.range_succ]; rfl), ?_, ?_⟩
  all_goals
    set z := lam * (tEnd : ℂ) with hzdef
    clear_value z
    change ‖stabilityFunction T.toRK.A T.toRK.b z - Complex.exp z - z ^ (T.order + 1) * (κb : ℂ)‖ ≤ _ at e1
  all_goals
    have hn1 : ‖z‖ ≤ 1 := z1.trans hδ1'
    have hb : ‖stabilityFunction T.toRK.A T.toRK.b z - Complex.exp z‖ ≤
        5 * ε * ‖z‖ + (C1 + |κb|) * ‖z‖ ^ (T.orderEmbedded + 2) := by
      have h1 := norm_add_le (stabilityFunction T.toRK.A T.toRK.b z - Complex.exp z - z ^ (T.order + 1) * (κb : ℂ))
        (z ^ (T.order + 1) * (κb : ℂ))
      rw [sub_add_cancel, norm_mul, norm_pow, Complex.norm_real, Real.norm_eq_abs] at h1
      have h2 : ‖z‖ ^ (T.order + 1) ≤ ‖z‖ ^ (T.orderEmbedded + 2) :=
        pow_le_pow_of_le_one (norm_nonneg z) hn1 (by omega)
      have h3 : ‖z‖ ^ (T.order + 2) ≤ ‖z‖ ^ (T.orderEmbedded + 2) :=
        pow_le_pow_of_le_one (norm_nonneg z) hn1 (by omega)
      have h4 := mul_le_mul_of_nonneg_left h3 hC1
      have h5 := mul_le_mul_of_nonneg_right h2 (abs_nonneg κb)
      have h6 : (T.order:ℝ) * ε * ‖z‖ ≤ 5 * ε * ‖z‖ := by
        have : (T.order:ℝ) ≤ 5 := by exact_mod_cast hp5
        exact mul_le_mul_of_nonneg_right (mul_le_mul_of_nonneg_right this hε0) (norm_nonneg z)
      linarith
  · rw [sub_sub_sub_cancel_left, norm_sub_rev, ← sub_mul, norm_mul]
    refine mul_le_mul_of_nonneg_right (hb.trans ?_) (norm_nonneg _)
    have : 0 ≤ C2 * ‖z‖ ^ (T.orderEmbedded + 2) := by positivity
    linarith
  · change _ ≤ ‖stabilityFunction T.toRK.A w z * u0 - stabilityFunction T.toRK.A T.toRK.b z * u0‖ + _
    rw [← sub_mul, norm_mul, ← add_mul]
    refine mul_le_mul_of_nonneg_right ?_ (norm_nonneg _)
    have h1 : ‖z ^ (T.orderEmbedded + 1) * (κw : ℂ)‖ = |κw| * ‖z‖ ^ (T.orderEmbedded + 1) := by
      rw [norm_mul, norm_pow, Complex.norm_real, Real.norm_eq_abs, mul_comm]
    have h2 : z ^ (T.orderEmbedded + 1) * (κw : ℂ) =
        (stabilityFunction T.toRK.A w z - stabilityFunction T.toRK.A T.toRK.b z) +
        (stabilityFunction T.toRK.A T.toRK.b z - Complex.exp z) -
        (stabilityFunction T.toRK.A w z - Complex.exp z - z ^ (T.orderEmbedded + 1) * (κw : ℂ)) := by ring
    rw [← h1, h2]
    refine (norm_sub_le _ _).trans ((add_le_add (norm_add_le _ _) le_rfl).trans ?_)
    have h6 : (T.orderEmbedded:ℝ) * ε * ‖z‖ ≤ 5 * ε * ‖z‖ := by
      have : (T.orderEmbedded:ℝ) ≤ 5 := by exact_mod_cast hqp.le.trans hp5
      exact mul_le_mul_of_nonneg_right (mul_le_mul_of_nonneg_right this hε0) (norm_nonneg z)
    linarith

/-- C114: with exact coefficients the quotient of the estimate and the error of the embedded value tends to 1, and the
estimate is not zero for small steps. -/
theorem C114_reliable (T : RKTable) (hT : T ∈ Tables.rkSchemes) (hx : tableAccuracy T.name = 0)
    (w : Fin T.toRK.s → ℝ) (hw : T.toRK.b2 = some ⟨T.toRK.s, w⟩) :
    ∃ C δ : ℝ, 0 < δ ∧ ∀ (lam u0 : ℂ) (tEnd : ℝ), ‖lam * tEnd‖ ≤ δ →
      ∃ u v, T.toRK.toQGenerator.solveDahlquist lam u0 tEnd 1 = .ok [u0, u] ∧
        T.toRK.toQGenerator.solveDahlquist lam u0 tEnd 1 true = .ok [u0, v] ∧
        ‖(v - u) - (v - Complex.exp (lam * tEnd) * u0)‖ ≤ C * ‖lam * tEnd‖ * ‖v - u‖ ∧
        (lam * tEnd ≠ 0 → u0 ≠ 0 → v ≠ u) := by
  have hn : T.name ≠ "ARK548L2SAESDIRK" := fun h => by
    rw [h] at hx
    exact absurd hx (by decide +kernel)
  obtain ⟨κ, C, δ, hκ, hδ, H⟩ := C114_dahlquist T hT hn w hw
  have hκ0 : 0 < κ := lt_of_lt_of_le (by norm_num) hκ
  refine ⟨2 / κ * |C|, min δ (κ / (2 * (|C| + 1))), lt_min hδ (by positivity), fun lam u0 tEnd hz => ?_⟩
  obtain ⟨u, v, h1, h2, h3, h4⟩ := H lam u0 tEnd (hz.trans (min_le_left _ _))
  refine ⟨u, v, h1, h2, ?_⟩
  rw [hx, Rat.cast_zero, mul_zero, zero_mul, zero_add] at h3 h4
  set z := ‖lam * (tEnd : ℂ)‖ with hzd
  have hz0 : 0 ≤ z := norm_nonneg _
  have hzC : |C| * z ≤ κ / 2 := by
    have h5 : z * (2 * (|C| + 1)) ≤ κ := by
      have := hz.trans (min_le_right _ _)
      rwa [le_div_iff₀ (by positivity)] at this
    have : 0 ≤ z := hz0
    nlinarith [abs_nonneg C]
  have hCz : C * z ^ (T.orderEmbedded + 2) ≤ |C| * z * z ^ (T.orderEmbedded + 1) := by
    rw [pow_succ, mul_assoc |C|, mul_comm z]
    exact mul_le_mul_of_nonneg_right (le_abs_self C) (by positivity)
  have hP : 0 ≤ z ^ (T.orderEmbedded + 1) := by positivity
  have hu : 0 ≤ ‖u0‖ := norm_nonneg _
  have hlow : κ / 2 * z ^ (T.orderEmbedded + 1) * ‖u0‖ ≤ ‖v - u‖ := by
    have a1 := mul_le_mul_of_nonneg_right hCz hu
    have a2 := mul_le_mul_of_nonneg_right (mul_le_mul_of_nonneg_right hzC hP) hu
    linarith
  constructor
  · refine h3.trans ((mul_le_mul_of_nonneg_right hCz hu).trans ?_)
    have a3 : 0 ≤ 2 / κ * |C| * z := by positivity
    have a4 := mul_le_mul_of_nonneg_left hlow a3
    refine le_trans (le_of_eq ?_) a4
    field_simp
  · intro hne hu0 hvu
    rw [hvu, sub_self, norm_zero] at hlow
    have b1 : 0 < z := norm_pos_iff.2 hne
    have b2 : 0 < ‖u0‖ := norm_pos_iff.2 hu0
    have : 0 < κ / 2 * z ^ (T.orderEmbedded + 1) * ‖u0‖ := by positivity
    linarith

/-! ## Instances -/

/-- `CashKarp` on `u' = -u`. -/
example : ∃ C δ : ℝ, 0 < δ ∧ ∀ (h : ℝ), |h| ≤ δ → h ≠ 0 →
    ∃ u v, Tables.tCashKarp.toRK.toQGenerator.solveDahlquist (-1) 1 h 1 = .ok [1, u] ∧
      Tables.tCashKarp.toRK.toQGenerator.solveDahlquist (-1) 1 h 1 true = .ok [1, v] ∧
      ‖(v - u) - (v - Complex.exp (-h))‖ ≤ C * |h| * ‖v - u‖ ∧ v ≠ u := by
  obtain ⟨w, hw⟩ : ∃ w : Fin Tables.tCashKarp.toRK.s → ℝ, Tables.tCashKarp.toRK.b2 = some ⟨_, w⟩ := ⟨_, rfl⟩
  obtain ⟨C, δ, hδ, H⟩ := C114_reliable Tables.tCashKarp (by simp [Tables.rkSchemes]) (by decide) w hw
  refine ⟨C, δ, hδ, fun h hh h0 => ?_⟩
  obtain ⟨u, v, h1, h2, h3, h4⟩ := H (-1) 1 h (by simpa using hh)
  exact ⟨u, v, h1, h2, by simpa using h3, h4 (by simpa using h0) one_ne_zero⟩

/-- `ESDIRK53` on the Riccati equation `u' = u ^ 2`. -/
example : ∃ B, 0 ≤ B ∧ ∃ w : Fin Tables.tESDIRK53.toRK.s → ℝ, Tables.tESDIRK53.toRK.b2 = some ⟨_, w⟩ ∧
    ∃ ρ > 0, ∃ h0 > 0, ∃ C, ∀ t h, 0 ≤ t → 0 ≤ h → h < h0 → t + h ≤ 1 / 2 →
      ∃ Y u v, NearStep Tables.tESDIRK53.toRK.c Tables.tESDIRK53.toRK.A Tables.tESDIRK53.toRK.b (fun _ (u : ℝ) => u ^ 2) t h (1 - t)⁻¹ ρ Y u ∧
        NearStep Tables.tESDIRK53.toRK.c Tables.tESDIRK53.toRK.A w (fun _ (u : ℝ) => u ^ 2) t h (1 - t)⁻¹ ρ Y v ∧
        ‖(v - u) - (v - (1 - (t + h))⁻¹)‖ ≤ 4 / 10 ^ 26 * B * h + C * h ^ 6 := by
  obtain ⟨B, hB, H⟩ := C114_estimate 5 (fun u : ℝ => u ^ 2) (fun t => (1 - t)⁻¹) 0 (1 / 2) solves_riccati
    (fun t _ => (contDiff_id.pow 2).contDiffAt)
  obtain ⟨w, hw⟩ : ∃ w : Fin Tables.tESDIRK53.toRK.s → ℝ, Tables.tESDIRK53.toRK.b2 = some ⟨_, w⟩ := ⟨_, rfl⟩
  obtain ⟨-, ρ, hρ, h0, hh0, C, H⟩ := H Tables.tESDIRK53 (by simp [Tables.rkSchemes]) (by decide) rfl w hw
  refine ⟨B, hB, w, hw, ρ, hρ, h0, hh0, C, fun t h ht hh hl ht1 => ?_⟩
  obtain ⟨Y, u, v, h1, h2, -, h3, -⟩ := H t h ht hh hl ht1
  refine ⟨Y, u, v, h1, h2, ?_⟩
  have e : ((tableAccuracy Tables.tESDIRK53.name : ℚ) : ℝ) = 4 / 10 ^ 26 := by
    have : tableAccuracy Tables.tESDIRK53.name = 4 / 10 ^ 26 := by decide +kernel
    rw [this]
    norm_num
  rw [e] at h3
  exact h3

end QMat
