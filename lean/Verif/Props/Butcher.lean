import Verif.Lemmas.TableChecks
import Verif.Lemmas.Padding
import Verif.Props.Dahlquist

/-!
# C32-C35: Runge-Kutta tables

The statements range over the whole list of registered tables; each is settled by a computation in
exact arithmetic (`decide +kernel`, evaluated by the kernel) of a check that is proved to imply it,
for all trees, all step numbers and all problems.
-/

namespace QMat

open Matrix Spec

attribute [local simp] Quad.toReal_q Quad.toReal_r

/-! ## C32 -/

/-- C32: every registered table satisfies the linear order conditions of its declared order, exactly,
or up to the accuracy of its coefficients. -/
theorem C32_linear_conditions : ∀ T ∈ Tables.rkSchemes, ∀ k < T.order,
    |T.toRK.b ⬝ᵥ ((T.toRK.A ^ k) *ᵥ fun _ => 1) - 1 / (k + 1).factorial| ≤ tableAccuracy T.name := by
  intro T hT k hk
  obtain ⟨hd, hs, -, -⟩ := tables_shape T hT
  have hb : T.b.length = T.c.length := by
    simp only [RKTable.shapesOk, Bool.and_eq_true, decide_eq_true_eq] at hs
    exact hs.1.1
  exact T.linOk_sound hd hs T.b hb (tables_linear T hT) k hk

/-- Instance: the fourth condition of RK4. -/
example : |Tables.tRK4.toRK.b ⬝ᵥ ((Tables.tRK4.toRK.A ^ 3) *ᵥ fun _ => 1) - 1 / (3 + 1).factorial| ≤
    tableAccuracy Tables.tRK4.name :=
  C32_linear_conditions Tables.tRK4 (by simp [Tables.rkSchemes]) 3 (by decide)

theorem tableAccuracy_nonneg (name : String) : 0 ≤ tableAccuracy name := by
  unfold tableAccuracy
  split_ifs <;> norm_num

theorem tableAccuracy_le (name : String) : tableAccuracy name ≤ 2 / 10 ^ 10 := by
  unfold tableAccuracy
  split_ifs <;> norm_num

/-- C32: with every registered scheme `errorDahlquist` converges with the declared order, down to a
level set by the accuracy of the coefficients (zero for the exact tables). -/
theorem C32_convergence (T : RKTable) (hT : T ∈ Tables.rkSchemes) (lam u0 : ℂ) (tEnd : ℝ) :
    ∃ (K : ℝ) (N : ℕ), ∀ n : ℕ, N ≤ n → ∃ e, T.toRK.toQGenerator.errorDahlquist lam u0 tEnd n = .ok e ∧
      e ≤ K / n ^ T.order + T.order * tableAccuracy T.name *
        (‖u0‖ * (‖lam‖ * |tEnd|) * Real.exp (3 * (‖lam‖ * |tEnd|))) := by
  obtain ⟨-, -, -, hp, hp5⟩ := tables_shape T hT
  refine global_order_tol T.toRK.toQGenerator T.toRK.b false T.order hp (tableAccuracy T.name) ?_
    lam u0 tEnd (fun n hn hd => C30_solveDahlquist _ lam u0 tEnd n hn hd) (C32_linear_conditions T hT)
  have h1 : ((tableAccuracy T.name : ℚ) : ℝ) ≤ ((2 / 10 ^ 10 : ℚ) : ℝ) :=
    Rat.cast_le.mpr (tableAccuracy_le T.name)
  have h2 : (0:ℝ) ≤ ((tableAccuracy T.name : ℚ) : ℝ) := by
    exact_mod_cast tableAccuracy_nonneg T.name
  have h3 : (T.order : ℝ) ≤ 5 := by exact_mod_cast hp5
  push_cast at h1
  nlinarith

/-- Instance: RK4 converges with order four. -/
example : ∃ (K : ℝ) (N : ℕ), ∀ n : ℕ, N ≤ n → ∃ e,
    Tables.tRK4.toRK.toQGenerator.errorDahlquist (-1 + Complex.I) 1 2 n = .ok e ∧ e ≤ K / n ^ 4 := by
  obtain ⟨K, N, h⟩ := C32_convergence Tables.tRK4 (by simp [Tables.rkSchemes]) (-1 + Complex.I) 1 2
  refine ⟨K, N, fun n hn => ?_⟩
  obtain ⟨e, h1, h2⟩ := h n hn
  have h0 : tableAccuracy Tables.tRK4.name = 0 := by decide
  rw [h0, Rat.cast_zero, mul_zero, zero_mul, add_zero] at h2
  exact ⟨e, h1, h2⟩

/-- C32: the declared order is not smaller than the true one: the next linear condition fails, for every
registered scheme. -/
theorem C32_order_is_exact : ∀ T ∈ Tables.rkSchemes,
    (1 / 10 ^ 4 : ℝ) ≤
      |T.toRK.b ⬝ᵥ ((T.toRK.A ^ T.order) *ᵥ fun _ => 1) - 1 / (T.order + 1).factorial| := by
  intro T hT
  obtain ⟨hd, hs, -, -⟩ := tables_shape T hT
  have hb : T.b.length = T.c.length := by
    simp only [RKTable.shapesOk, Bool.and_eq_true, decide_eq_true_eq] at hs
    exact hs.1.1
  have := T.linBad_sound hd hs T.b hb (tables_linear_bad T hT)
  push_cast at this
  exact this

/-- Instance: RK4 misses the fifth condition. -/
example : (1 / 10 ^ 4 : ℝ) ≤ |Tables.tRK4.toRK.b ⬝ᵥ ((Tables.tRK4.toRK.A ^ 4) *ᵥ fun _ => 1) - 1 / (4 + 1).factorial| :=
  C32_order_is_exact Tables.tRK4 (by simp [Tables.rkSchemes])

/-- C32: with an exact table the error is bounded from below by the declared order. -/
theorem C32_convergence_sharp (T : RKTable) (hT : T ∈ Tables.rkSchemes) (hx : tableAccuracy T.name = 0)
    (lam u0 : ℂ) (tEnd : ℝ) (hlam : lam ≠ 0) (hu0 : u0 ≠ 0) (htEnd : tEnd ≠ 0) :
    ∃ (c : ℝ) (N : ℕ), 0 < c ∧ ∀ n : ℕ, N ≤ n →
      ∃ e, T.toRK.toQGenerator.errorDahlquist lam u0 tEnd n = .ok e ∧ c / n ^ T.order ≤ e := by
  obtain ⟨-, -, -, hp, -⟩ := tables_shape T hT
  refine C31_order_sharp _ T.order hp (fun k hk => ?_) ?_ lam u0 tEnd hlam hu0 htEnd
  · have := C32_linear_conditions T hT k hk
    rw [hx, Rat.cast_zero] at this
    exact sub_eq_zero.mp (abs_nonpos_iff.mp this)
  · intro h
    have := C32_order_is_exact T hT
    change T.toRK.b ⬝ᵥ ((T.toRK.A ^ T.order) *ᵥ fun _ => 1) = _ at h
    rw [h, sub_self, abs_zero] at this
    norm_num at this

/-- Instance: RK4 does not converge faster than with order four. -/
example : ∃ (c : ℝ) (N : ℕ), 0 < c ∧ ∀ n : ℕ, N ≤ n → ∃ e,
    Tables.tRK4.toRK.toQGenerator.errorDahlquist Complex.I 1 2 n = .ok e ∧ c / n ^ Tables.tRK4.order ≤ e :=
  C32_convergence_sharp Tables.tRK4 (by simp [Tables.rkSchemes]) (by decide) Complex.I 1 2 Complex.I_ne_zero one_ne_zero two_ne_zero

/-- C32 for the embedded weights, which always have one entry per stage; one scheme is excepted, see
`C32_embedded_fails`. -/
theorem C32_linear_conditions_embedded (T : RKTable) (hT : T ∈ Tables.rkSchemes) (m : ℕ)
    (w : Fin m → ℝ) (hb2 : T.toRK.b2 = some ⟨m, w⟩) :
    m = T.toRK.s ∧ (T.name ≠ "ARK548L2SAESDIRK" →
      ∀ h : m = T.toRK.s, ∀ k < T.orderEmbedded,
        |(fun i => w (Fin.cast h.symm i)) ⬝ᵥ ((T.toRK.A ^ k) *ᵥ fun _ => 1) - 1 / (k + 1).factorial| ≤
          tableAccuracy T.name) := by
  obtain ⟨hd, hs, hl, -⟩ := tables_shape T hT
  change (T.b2.map fun l => (⟨l.length, fun i => (l.getD i 0).toReal⟩ : Σ k, Fin k → ℝ)) = _ at hb2
  cases hb : T.b2 with
  | none => rw [hb] at hb2; cases hb2
  | some b2 =>
    have hlen := hl b2 hb
    rw [hb, Option.map_some, Option.some.injEq] at hb2
    cases hb2
    refine ⟨hlen, fun hn h k hk => ?_⟩
    exact linear_of_tree (T.treeOk_sound hd hs b2 hlen (tables_embedded T hT hn b2 hb)) k hk

/-- C32 for the embedded weights: convergence. -/
theorem C32_convergence_embedded (T : RKTable) (hT : T ∈ Tables.rkSchemes) (w : Fin T.toRK.s → ℝ)
    (hb2 : T.toRK.b2 = some ⟨T.toRK.s, w⟩) (hn : T.name ≠ "ARK548L2SAESDIRK")
    (hp : 0 < T.orderEmbedded) (lam u0 : ℂ) (tEnd : ℝ) :
    ∃ (K : ℝ) (N : ℕ), ∀ n : ℕ, N ≤ n →
      ∃ e, T.toRK.toQGenerator.errorDahlquist lam u0 tEnd n none true = .ok e ∧
        e ≤ K / n ^ T.orderEmbedded + T.orderEmbedded * tableAccuracy T.name *
          (‖u0‖ * (‖lam‖ * |tEnd|) * Real.exp (3 * (‖lam‖ * |tEnd|))) := by
  have hle : T.orderEmbedded ≤ 5 := by
    have : (Tables.rkSchemes.all fun T => decide (T.orderEmbedded ≤ 5)) = true := by decide +kernel
    simpa using List.all_eq_true.mp this T hT
  refine global_order_tol T.toRK.toQGenerator w true T.orderEmbedded hp (tableAccuracy T.name) ?_
    lam u0 tEnd (fun n hn hd => C30_solveDahlquist_embedded _ w ?_ lam u0 tEnd n hn hd)
    ((C32_linear_conditions_embedded T hT _ w hb2).2 hn rfl)
  · have h1 : ((tableAccuracy T.name : ℚ) : ℝ) ≤ ((2 / 10 ^ 10 : ℚ) : ℝ) :=
      Rat.cast_le.mpr (tableAccuracy_le T.name)
    have h2 : (0:ℝ) ≤ ((tableAccuracy T.name : ℚ) : ℝ) := by
      exact_mod_cast tableAccuracy_nonneg T.name
    have h3 : (T.orderEmbedded : ℝ) ≤ 5 := by exact_mod_cast hle
    push_cast at h1
    nlinarith
  · simp only [RK.toQGenerator, hb2]

/-- C32, finding: the embedded weights of `ARK548L2SAESDIRK` are declared of order 5, but the fifth
linear condition is violated by more than `1e-8`, far above the accuracy of the coefficients. -/
theorem C32_embedded_fails : ∃ T ∈ Tables.rkSchemes, ∃ w : Fin T.toRK.s → ℝ,
    T.name = "ARK548L2SAESDIRK" ∧ T.toRK.b2 = some ⟨T.toRK.s, w⟩ ∧ T.orderEmbedded = 5 ∧
    (1 / 10 ^ 8 : ℝ) ≤ |w ⬝ᵥ ((T.toRK.A ^ 4) *ᵥ fun _ => 1) - 1 / (4 + 1).factorial| := by
  have hT : Tables.tARK548L2SAESDIRK ∈ Tables.rkSchemes := by simp [Tables.rkSchemes]
  obtain ⟨hd, hs, hl, -⟩ := tables_shape _ hT
  refine ⟨Tables.tARK548L2SAESDIRK, hT, fun i => ((Tables.tARK548L2SAESDIRK.b2.getD []).getD i 0).toReal,
    rfl, rfl, rfl, ?_⟩
  have := Tables.tARK548L2SAESDIRK.linBad_sound hd hs (Tables.tARK548L2SAESDIRK.b2.getD []) rfl (k := 4)
    (tol := 1 / 10 ^ 8) (by decide +kernel)
  push_cast at this
  exact this

/-! ## C33 -/

/-- C33: every registered table but two satisfies all order conditions (rooted trees) of its declared
order, exactly, or up to the accuracy of its coefficients. -/
theorem C33_tree_conditions : ∀ T ∈ Tables.rkSchemes, T.name ∉ ["RK32", "ARK343ERK"] →
    TreeOrder T.toRK.A T.toRK.b T.order (tableAccuracy T.name) := by
  intro T hT hn
  obtain ⟨hd, hs, -, -⟩ := tables_shape T hT
  have hb : T.b.length = T.c.length := by
    simp only [RKTable.shapesOk, Bool.and_eq_true, decide_eq_true_eq] at hs
    exact hs.1.1
  exact T.treeOk_sound hd hs T.b hb (tables_tree T hT hn)

/-- Instance: RK4. -/
example : TreeOrder Tables.tRK4.toRK.A Tables.tRK4.toRK.b 4 (tableAccuracy Tables.tRK4.name) :=
  C33_tree_conditions Tables.tRK4 (by simp [Tables.rkSchemes]) (by decide)

/-- C33 for the embedded weights. -/
theorem C33_tree_conditions_embedded : ∀ T ∈ Tables.rkSchemes, T.name ≠ "ARK548L2SAESDIRK" →
    ∀ w : Fin T.toRK.s → ℝ, T.toRK.b2 = some ⟨T.toRK.s, w⟩ →
    TreeOrder T.toRK.A w T.orderEmbedded (tableAccuracy T.name) := by
  intro T hT hn w hb2
  obtain ⟨hd, hs, hl, -⟩ := tables_shape T hT
  cases hb : T.b2 with
  | none => simp [RKTable.toRK, hb] at hb2
  | some b2 =>
    have hlen := hl b2 hb
    have key : ∀ (m : ℕ) (w : Fin m → ℝ) (e : m = T.toRK.s),
        (T.b2.map fun l => (⟨l.length, fun i => (l.getD i 0).toReal⟩ : Σ k, Fin k → ℝ)) = some ⟨m, w⟩ →
        TreeOrder T.toRK.A (fun i => w (Fin.cast e.symm i)) T.orderEmbedded (tableAccuracy T.name) := by
      intro m w e h
      rw [hb, Option.map_some, Option.some.injEq] at h
      cases h
      exact T.treeOk_sound hd hs b2 hlen (tables_embedded T hT hn b2 hb)
    exact key _ w rfl hb2

/-- C33, findings: `RK32` (declared order 3) and `ARK343ERK` (declared order 4) violate a condition of
their declared order, as do the embedded weights of `ARK548L2SAESDIRK` (declared order 5). -/
theorem C33_tree_fails :
    (∃ T ∈ Tables.rkSchemes, T.name = "RK32" ∧ ∃ t : RTree, t.order = T.order ∧
      (1 / 10 : ℝ) ≤ |t.elementaryWeight T.toRK.A T.toRK.b - 1 / t.density|) ∧
    (∃ T ∈ Tables.rkSchemes, T.name = "ARK343ERK" ∧ ∃ t : RTree, t.order = T.order ∧
      (7 / 100 : ℝ) ≤ |t.elementaryWeight T.toRK.A T.toRK.b - 1 / t.density|) ∧
    (∃ T ∈ Tables.rkSchemes, T.name = "ARK548L2SAESDIRK" ∧ ∃ w : Fin T.toRK.s → ℝ,
      T.toRK.b2 = some ⟨T.toRK.s, w⟩ ∧ ∃ t : RTree, t.order = T.orderEmbedded ∧
      (1 / 10 ^ 4 : ℝ) ≤ |t.elementaryWeight T.toRK.A w - 1 / t.density|) := by
  have h1 : Tables.tRK32 ∈ Tables.rkSchemes := by simp [Tables.rkSchemes]
  have h2 : Tables.tARK343ERK ∈ Tables.rkSchemes := by simp [Tables.rkSchemes]
  have h3 : Tables.tARK548L2SAESDIRK ∈ Tables.rkSchemes := by simp [Tables.rkSchemes]
  refine ⟨⟨_, h1, rfl, ?_⟩, ⟨_, h2, rfl, ?_⟩, ⟨_, h3, rfl,
    fun i => ((Tables.tARK548L2SAESDIRK.b2.getD []).getD i 0).toReal, rfl, ?_⟩⟩
  · obtain ⟨t, ht, h⟩ := Tables.tRK32.treeBad_sound (tables_shape _ h1).1 (tables_shape _ h1).2.1
      Tables.tRK32.b rfl (n := 3) (tol := 1 / 10) (by decide +kernel)
    push_cast at h
    exact ⟨t, ht, h⟩
  · obtain ⟨t, ht, h⟩ := Tables.tARK343ERK.treeBad_sound (tables_shape _ h2).1 (tables_shape _ h2).2.1
      Tables.tARK343ERK.b rfl (n := 4) (tol := 7 / 100) (by decide +kernel)
    push_cast at h
    exact ⟨t, ht, h⟩
  · obtain ⟨t, ht, h⟩ := Tables.tARK548L2SAESDIRK.treeBad_sound (tables_shape _ h3).1
      (tables_shape _ h3).2.1 (Tables.tARK548L2SAESDIRK.b2.getD []) rfl (n := 5) (tol := 1 / 10 ^ 4)
      (by decide +kernel)
    push_cast at h
    exact ⟨t, ht, h⟩

/-! ## C34 -/

/-- C34: the nodes are the row sums of `A`, exactly or up to the accuracy of the coefficients, for every
registered table but `RK53`. -/
theorem C34_row_sums : ∀ T ∈ Tables.rkSchemes, T.name ≠ "RK53" → ∀ i : Fin T.toRK.s,
    |∑ j, T.toRK.A i j - T.toRK.c i| ≤ tableAccuracy T.name := by
  intro T hT hn i
  obtain ⟨hd, hs, -, -⟩ := tables_shape T hT
  exact T.rowSumOk_sound hd hs (tables_rows T hT hn) i

/-- C34, finding: `RK53` has `A[2,1] = 3/13` where its node is `3/16`. -/
theorem C34_row_sums_fails : ∃ T ∈ Tables.rkSchemes, T.name = "RK53" ∧
    ∃ i : Fin T.toRK.s, ∑ j, T.toRK.A i j - T.toRK.c i = 9 / 208 := by
  refine ⟨Tables.tRK53, by simp [Tables.rkSchemes], rfl, (2 : Fin 5), ?_⟩
  change ∑ j : Fin 5, ((Tables.tRK53.A.getD 2 []).getD j 0).toReal - (Tables.tRK53.c.getD 2 0).toReal = _
  rw [Fin.sum_univ_five]
  change (Quad.q 0 : Quad 2).toReal + (Quad.q 3 13 : Quad 2).toReal + (Quad.q 0 : Quad 2).toReal +
    (Quad.q 0 : Quad 2).toReal + (Quad.q 0 : Quad 2).toReal - (Quad.q 3 16 : Quad 2).toReal = _
  simp
  norm_num

/-! ## C35 -/

/-- The schemes documented as explicit. -/
def explicitSchemes : List String :=
  ["FE", "RK21", "RK2", "HEUN2", "RK32", "RK33", "RK53", "RK4", "RK4_38", "RK65", "CashKarp",
    "ARK548L2SAERK", "ARK548L2SAERK2", "ARK324L2SAERK", "ARK222ERK", "ARK443ERK", "ARK343ERK", "ARK4ERK"]

/-- C35: the explicit schemes have strictly lower triangular matrices. -/
theorem C35_explicit : ∀ T ∈ Tables.rkSchemes, T.name ∈ explicitSchemes →
    ∀ i j : Fin T.toRK.s, i ≤ j → T.toRK.A i j = 0 := by
  have : (Tables.rkSchemes.all fun T => decide (T.name ∉ explicitSchemes) || T.lowerOk true) = true := by
    decide +kernel
  intro T hT hn i j hij
  have := List.all_eq_true.mp this T hT
  have h : T.lowerOk true = true := by simpa [hn] using this
  refine T.lowerOk_sound (tables_shape T hT).2.1 h i j ?_
  rcases hij.lt_or_eq with h | h
  · exact Or.inl h
  · exact Or.inr ⟨rfl, h⟩

/-- Instance: RK4. -/
example : ∀ i j : Fin Tables.tRK4.toRK.s, i ≤ j → Tables.tRK4.toRK.A i j = 0 :=
  C35_explicit Tables.tRK4 (by simp [Tables.rkSchemes]) (by decide)

/-- C35: every registered scheme but `GAUSS_LG` is diagonally implicit. -/
theorem C35_diagonally_implicit : ∀ T ∈ Tables.rkSchemes, T.name ≠ "GAUSS_LG" →
    ∀ i j : Fin T.toRK.s, i < j → T.toRK.A i j = 0 := by
  have : (Tables.rkSchemes.all fun T => decide (T.name = "GAUSS_LG") || T.lowerOk false) = true := by
    decide +kernel
  intro T hT hn i j hij
  have := List.all_eq_true.mp this T hT
  have h : T.lowerOk false = true := by simpa [hn] using this
  exact T.lowerOk_sound (tables_shape T hT).2.1 h i j (Or.inl hij)

/-- C35: with an explicit scheme `solveDahlquist` succeeds for every problem and number of steps. -/
theorem C35_explicit_always_defined (T : RKTable) (hT : T ∈ Tables.rkSchemes)
    (hn : T.name ∈ explicitSchemes) (lam u0 : ℂ) (tEnd : ℝ) (n : ℕ) (hn0 : 0 < n) :
    ∃ u, T.toRK.toQGenerator.solveDahlquist lam u0 tEnd n = .ok u := by
  refine ⟨_, C30_solveDahlquist _ lam u0 tEnd n hn0 ?_⟩
  have := det_explicit T.toRK.A (C35_explicit T hT hn) (lam * ((tEnd / n : ℝ) : ℂ))
  change (1 - (lam * ((tEnd / n : ℝ) : ℂ)) • T.toRK.A.map Complex.ofReal).det ≠ 0
  rw [this]
  exact one_ne_zero

/-- Instance: RK4 with a positive real number. -/
example : ∃ u, Tables.tRK4.toRK.toQGenerator.solveDahlquist 1000 1 3 (5 : ℕ) = .ok u :=
  C35_explicit_always_defined Tables.tRK4 (by simp [Tables.rkSchemes]) (by decide) 1000 1 3 5 (by norm_num)

/-- `GAUSS_LG`: the determinant of the stage matrix. -/
theorem gauss_det (z : ℂ) :
    (1 - z • Tables.tGAUSS_LG.toRK.A.map Complex.ofReal).det = 1 - z / 2 + z ^ 2 / 12 := by
  have hA : Tables.tGAUSS_LG.toRK.A = (!![1 / 4, 1 / 4 - 1 / 6 * Real.sqrt 3;
      1 / 4 + 1 / 6 * Real.sqrt 3, 1 / 4] : Matrix (Fin 2) (Fin 2) ℝ) := by
    have key : (Matrix.of fun i j => ((Tables.tGAUSS_LG.A.getD (i : Fin 2) []).getD (j : Fin 2) 0).toReal) =
        (!![1 / 4, 1 / 4 - 1 / 6 * Real.sqrt 3; 1 / 4 + 1 / 6 * Real.sqrt 3, 1 / 4] :
          Matrix (Fin 2) (Fin 2) ℝ) := by
      ext i j
      fin_cases i <;> fin_cases j
      · change (Quad.q 1 4 : Quad 3).toReal = _
        simp
      · change (Quad.r 1 4 (-1) 6 : Quad 3).toReal = _
        simp
        ring
      · change (Quad.r 1 4 1 6 : Quad 3).toReal = _
        simp
      · change (Quad.q 1 4 : Quad 3).toReal = _
        simp
    exact key
  have hs : ((Real.sqrt 3 : ℝ) : ℂ) ^ 2 = 3 := by
    rw [← Complex.ofReal_pow, Real.sq_sqrt (by norm_num)]; norm_num
  have h2 : (1 - z • (!![1 / 4, 1 / 4 - 1 / 6 * Real.sqrt 3;
      1 / 4 + 1 / 6 * Real.sqrt 3, 1 / 4] : Matrix (Fin 2) (Fin 2) ℝ).map Complex.ofReal).det =
      1 - z / 2 + z ^ 2 / 12 := by
    rw [Matrix.det_fin_two]
    simp
    linear_combination (z ^ 2 / 36) * hs
  rw [← h2, hA]
  rfl

/-- The stage matrix of every registered scheme is invertible on the left half plane. -/
theorem registered_det (T : RKTable) (hT : T ∈ Tables.rkSchemes) {z : ℂ} (hzre : z.re ≤ 0) :
    (1 - z • T.toRK.A.map Complex.ofReal).det ≠ 0 := by
  by_cases hg : T.name = "GAUSS_LG"
  · have hT' : T = Tables.tGAUSS_LG := by
      have h : ∀ T ∈ Tables.rkSchemes, T.name = "GAUSS_LG" → T = Tables.tGAUSS_LG := by
        simp [Tables.rkSchemes]
        repeat' constructor
        all_goals first | rfl | (intro h; exact absurd h (by decide))
      exact h T hT hg
    subst hT'
    rw [gauss_det]
    intro h0
    have h1 : (z - 3) ^ 2 = -3 := by linear_combination 12 * h0
    have hre := congrArg Complex.re h1
    have him := congrArg Complex.im h1
    simp [pow_two] at hre him
    have h2 : z.im = 0 ∨ z.re - 3 = 0 := by
      have : z.im * (z.re - 3) = 0 := by linarith
      exact mul_eq_zero.mp this
    rcases h2 with h2 | h2
    · rw [h2] at hre; nlinarith [sq_nonneg (z.re - 3)]
    · linarith
  · rw [det_dirk T.toRK.A (C35_diagonally_implicit T hT hg)]
    refine Finset.prod_ne_zero_iff.mpr fun i _ h0 => ?_
    have hdiag : 0 ≤ T.toRK.A i i := by
      have : (Tables.rkSchemes.all fun T => T.diagOk) = true := by decide +kernel
      exact T.diagOk_sound (tables_shape T hT).1 (List.all_eq_true.mp this T hT) i
    have := congrArg Complex.re h0
    simp at this
    nlinarith

/-- C35: with any registered scheme `solveDahlquist` succeeds for every number of steps if the problem
is not growing, `Re(lam tEnd) ≤ 0`. -/
theorem C35_defined_if_not_growing (T : RKTable) (hT : T ∈ Tables.rkSchemes) (lam u0 : ℂ) (tEnd : ℝ)
    (hre : (lam * tEnd).re ≤ 0) (n : ℕ) (hn0 : 0 < n) :
    ∃ u, T.toRK.toQGenerator.solveDahlquist lam u0 tEnd n = .ok u := by
  refine ⟨_, C30_solveDahlquist _ lam u0 tEnd n hn0 ?_⟩
  change (1 - (lam * ((tEnd / n : ℝ) : ℂ)) • T.toRK.A.map Complex.ofReal).det ≠ 0
  refine registered_det T hT ?_
  have : lam * ((tEnd / n : ℝ) : ℂ) = lam * tEnd * ((1 / n : ℝ) : ℂ) := by push_cast; ring
  rw [this, Complex.re_mul_ofReal]
  exact mul_nonpos_of_nonpos_of_nonneg hre (by positivity)

/-- The hypothesis of `C35_defined_if_not_growing` cannot be dropped: backward Euler with one step of
size `1` on `u' = u`. -/
example : Tables.tBE.toRK.toQGenerator.solveDahlquist 1 1 1 1 = .error .linAlgError := by
  refine (C30_solveDahlquist_errors Tables.tBE.toRK.toQGenerator 1 1 1).1 1 (by norm_num) ?_
  change (1 - (1 * ((1 / (1:ℕ) : ℝ) : ℂ)) • Tables.tBE.toRK.A.map Complex.ofReal).det = 0
  rw [det_dirk Tables.tBE.toRK.A (C35_diagonally_implicit Tables.tBE (by simp [Tables.rkSchemes])
    (by decide))]
  change ∏ i : Fin 1, _ = _
  have : Tables.tBE.toRK.A (0 : Fin 1) (0 : Fin 1) = 1 := by
    change (Quad.q 1 : Quad 2).toReal = _
    simp
  simp
  erw [this]
  simp

/-- The classical scheme is in the list, explicit, exact and of order 4. -/
example : Tables.tRK4 ∈ Tables.rkSchemes ∧ Tables.tRK4.name ∈ explicitSchemes ∧
    Tables.tRK4.order = 4 ∧ tableAccuracy Tables.tRK4.name = 0 :=
  ⟨by simp [Tables.rkSchemes], by decide, rfl, by decide⟩

/-- Instance of `C32_linear_conditions_embedded`, `C32_convergence_embedded`, `C33_tree_conditions_embedded`. -/
example : ∃ w : Fin Tables.tCashKarp.toRK.s → ℝ, Tables.tCashKarp.toRK.b2 = some ⟨_, w⟩ ∧
    TreeOrder Tables.tCashKarp.toRK.A w 4 (tableAccuracy Tables.tCashKarp.name) ∧
    ∃ (K : ℝ) (N : ℕ), ∀ n : ℕ, N ≤ n →
      ∃ e, Tables.tCashKarp.toRK.toQGenerator.errorDahlquist (-1) 1 2 n none true = .ok e ∧
        e ≤ K / n ^ 4 + 4 * tableAccuracy Tables.tCashKarp.name * (2 * Real.exp 6) := by
  obtain ⟨w, hw⟩ : ∃ w : Fin Tables.tCashKarp.toRK.s → ℝ, Tables.tCashKarp.toRK.b2 = some ⟨_, w⟩ := ⟨_, rfl⟩
  obtain ⟨-, -⟩ := C32_linear_conditions_embedded Tables.tCashKarp (by simp [Tables.rkSchemes]) _ w hw
  obtain ⟨K, N, h⟩ := C32_convergence_embedded Tables.tCashKarp (by simp [Tables.rkSchemes]) w hw (by decide) (by decide) (-1) 1 2
  exact ⟨w, hw, C33_tree_conditions_embedded Tables.tCashKarp (by simp [Tables.rkSchemes]) (by decide) w hw, K, N,
    fun n hn => (h n hn).imp fun _ h => ⟨h.1, h.2.trans_eq (by
      rw [show Tables.tCashKarp.orderEmbedded = 4 from rfl]; norm_num)⟩⟩

end QMat
