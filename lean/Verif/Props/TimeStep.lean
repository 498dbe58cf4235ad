import Verif.Model.QDeltaGen
import Verif.Spec.Prev
import Verif.Lemmas.TimeStep
import Verif.Props.Collocation
import Mathlib.Tactic.NormNum
import Mathlib.Tactic.IntervalCases
import Mathlib.Data.Matrix.Reflection

/-!
# C38-C42: `QDelta` coefficients based on time-stepping
-/

namespace QMat

open Matrix Spec

variable {M : ℕ}

theorem deltas_eq {nodes : Fin M → ℝ} {tLeft : ℝ} {g : TimeStepping M}
    (hg : TimeStepping.new nodes tLeft = .ok g) (i : Fin M) :
    g.deltas i = nodes i - prev tLeft nodes i := by
  rw [(g.new_ok hg).2.2.2 i]
  unfold prev
  split_ifs <;> rfl

theorem atPos_zero_eq {nodes : Fin M → ℝ} {tLeft : ℝ} {g : TimeStepping M}
    (hg : TimeStepping.new nodes tLeft = .ok g) (m : Fin M) :
    atPos g.deltas 0 = nodes ⟨0, m.pos⟩ - tLeft := by
  have hM := m.pos
  simp only [atPos, hM, dif_pos]
  rw [deltas_eq hg]
  simp [prev]

theorem sum_le_step (f : Fin M → ℝ) (m : Fin M) :
    ∑ j, (if j ≤ m then f j else 0) =
      prev 0 (fun m' => ∑ j, (if j ≤ m' then f j else 0)) m + f m := by
  rw [sum_le_atPos, Finset.sum_range_succ]
  congr 1
  · unfold prev
    split_ifs with h
    · simp [h]
    · beta_reduce
      rw [sum_le_atPos]
      congr 2
      simp only
      omega
  · simp [atPos]

theorem sum_lt_step (f : ℕ → ℝ) (m : Fin M) :
    ∑ j : Fin M, (if j < m then f (j + 1) else 0) =
      if (m : ℕ) = 0 then 0 else
        prev 0 (fun m' => ∑ j : Fin M, (if j < m' then f (j + 1) else 0)) m + f m := by
  have key : ∀ m : Fin M, ∑ j : Fin M, (if j < m then f (j + 1) else 0) =
      ∑ j ∈ Finset.range m, f (j + 1) := fun m => by
    rw [sum_lt_atPos]
    refine Finset.sum_congr rfl fun j hj => ?_
    have : j < M := lt_trans (Finset.mem_range.mp hj) m.isLt
    simp [atPos, this]
  rw [key]
  split_ifs with h
  · simp [h]
  · unfold prev
    rw [if_neg h]
    beta_reduce
    rw [key]
    obtain ⟨k, hk⟩ : ∃ k, (m : ℕ) = k + 1 := ⟨m - 1, by omega⟩
    have e : ∑ j ∈ Finset.range (m : ℕ), f (j + 1) = ∑ j ∈ Finset.range k, f (j + 1) + f m := by
      rw [hk, Finset.sum_range_succ]
    rw [e]
    simp [hk]

/-! ## C38 -/

/-- C38, backward Euler: `v = QDelta f` is what backward Euler steps from `tLeft` through the nodes
give: `v_m = v_{m-1} + (τ_m - τ_{m-1}) f_m` with `v_{-1} = 0`, `τ_{-1} = tLeft`. -/
theorem C38_backward_euler (nodes : Fin M → ℝ) (tLeft : ℝ) (g : TimeStepping M)
    (hg : TimeStepping.new nodes tLeft = .ok g) (f : Fin M → ℝ) (m : Fin M) :
    (g.computeBE *ᵥ f) m =
      prev 0 (g.computeBE *ᵥ f) m + (nodes m - prev tLeft nodes m) * f m := by
  have h : ∀ m, (g.computeBE *ᵥ f) m = ∑ j, (if j ≤ m then g.deltas j * f j else 0) := fun m => by
    change ∑ j, g.computeBE m j * f j = _
    refine Finset.sum_congr rfl fun j _ => ?_
    rw [g.computeBE_apply]
    split_ifs <;> simp
  rw [← deltas_eq hg, funext h]
  exact sum_le_step (fun j => g.deltas j * f j) m

/-- Instance: two nodes, second substep. -/
example (f : Fin 2 → ℝ) : ∃ g, TimeStepping.new ![(1:ℝ)/3, 1] 0 = .ok g ∧
    (g.computeBE *ᵥ f) 1 = (g.computeBE *ᵥ f) 0 + 2 / 3 * f 1 := by
  refine ⟨_, rfl, ?_⟩
  rw [C38_backward_euler ![(1:ℝ)/3, 1] 0 _ rfl f 1]
  norm_num [prev]

/-- C38, forward Euler: with the contribution `dTau * f(tLeft)` of the initial value,
`v_m = v_{m-1} + (τ_m - τ_{m-1}) f_{m-1}` where `f_{-1} = f(tLeft)`. -/
theorem C38_forward_euler (nodes : Fin M → ℝ) (tLeft : ℝ) (g : TimeStepping M)
    (hg : TimeStepping.new nodes tLeft = .ok g) (f : Fin M → ℝ) (f0 : ℝ) (m : Fin M) :
    let v := fun m => (g.computeFE *ᵥ f) m + g.dTauFE m * f0
    v m = prev 0 v m + (nodes m - prev tLeft nodes m) * prev f0 f m := by
  intro v
  have h : ∀ m, (g.computeFE *ᵥ f) m = ∑ j : Fin M, (if j < m then
      (fun i => atPos g.deltas i * atPos f (i - 1)) (j + 1) else 0) := fun m => by
    change ∑ j, g.computeFE m j * f j = _
    refine Finset.sum_congr rfl fun j _ => ?_
    rw [g.computeFE_apply]
    split_ifs <;> simp [atPos]
  have hd : ∀ m, g.dTauFE m = atPos g.deltas 0 := fun m => by simp [TimeStepping.dTauFE]
  have hv : ∀ m, v m = (∑ j : Fin M, (if j < m then
      (fun i => atPos g.deltas i * atPos f (i - 1)) (j + 1) else 0)) + atPos g.deltas 0 * f0 :=
    fun m => by simp only [v, h, hd]
  have hs := sum_lt_step (fun i => atPos g.deltas i * atPos f (i - 1)) m
  rw [← deltas_eq hg]
  by_cases h0 : (m : ℕ) = 0
  · rw [hv, hs, if_pos h0]
    have : m = ⟨0, m.pos⟩ := Fin.ext h0
    simp [prev, h0, atPos, m.pos]
    left
    rw [this]
  · rw [hv, hs, if_neg h0]
    simp only [prev, h0, if_false, hv]
    have e1 : atPos g.deltas m = g.deltas m := by simp [atPos]
    have e2 : atPos f (m - 1) = f ⟨m - 1, lt_of_le_of_lt (Nat.sub_le _ _) m.isLt⟩ := by
      have : (m : ℕ) - 1 < M := by omega
      simp [atPos, this]
    rw [e1, e2]
    ring

/-- Instance: two nodes, second substep. -/
example (f : Fin 2 → ℝ) (f0 : ℝ) : ∃ g, TimeStepping.new ![(1:ℝ)/3, 1] 0 = .ok g ∧
    (g.computeFE *ᵥ f) 1 + g.dTauFE 1 * f0 = (g.computeFE *ᵥ f) 0 + g.dTauFE 0 * f0 + 2 / 3 * f 0 := by
  obtain ⟨g, hg⟩ : ∃ g, TimeStepping.new ![(1:ℝ)/3, 1] 0 = .ok g := ⟨_, rfl⟩
  refine ⟨g, hg, ?_⟩
  have := C38_forward_euler ![(1:ℝ)/3, 1] 0 g hg f f0 1
  norm_num [prev] at this
  rw [this]

/-- C38, trapezoidal rule:
`v_m = v_{m-1} + (τ_m - τ_{m-1}) (f_{m-1} + f_m) / 2` where `f_{-1} = f(tLeft)`. -/
theorem C38_trapezoidal (nodes : Fin M → ℝ) (tLeft : ℝ) (g : TimeStepping M)
    (hg : TimeStepping.new nodes tLeft = .ok g) (f : Fin M → ℝ) (f0 : ℝ) (m : Fin M) :
    let v := fun m => (g.computeTRAP *ᵥ f) m + g.dTauTRAP m * f0
    v m = prev 0 v m + (nodes m - prev tLeft nodes m) * ((prev f0 f m + f m) / 2) := by
  intro v
  have h : ∀ m, v m = ((g.computeBE *ᵥ f) m + ((g.computeFE *ᵥ f) m + g.dTauFE m * f0)) / 2 := by
    intro m
    have : (g.computeTRAP *ᵥ f) m = ((g.computeBE *ᵥ f) m + (g.computeFE *ᵥ f) m) / 2 := by
      change ∑ j, g.computeTRAP m j * f j = (∑ j, g.computeBE m j * f j + ∑ j, g.computeFE m j * f j) / 2
      rw [← Finset.sum_add_distrib, Finset.sum_div]
      refine Finset.sum_congr rfl fun j _ => ?_
      rw [g.computeTRAP_eq]
      ring
    simp only [v, this, TimeStepping.dTauTRAP, TimeStepping.dTauFE]
    ring
  have h1 := C38_backward_euler nodes tLeft g hg f m
  have h2 := C38_forward_euler nodes tLeft g hg f f0 m
  simp only at h2
  have h3 : prev 0 v m = (prev 0 (g.computeBE *ᵥ f) m +
      prev 0 (fun m => (g.computeFE *ᵥ f) m + g.dTauFE m * f0) m) / 2 := by
    unfold prev
    split_ifs
    · simp
    · exact h _
  rw [h m, h3, h1, h2]
  ring

/-- The three theorems of C38 apply to three nodes with a left bound different from zero. -/
example : ∃ g : TimeStepping 3, TimeStepping.new ![1, 2, 4] (1 / 2) = .ok g ∧
    g.computeBE = !![1 / 2, 0, 0; 1 / 2, 1, 0; 1 / 2, 1, 2] := by
  refine ⟨_, rfl, ?_⟩
  ext i j
  rw [TimeStepping.computeBE_apply]
  fin_cases i <;> fin_cases j <;> simp <;> norm_num

/-! ## C39 -/

/-- A sequence with increments `τ_m - τ_{m-1}` from `0` is `τ - tLeft`. -/
theorem step_sum {v nodes : Fin M → ℝ} {tLeft : ℝ}
    (h : ∀ m, v m = prev 0 v m + (nodes m - prev tLeft nodes m)) (m : Fin M) :
    v m = nodes m - tLeft := by
  obtain ⟨k, hk⟩ := m
  induction k with
  | zero => rw [h]; simp [prev]
  | succ k ih =>
    have := ih (by omega)
    rw [h]
    simp [prev, this]

/-- C39: the rows of backward Euler, and those of forward Euler and of the trapezoidal rule with
`dTau`, sum up to the distance of the node from the left bound (constants are integrated
exactly). -/
theorem C39_row_sums (nodes : Fin M → ℝ) (tLeft : ℝ) (g : TimeStepping M)
    (hg : TimeStepping.new nodes tLeft = .ok g) (m : Fin M) :
    ∑ j, g.computeBE m j = nodes m - tLeft ∧
    ∑ j, g.computeFE m j + g.dTauFE m = nodes m - tLeft ∧
    ∑ j, g.computeTRAP m j + g.dTauTRAP m = nodes m - tLeft := by
  refine ⟨?_, ?_, ?_⟩
  · have := step_sum (v := g.computeBE *ᵥ fun _ => 1) (nodes := nodes) (tLeft := tLeft)
      (fun m => by rw [C38_backward_euler nodes tLeft g hg]; ring) m
    rw [← this]
    change _ = ∑ j, g.computeBE m j * 1
    simp
  · have := step_sum (v := fun m => (g.computeFE *ᵥ fun _ => 1) m + g.dTauFE m * 1) (nodes := nodes)
      (tLeft := tLeft) (fun m => by
        have := C38_forward_euler nodes tLeft g hg (fun _ => 1) 1 m
        simp only at this
        rw [this]
        simp [prev]) m
    rw [← this]
    change _ = ∑ j, g.computeFE m j * 1 + _
    simp
  · have := step_sum (v := fun m => (g.computeTRAP *ᵥ fun _ => 1) m + g.dTauTRAP m * 1)
      (nodes := nodes) (tLeft := tLeft) (fun m => by
        have := C38_trapezoidal nodes tLeft g hg (fun _ => 1) 1 m
        simp only at this
        rw [this]
        simp [prev]) m
    rw [← this]
    change _ = ∑ j, g.computeTRAP m j * 1 + _
    simp

/-- Three nodes with a left bound different from zero. -/
example : ∃ g : TimeStepping 3, TimeStepping.new ![1, 2, 4] (1 / 2) = .ok g := ⟨_, rfl⟩

/-- Without nodes the constructor raises, otherwise it succeeds: the hypothesis of C38-C42 holds for
every non-empty node array. -/
theorem C38_constructor (nodes : Fin M → ℝ) (tLeft : ℝ) :
    ((∃ g, TimeStepping.new nodes tLeft = .ok g) ↔ 0 < M) ∧
    (M = 0 → TimeStepping.new nodes tLeft = .error .indexError) := by
  unfold TimeStepping.new
  constructor
  · constructor
    · rintro ⟨g, hg⟩
      by_contra h
      simp [h] at hg
    · intro h
      exact ⟨_, if_pos h⟩
  · rintro rfl
    rfl

/-! ## C40 -/

/-- C40: the node-to-node form of backward Euler is the diagonal matrix of the node distances, that
of forward Euler has them (from the second one on) below the diagonal, that of the trapezoidal rule
is their mean. -/
theorem C40_SDelta (nodes : Fin M → ℝ) (tLeft : ℝ) (g : TimeStepping M)
    (hg : TimeStepping.new nodes tLeft = .ok g) (i j : Fin M) :
    (qgenT M * g.computeBE) i j = (if j = i then nodes i - prev tLeft nodes i else 0) ∧
    (qgenT M * g.computeFE) i j =
      (if (j : ℕ) + 1 = i then nodes i - prev tLeft nodes i else 0) ∧
    (qgenT M * g.computeTRAP) i j =
      ((if j = i then nodes i - prev tLeft nodes i else 0) +
        (if (j : ℕ) + 1 = i then nodes i - prev tLeft nodes i else 0)) / 2 := by
  have hBE : (qgenT M * g.computeBE) i j = (if j = i then nodes i - prev tLeft nodes i else 0) := by
    rw [qgenT_mul, ← deltas_eq hg]
    by_cases h : 0 < (i : ℕ)
    · rw [dif_pos h, g.computeBE_apply, g.computeBE_apply]
      rcases lt_trichotomy j i with hji | hji | hji
      · have h2 : j ≤ ⟨i - 1, by omega⟩ := Fin.le_def.mpr (by have := Fin.lt_def.mp hji; simp; omega)
        simp [hji.le, h2, hji.ne]
      · have h2 : ¬ j ≤ ⟨i - 1, by omega⟩ := fun hh => by
          have := Fin.le_def.mp hh
          have := congrArg Fin.val hji
          simp at *
          omega
        rw [if_neg h2, if_pos hji.le, if_pos hji, hji, sub_zero]
      · have h2 : ¬ j ≤ ⟨i - 1, by omega⟩ := fun hh => by
          have := Fin.le_def.mp hh
          have := Fin.lt_def.mp hji
          simp at *
          omega
        simp [not_le.mpr hji, h2, hji.ne']
    · rw [dif_neg h, g.computeBE_apply, sub_zero]
      have : j ≤ i ↔ j = i := by
        rw [Fin.le_def, Fin.ext_iff]
        omega
      simp only [this]
      split_ifs with hh
      · rw [hh]
      · rfl
  have hFE : (qgenT M * g.computeFE) i j =
      (if (j : ℕ) + 1 = i then nodes i - prev tLeft nodes i else 0) := by
    rw [qgenT_mul, ← deltas_eq hg]
    by_cases h : 0 < (i : ℕ)
    · rw [dif_pos h, g.computeFE_apply, g.computeFE_apply]
      simp only [Fin.lt_def]
      rcases lt_trichotomy ((j : ℕ) + 1) i with hji | hji | hji
      · rw [if_pos (by omega), if_pos (by omega), if_neg (by omega), sub_self]
      · rw [if_pos (by omega), if_neg (by omega), if_pos hji, sub_zero]
        simp [atPos, hji]
      · rw [if_neg (by omega), if_neg (by omega), if_neg (by omega), sub_zero]
    · rw [dif_neg h, g.computeFE_apply, sub_zero, if_neg (by rw [Fin.lt_def]; omega),
        if_neg (by omega)]
  refine ⟨hBE, hFE, ?_⟩
  rw [← hBE, ← hFE]
  have : g.computeTRAP = (1 / 2 : ℝ) • (g.computeBE + g.computeFE) := by
    ext r c
    rw [g.computeTRAP_eq, Matrix.smul_apply, Matrix.add_apply, smul_eq_mul]
    ring
  rw [this, Matrix.mul_smul, Matrix.mul_add, Matrix.smul_apply, Matrix.add_apply, smul_eq_mul]
  ring

/-- Instance: two nodes, the second step. -/
example : ∃ g, TimeStepping.new ![(1:ℝ)/3, 1] 0 = .ok g ∧ (qgenT 2 * g.computeBE) 1 1 = 2 / 3 ∧
    (qgenT 2 * g.computeFE) 1 0 = 2 / 3 ∧ (qgenT 2 * g.computeTRAP) 1 0 = 1 / 3 := by
  obtain ⟨h1, -, -⟩ := C40_SDelta ![(1:ℝ)/3, 1] 0 _ rfl 1 1
  obtain ⟨-, h2, h3⟩ := C40_SDelta ![(1:ℝ)/3, 1] 0 _ rfl 1 0
  refine ⟨_, rfl, h1.trans ?_, h2.trans ?_, h3.trans ?_⟩ <;> norm_num [prev]

/-- C40, any generator: `getSDelta` raises when `getQDelta` does; otherwise its rows are the
differences of consecutive rows of `QDelta`, whose rows are the cumulated rows of `SDelta`. -/
theorem C40_SDelta_QDelta (g : QDeltaGen) (k : Option ℤ) :
    (∀ e, g.getQDelta k = .error e → g.getSDelta k = .error e) ∧
    ∀ A, g.getQDelta k = .ok A → ∃ S, g.getSDelta k = .ok S ∧
      (∀ i j, S i j = A i j - prev 0 (fun i => A i j) i) ∧
      ∀ i j, A i j = ∑ l, if l ≤ i then S l j else 0 := by
  constructor
  · intro e he
    simp [QDeltaGen.getSDelta, he, bind, Except.bind]
  · intro A hA
    refine ⟨qgenT g.size * A, by simp [QDeltaGen.getSDelta, hA, bind, Except.bind, pure, Except.pure],
      fun i j => ?_, fun i j => ?_⟩
    · rw [qgenT_mul]
      unfold prev
      by_cases h : (i : ℕ) = 0
      · simp [h]
      · have : 0 < (i : ℕ) := by omega
        simp [h, this]
    · have h1 : qgenTinv g.size * (qgenT g.size * A) = A := by
        rw [← Matrix.mul_assoc, mul_eq_one_comm.mp (qgenT_mul_Tinv g.size), Matrix.one_mul]
      have h2 := congrFun (congrFun h1 i) j
      rw [Matrix.mul_apply] at h2
      rw [← h2]
      refine Finset.sum_congr rfl fun l _ => ?_
      simp [qgenTinv]

/-- Instance: a generator of size two. -/
example (A : Matrix (Fin 2) (Fin 2) ℝ) :
    ∃ S : Matrix (Fin 2) (Fin 2) ℝ, QDeltaGen.getSDelta ⟨2, false, fun _ => .ok A, fun _ => false, 0⟩ none = .ok S ∧
      S 1 0 = A 1 0 - A 0 0 := by
  obtain ⟨-, h⟩ := C40_SDelta_QDelta ⟨2, false, fun _ => .ok A, fun _ => false, 0⟩ none
  obtain ⟨S, hS, h1, -⟩ := h A rfl
  exact ⟨S, hS, h1 (1 : Fin 2) (0 : Fin 2)⟩

/-! ## C42 -/

/-- C42: the trapezoidal approximations integrate linear functions exactly: for `f(t) = t - tLeft`,
`QDelta f = (τ - tLeft)²/2`, for TRAP with any left bound and for TRAPAR with left bound `0`. -/
theorem C42_trap_linear (nodes : Fin M → ℝ) (tLeft : ℝ) (g : TimeStepping M)
    (hg : TimeStepping.new nodes tLeft = .ok g) (m : Fin M) :
    (g.computeTRAP *ᵥ fun i => nodes i - tLeft) m = (nodes m - tLeft) ^ 2 / 2 ∧
    (tLeft = 0 → (g.computeTRAPAR *ᵥ nodes) m = nodes m ^ 2 / 2) := by
  constructor
  · have h : ∀ m, (g.computeTRAP *ᵥ fun i => nodes i - tLeft) m =
        prev 0 (g.computeTRAP *ᵥ fun i => nodes i - tLeft) m + (nodes m - prev tLeft nodes m) *
        ((prev 0 (fun i => nodes i - tLeft) m + (nodes m - tLeft)) / 2) := fun m => by
      have := C38_trapezoidal nodes tLeft g hg (fun i => nodes i - tLeft) 0 m
      simpa using this
    obtain ⟨k, hk⟩ := m
    induction k with
    | zero => rw [h]; simp [prev]; ring
    | succ k ih =>
      have := ih (by omega)
      rw [h]
      simp only [prev, Nat.add_one_ne_zero, if_false, Nat.add_sub_cancel, this]
      ring
  · rintro rfl
    obtain ⟨-, h1, h2, -⟩ := g.new_ok hg
    change ∑ j, g.computeTRAPAR m j * nodes j = _
    rw [Finset.sum_eq_single m]
    · simp only [TimeStepping.computeTRAPAR, Matrix.of_apply, Matrix.diagonal_apply_eq, h1, h2]
      ring
    · intro j _ hj
      simp only [TimeStepping.computeTRAPAR, Matrix.of_apply, h2, Matrix.diagonal_apply_ne' _ hj]
      ring
    · simp

/-- Instance: two nodes, left bound `1/6`. -/
example : ∃ g, TimeStepping.new ![(1:ℝ)/3, 1] (1/6) = .ok g ∧
    (g.computeTRAP *ᵥ fun i => ![(1:ℝ)/3, 1] i - 1/6) 1 = 25 / 72 := by
  refine ⟨_, rfl, ?_⟩
  rw [(C42_trap_linear ![(1:ℝ)/3, 1] (1/6) _ rfl 1).1]
  norm_num

/-- C42: on collocation nodes (`M ≥ 2`, any interval) `QDelta` of TRAP, and of TRAPAR when the
interval starts at `0`, agrees with `Q` on linear functions vanishing at the left bound. -/
theorem C42_trap_matches_Q {nt qt : String} {a b : ℝ} (hab : a < b) (hM : 2 ≤ M)
    (c : Collocation M) (hc : Collocation.new M nt qt a b = .ok c) :
    ∃ g, TimeStepping.new c.nodes a = .ok g ∧
      (g.computeTRAP *ᵥ fun i => c.nodes i - a) = (c.Q *ᵥ fun i => c.nodes i - a) ∧
      (a = 0 → g.computeTRAPAR *ᵥ c.nodes = c.Q *ᵥ c.nodes) := by
  obtain ⟨x, hM', h⟩ := collocation_spec hc
  obtain ⟨g, hg⟩ := ((C38_constructor c.nodes a).1).mpr (by omega)
  have hQ : ∀ i, (c.Q *ᵥ fun i => c.nodes i - a) i = (c.nodes i - a) ^ 2 / 2 := by
    intro i
    have hdeg : (Polynomial.X - Polynomial.C a : Polynomial ℝ).degree < M := by
      rw [Polynomial.degree_X_sub_C]
      exact_mod_cast hM
    have := h.Q_exact hab _ hdeg i
    have e : vals (Polynomial.X - Polynomial.C a : Polynomial ℝ) c.nodes =
        fun i => c.nodes i - a := by
      ext i
      simp [vals]
    rw [e] at this
    rw [this]
    unfold polyInt
    simp only [Polynomial.eval_sub, Polynomial.eval_X, Polynomial.eval_C]
    rw [intervalIntegral.integral_sub (by simp) (by simp)]
    simp
    ring
  refine ⟨g, hg, ?_, ?_⟩
  · ext i
    rw [hQ, (C42_trap_linear c.nodes a g hg i).1]
  · rintro rfl
    ext i
    have := hQ i
    simp only [sub_zero] at this
    rw [(C42_trap_linear c.nodes 0 g hg i).2 rfl, ← this]

/-- Two Legendre Lobatto nodes on `[1, 3]`. -/
example : ∃ c, Collocation.new 2 "LEGENDRE" "LOBATTO" 1 3 = .ok c :=
  collocation_new_ok (by decide) (by decide) ⟨by decide, by decide⟩ 1 3

/-- C42 does not extend to TRAPAR with a non-zero left bound: the bound is subtracted from every
entry of the matrix. -/
theorem C42_trapar_tLeft_fails : ∃ (g : TimeStepping 2), TimeStepping.new ![2, 3] 1 = .ok g ∧
    g.computeTRAPAR 0 1 = -1 ∧
    (g.computeTRAPAR *ᵥ fun i => (![2, 3] : Fin 2 → ℝ) i - 1) 0 ≠
      ((![2, 3] : Fin 2 → ℝ) 0 - 1) ^ 2 / 2 := by
  refine ⟨_, rfl, ?_, ?_⟩
  · simp [TimeStepping.computeTRAPAR]
  · rw [Matrix.mulVec_eq_sum]
    simp [TimeStepping.computeTRAPAR, Fin.sum_univ_two]
    norm_num

end QMat
