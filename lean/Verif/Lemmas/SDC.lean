import Verif.Model.SDC
import Verif.Spec.SDC
import Verif.Lemmas.QDeltaGen
import Mathlib.Tactic.Ring
import Mathlib.Tactic.LinearCombination

/-!
# The loops of `solveDahlquistSDC`
-/

namespace QMat

open Matrix Spec

variable {M : ℕ}

/-- Node values after `k` sweeps, as the code computes them. -/
noncomputable def sdcIter (z : ℂ) (Q : Matrix (Fin M) (Fin M) ℝ)
    (QDelta : ℕ → Matrix (Fin M) (Fin M) ℝ) (u : ℂ) : ℕ → Fin M → ℂ
  | 0 => fun _ => u
  | k + 1 => (1 - z • cmat (QDelta k))⁻¹ *ᵥ
      fun j => u + ((z • cmat (Q - QDelta k)) *ᵥ sdcIter z Q QDelta u k) j

theorem sdcIter_smul (z : ℂ) (Q : Matrix (Fin M) (Fin M) ℝ)
    (QDelta : ℕ → Matrix (Fin M) (Fin M) ℝ) (u : ℂ) (k : ℕ) :
    sdcIter z Q QDelta u k = u • sdcIter z Q QDelta 1 k := by
  induction k with
  | zero => funext j; simp [sdcIter]
  | succ k ih =>
    simp only [sdcIter]
    rw [← Matrix.mulVec_smul]
    congr 1
    funext j
    rw [ih, Matrix.mulVec_smul]
    simp [mul_add]

theorem sdcIter_iterates {z : ℂ} {Q : Matrix (Fin M) (Fin M) ℝ}
    {QDelta : ℕ → Matrix (Fin M) (Fin M) ℝ} {K : ℕ}
    (h : ∀ k < K, (1 - z • cmat (QDelta k)).det ≠ 0) (u : ℂ) :
    SDCIterates z Q QDelta K u (sdcIter z Q QDelta u) where
  copy := rfl
  sweep k hk := by
    simp only [sdcIter]
    rw [Matrix.mulVec_mulVec, Matrix.mul_nonsing_inv _ (isUnit_iff_ne_zero.mpr (h k hk)),
      Matrix.one_mulVec]
    rfl

theorem SDCIterates.eq {z : ℂ} {Q : Matrix (Fin M) (Fin M) ℝ}
    {QDelta : ℕ → Matrix (Fin M) (Fin M) ℝ} {K : ℕ} {u : ℂ} {U : ℕ → Fin M → ℂ}
    (h : ∀ k < K, (1 - z • cmat (QDelta k)).det ≠ 0) (hU : SDCIterates z Q QDelta K u U)
    (k : ℕ) (hk : k ≤ K) : U k = sdcIter z Q QDelta u k := by
  induction k with
  | zero => exact hU.copy
  | succ k ih =>
    have := hU.sweep k (by omega)
    simp only [sdcIter]
    have e : (fun j => u + ((z • cmat (Q - QDelta k)) *ᵥ sdcIter z Q QDelta u k) j) =
        (1 - z • cmat (QDelta k)) *ᵥ U (k + 1) := by
      rw [this, ih (by omega)]
      rfl
    rw [e, Matrix.mulVec_mulVec, Matrix.nonsing_inv_mul _ (isUnit_iff_ne_zero.mpr (h k (by omega))),
      Matrix.one_mulVec]

namespace SDCData

variable (d : SDCData M)

/-- The monitors after `n` sweeps of step `i`. -/
noncomputable def recs (i : ℕ) (ui : ℂ) (U : ℕ → Fin M → ℂ) (mon : SDCMonitors M) : ℕ → SDCMonitors M
  | 0 => d.record 0 i ui (U 0) mon
  | n + 1 => d.record (n + 1) i ui (U (n + 1)) (recs i ui U mon n)

theorem sweeps_eq (i : ℕ) (ui : ℂ) (mon : SDCMonitors M) (n : ℕ)
    (h : ∀ k < n, (d.P k).det ≠ 0) :
    (List.range n).foldlM (d.sweep i ui)
      ((fun _ => ui : Fin M → ℂ), d.record 0 i ui (fun _ => ui) mon) =
      .ok (sdcIter (d.lam * d.dt) d.Q d.QDelta ui n,
        d.recs i ui (sdcIter (d.lam * d.dt) d.Q d.QDelta ui) mon n) := by
  induction n with
  | zero => rfl
  | succ n ih =>
    rw [List.range_succ, List.foldlM_append, ih fun k hk => h k (by omega)]
    simp only [bind, Except.bind, List.foldlM_cons, List.foldlM_nil, sweep, npSolve, h n (by omega),
      if_false, pure, Except.pure]
    rfl

theorem sweeps_singular (i : ℕ) (ui : ℂ) (s : (Fin M → ℂ) × SDCMonitors M) (n k : ℕ) (hk : k < n)
    (h : (d.P k).det = 0) :
    (List.range n).foldlM (d.sweep i ui) s = .error .linAlgError := by
  have all : ∀ (l : List ℕ) (s : (Fin M → ℂ) × SDCMonitors M), k ∈ l →
      l.foldlM (d.sweep i ui) s = .error .linAlgError := by
    intro l
    induction l with
    | nil => intro s h; simp at h
    | cons a l ih =>
      intro s hm
      rw [List.foldlM_cons]
      simp only [bind, Except.bind, sweep, npSolve, pure, Except.pure]
      by_cases ha : (d.P a).det = 0
      · simp [ha]
      · simp only [ha, if_false]
        refine ih _ ?_
        rcases List.mem_cons.mp hm with rfl | hm
        · exact absurd h ha
        · exact hm
  exact all _ s (List.mem_range.mpr hk)

/-- What a step does to the value, for the node values `U` after the sweeps. -/
theorem update_ok {u v : ℂ} {U : Fin M → ℂ} (h : d.update u U = .ok v) :
    (d.weights = none ∧ ∃ h : 0 < M, v = U ⟨M - 1, by omega⟩) ∨
    ∃ w : Fin M → ℝ, d.weights = some ⟨M, w⟩ ∧ v = u + d.lam * d.dt * ∑ i, (w i : ℂ) * U i := by
  unfold update at h
  cases hw : d.weights with
  | none =>
    rw [hw] at h
    dsimp only at h
    split_ifs at h with hM
    cases h
    exact Or.inl ⟨rfl, hM, rfl⟩
  | some w =>
    rw [hw] at h
    obtain ⟨x, hx, h⟩ := bind_ok h
    cases h
    unfold npDot at hx
    split_ifs at hx with hM
    obtain ⟨k, w⟩ := w
    dsimp only at hM
    subst hM
    cases hx
    exact Or.inr ⟨w, rfl, rfl⟩

end SDCData

/-- The step update as a functional: the last node, or the quadrature. -/
noncomputable def sdcUpdate (z : ℂ) (weights : Option (Σ k, Fin k → ℝ)) (u : ℂ) (U : Fin M → ℂ) : ℂ :=
  match weights with
  | none => if h : 0 < M then U ⟨M - 1, by omega⟩ else 0
  | some w => u + z * ∑ i, (if h : w.1 = M then (w.2 (Fin.cast h.symm i) : ℂ) else 0) * U i

/-- Weights that fit the nodes: none (and then at least one node), or one per node. -/
def WeightsFit (M : ℕ) : Option (Σ k, Fin k → ℝ) → Prop
  | none => 0 < M
  | some w => w.1 = M

/-- The factor of one step. -/
noncomputable def sdcFactor (z : ℂ) (Q : Matrix (Fin M) (Fin M) ℝ)
    (QDelta : ℕ → Matrix (Fin M) (Fin M) ℝ) (K : ℕ) (weights : Option (Σ k, Fin k → ℝ)) : ℂ :=
  sdcUpdate z weights 1 (sdcIter z Q QDelta 1 K)

theorem sdcUpdate_smul (z : ℂ) (weights : Option (Σ k, Fin k → ℝ)) (u : ℂ) (U : Fin M → ℂ) :
    sdcUpdate z weights u (u • U) = u * sdcUpdate z weights 1 U := by
  cases weights with
  | none =>
    simp only [sdcUpdate]
    split_ifs
    · simp
    · simp
  | some w =>
    simp only [sdcUpdate, Pi.smul_apply, smul_eq_mul, Finset.mul_sum, mul_add]
    rw [mul_one]
    congr 1
    refine Finset.sum_congr rfl fun i _ => ?_
    ring

namespace SDCData

variable (d : SDCData M)

theorem update_eq (hw : WeightsFit M d.weights) (u : ℂ) (U : Fin M → ℂ) :
    d.update u U = .ok (sdcUpdate (d.lam * d.dt) d.weights u U) := by
  unfold update sdcUpdate
  cases h : d.weights with
  | none =>
    rw [h] at hw
    have : 0 < M := hw
    simp [this]
  | some w =>
    rw [h] at hw
    obtain ⟨k, w⟩ := w
    have : k = M := hw
    subst this
    simp [npDot, bind, Except.bind, pure, Except.pure]

theorem update_error (hw : ¬ WeightsFit M d.weights) (u : ℂ) (U : Fin M → ℂ) :
    ∃ e, d.update u U = .error e := by
  unfold update
  cases h : d.weights with
  | none =>
    rw [h] at hw
    have : ¬ 0 < M := hw
    exact ⟨.indexError, by simp [this]⟩
  | some w =>
    rw [h] at hw
    have : ¬ w.1 = M := hw
    exact ⟨.valueError, by simp [npDot, this, bind, Except.bind]⟩

/-- The values computed by `n` steps. -/
noncomputable def vals (K : ℕ) (i : ℕ) : ℂ :=
  sdcFactor (d.lam * d.dt) d.Q d.QDelta K d.weights ^ i * d.u0

/-- The monitors after `n` steps of `K` sweeps. -/
noncomputable def mons (K : ℕ) (mon : SDCMonitors M) : ℕ → SDCMonitors M
  | 0 => mon
  | n + 1 => d.recs n (d.vals K n) (sdcIter (d.lam * d.dt) d.Q d.QDelta (d.vals K n)) (mons K mon n) K

theorem steps_eq (K : ℕ) (hw : WeightsFit M d.weights) (h : ∀ k < K, (d.P k).det ≠ 0)
    (mon : SDCMonitors M) (n : ℕ) :
    (List.range n).foldlM (d.step K) (Function.update (fun _ => 0) 0 d.u0, mon) =
      .ok ((fun i => if i ≤ n then d.vals K i else 0), d.mons K mon n) := by
  induction n with
  | zero =>
    simp only [List.range_zero, List.foldlM_nil, pure, Except.pure, mons]
    congr 2
    funext i
    cases i with
    | zero => simp [vals]
    | succ i => simp
  | succ n ih =>
    rw [List.range_succ, List.foldlM_append, ih]
    simp only [bind, Except.bind, List.foldlM_cons, List.foldlM_nil, step, le_refl, if_true, pure,
      Except.pure]
    rw [d.sweeps_eq n (d.vals K n) _ K h]
    simp only
    rw [d.update_eq hw]
    simp only [mons]
    congr 2
    funext i
    by_cases hi : i = n + 1
    · subst hi
      rw [Function.update_self, if_pos le_rfl, sdcIter_smul, sdcUpdate_smul]
      simp only [vals, sdcFactor, pow_succ]
      ring
    · rw [Function.update_of_ne hi]
      have : i ≤ n ↔ i ≤ n + 1 := by omega
      simp only [this]

theorem steps_error (K : ℕ) (h : ¬ WeightsFit M d.weights ∨ ∃ k < K, (d.P k).det = 0)
    (s : (ℕ → ℂ) × SDCMonitors M) (n : ℕ) (hn : 0 < n) :
    ∃ e, (List.range n).foldlM (d.step K) s = .error e := by
  obtain ⟨n, rfl⟩ : ∃ m, n = m + 1 := ⟨n - 1, by omega⟩
  rw [List.range_succ_eq_map, List.foldlM_cons]
  by_cases hs : ∃ k < K, (d.P k).det = 0
  · obtain ⟨k, hk, hs⟩ := hs
    refine ⟨.linAlgError, ?_⟩
    simp only [bind, Except.bind, step]
    rw [d.sweeps_singular _ _ _ K k hk hs]
  · have hw := h.resolve_right hs
    push Not at hs
    simp only [bind, Except.bind, step]
    rw [d.sweeps_eq _ _ _ K hs]
    obtain ⟨e, he⟩ := d.update_error hw (s.1 0) (sdcIter (d.lam * d.dt) d.Q d.QDelta (s.1 0) K)
    exact ⟨e, by simp only [he]⟩

theorem steps_singular (K : ℕ) (h : ∃ k < K, (d.P k).det = 0)
    (s : (ℕ → ℂ) × SDCMonitors M) (n : ℕ) (hn : 0 < n) :
    (List.range n).foldlM (d.step K) s = .error .linAlgError := by
  obtain ⟨n, rfl⟩ : ∃ m, n = m + 1 := ⟨n - 1, by omega⟩
  rw [List.range_succ_eq_map, List.foldlM_cons]
  obtain ⟨k, hk, hs⟩ := h
  simp only [bind, Except.bind, step]
  rw [d.sweeps_singular _ _ _ K k hk hs]

/-! ## Monitors -/

/-- The residual monitored for the node values `U`. -/
noncomputable def resid (ui : ℂ) (U : Fin M → ℂ) : Fin M → ℂ := fun j =>
  ui + (((d.lam * d.dt) • cmat d.Q) *ᵥ U) j - U j

/-- The error monitored for the node values `U` of step `i`. -/
noncomputable def err (i : ℕ) (U : Fin M → ℂ) : Fin M → ℂ := fun j =>
  U j - d.u0 * Complex.exp (d.lam * (d.times i + d.dt * d.nodes j : ℝ))

theorem npSet2_apply {α : Type} (arr : ℕ → ℕ → α) (k i : ℕ) (v : α) (k' i' : ℕ) :
    npSet2 arr k i v k' i' = if k' = k ∧ i' = i then v else arr k' i' := by
  unfold npSet2
  by_cases hk : k' = k
  · subst hk
    rw [Function.update_self]
    by_cases hi : i' = i
    · subst hi; simp
    · simp [hi]
  · simp [hk]

theorem recs_eq (i : ℕ) (ui : ℂ) (U : ℕ → Fin M → ℂ) (mon : SDCMonitors M) (n : ℕ) :
    d.recs i ui U mon n =
      { residuals := mon.residuals.map fun r k i' => if k ≤ n ∧ i' = i then d.resid ui (U k) else r k i'
        errors := mon.errors.map fun r k i' => if k ≤ n ∧ i' = i then d.err i (U k) else r k i' } := by
  induction n with
  | zero =>
    simp only [recs, record]
    congr 2
    · funext r k i'
      rw [npSet2_apply]
      by_cases hk : k = 0
      · subst hk; by_cases hi : i' = i <;> simp [hi]; rfl
      · simp [hk]
    · funext r k i'
      rw [npSet2_apply]
      by_cases hk : k = 0
      · subst hk; by_cases hi : i' = i <;> simp [hi]; (funext j; simp [err])
      · simp [hk]
  | succ n ih =>
    simp only [recs, record, ih, Option.map_map]
    congr 2
    · funext r k i'
      simp only [Function.comp]
      rw [npSet2_apply]
      by_cases hk : k = n + 1
      · subst hk; by_cases hi : i' = i <;> simp [hi]; rfl
      · have : k ≤ n ↔ k ≤ n + 1 := by omega
        simp [hk, this]
    · funext r k i'
      simp only [Function.comp]
      rw [npSet2_apply]
      by_cases hk : k = n + 1
      · subst hk; by_cases hi : i' = i <;> simp [hi]; (funext j; simp [err])
      · have : k ≤ n ↔ k ≤ n + 1 := by omega
        simp [hk, this]

theorem mons_eq (K : ℕ) (mon : SDCMonitors M) (n : ℕ) :
    d.mons K mon n =
      { residuals := mon.residuals.map fun r k i => if k ≤ K ∧ i < n then
          d.resid (d.vals K i) (sdcIter (d.lam * d.dt) d.Q d.QDelta (d.vals K i) k) else r k i
        errors := mon.errors.map fun r k i => if k ≤ K ∧ i < n then
          d.err i (sdcIter (d.lam * d.dt) d.Q d.QDelta (d.vals K i) k) else r k i } := by
  induction n with
  | zero => simp [mons]
  | succ n ih =>
    rw [mons, recs_eq, ih]
    simp only [Option.map_map]
    congr 2
    · funext r k i
      simp only [Function.comp]
      by_cases hi : i = n
      · subst hi; by_cases hk : k ≤ K <;> simp [hk]
      · have : i < n ↔ i < n + 1 := by omega
        simp [hi, this]
    · funext r k i
      simp only [Function.comp]
      by_cases hi : i = n
      · subst hi; by_cases hk : k ≤ K <;> simp [hk]
      · have : i < n ↔ i < n + 1 := by omega
        simp [hi, this]

end SDCData

theorem setupMonitors_eq (M : ℕ) (keys : List String) :
    setupMonitors M keys = if ∀ k ∈ keys, k = "residuals" ∨ k = "errors" then
      .ok { residuals := if "residuals" ∈ keys then some fun _ _ _ => 0 else none
            errors := if "errors" ∈ keys then some fun _ _ _ => 0 else none }
    else .error .assertionError := by
  induction keys with
  | nil => simp [setupMonitors]
  | cons key keys ih =>
    unfold setupMonitors
    rw [ih]
    by_cases hk : key = "residuals" ∨ key = "errors"
    · by_cases hks : ∀ k ∈ keys, k = "residuals" ∨ k = "errors"
      · have hall : ∀ k ∈ key :: keys, k = "residuals" ∨ k = "errors" := by
          simpa using ⟨hk, hks⟩
        rw [if_neg (not_not.mpr hk), if_pos hks, if_pos hall]
        rcases hk with rfl | rfl
        · simp [bind, Except.bind, pure, Except.pure]
        · simp [bind, Except.bind, pure, Except.pure]
      · have hall : ¬ ∀ k ∈ key :: keys, k = "residuals" ∨ k = "errors" := by
          intro h
          exact hks fun k hk => h k (by simp [hk])
        rw [if_neg (not_not.mpr hk), if_neg hks, if_neg hall]
        rfl
    · have hall : ¬ ∀ k ∈ key :: keys, k = "residuals" ∨ k = "errors" := by
        intro h
        exact hk (h key (by simp))
      rw [if_pos hk, if_neg hall]
      rfl

end QMat
