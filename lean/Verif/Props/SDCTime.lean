import Verif.Props.ParallelSweeps
import Verif.Spec.SDCTime
import Verif.Props.ODEOrder
import Mathlib.Topology.MetricSpace.Contracting

/-!
# C122: spectral deferred correction on equations `u' = f(t, u)` with a Lipschitz constant
-/

namespace QMat

open Spec Matrix

section General

variable {M : ℕ} {E : Type*} [NormedAddCommGroup E] [NormedSpace ℝ E]

/-- Sum of the absolute values of the entries. -/
def absSum (A : Matrix (Fin M) (Fin M) ℝ) : ℝ := ∑ i, ∑ j, |A i j|

theorem absSum_nonneg (A : Matrix (Fin M) (Fin M) ℝ) : 0 ≤ absSum A :=
  Finset.sum_nonneg fun _ _ => Finset.sum_nonneg fun _ _ => abs_nonneg _

theorem row_le_absSum (A : Matrix (Fin M) (Fin M) ℝ) (i : Fin M) : ∑ j, |A i j| ≤ absSum A :=
  Finset.single_le_sum (f := fun i => ∑ j, |A i j|) (fun _ _ => Finset.sum_nonneg fun _ _ => abs_nonneg _) (Finset.mem_univ i)

theorem absSum_sub_le (A B : Matrix (Fin M) (Fin M) ℝ) : absSum (A - B) ≤ absSum A + absSum B := by
  unfold absSum
  rw [← Finset.sum_add_distrib]
  refine Finset.sum_le_sum fun i _ => ?_
  rw [← Finset.sum_add_distrib]
  exact Finset.sum_le_sum fun j _ => abs_sub _ _

/-- The bound of all matrices of a step. -/
noncomputable def sdcBound (Q : Matrix (Fin M) (Fin M) ℝ) (g : ℕ → Matrix (Fin M) (Fin M) ℝ) (K : ℕ) : ℝ :=
  absSum Q + ∑ k ∈ Finset.range K, absSum (g k)

theorem sdcBound_facts (Q : Matrix (Fin M) (Fin M) ℝ) (g : ℕ → Matrix (Fin M) (Fin M) ℝ) (K : ℕ) :
    0 ≤ sdcBound Q g K ∧ absSum Q ≤ sdcBound Q g K ∧
    ∀ k < K, absSum (g k) ≤ sdcBound Q g K ∧ absSum (Q - g k) ≤ sdcBound Q g K := by
  have h0 : ∀ k ∈ Finset.range K, 0 ≤ absSum (g k) := fun k _ => absSum_nonneg _
  have hs : 0 ≤ ∑ k ∈ Finset.range K, absSum (g k) := Finset.sum_nonneg h0
  have hQ := absSum_nonneg Q
  refine ⟨add_nonneg hQ hs, le_add_of_nonneg_right hs, fun k hk => ?_⟩
  have h1 := Finset.single_le_sum h0 (Finset.mem_range.2 hk)
  unfold sdcBound
  exact ⟨by linarith, (absSum_sub_le Q (g k)).trans (by linarith)⟩

theorem sdc_weighted_le {a : Fin M → ℝ} {B : ℝ} (ha : ∑ j, |a j| ≤ B) {τ : Fin M → ℝ} {f : ℝ → E → E} {L : ℝ} (hL0 : 0 ≤ L)
    (hL : ∀ t x y, ‖f t x - f t y‖ ≤ L * ‖x - y‖) {U V : Fin M → E} {d : ℝ} (hd : ∀ j, ‖U j - V j‖ ≤ d) (hd0 : 0 ≤ d) :
    ‖∑ j, a j • f (τ j) (U j) - ∑ j, a j • f (τ j) (V j)‖ ≤ B * (L * d) := by
  rw [← Finset.sum_sub_distrib]
  simp only [← smul_sub]
  exact norm_sum_smul_le ha (by positivity) fun j => (hL _ _ _).trans (mul_le_mul_of_nonneg_left (hd j) hL0)

/-- One sweep. -/
theorem sdc_sweep_le {Q G : Matrix (Fin M) (Fin M) ℝ} {B : ℝ} (hG : absSum G ≤ B) (hD : absSum (Q - G) ≤ B)
    {τ : Fin M → ℝ} {f : ℝ → E → E} {L : ℝ} (hL0 : 0 ≤ L)
    (hL : ∀ t x y, ‖f t x - f t y‖ ≤ L * ‖x - y‖) {h : ℝ} (hh : 0 ≤ h) (hs : 2 * (h * L * B) ≤ 1) {u : E} {Y U U' : Fin M → E}
    (hY : ∀ i, Y i = u + h • ∑ j, Q i j • f (τ j) (Y j))
    (hU : ∀ i, U' i = u + h • ∑ j, G i j • f (τ j) (U' j) + h • ∑ j, (Q i j - G i j) • f (τ j) (U j)) {d : ℝ} (hd0 : 0 ≤ d)
    (hd : ∀ i, ‖U i - Y i‖ ≤ d) (i : Fin M) : ‖U' i - Y i‖ ≤ 2 * (h * L * B) * d := by
  have hB : 0 ≤ B := (absSum_nonneg G).trans hG
  have ha : 0 ≤ h * L * B := by positivity
  have key : ‖U' - Y‖ ≤ h * L * B * ‖U' - Y‖ + h * L * B * d := by
    refine (pi_norm_le_iff_of_nonneg (by positivity)).2 fun i => ?_
    have e : (U' - Y) i = h • (∑ j, G i j • f (τ j) (U' j) - ∑ j, G i j • f (τ j) (Y j)) +
        h • (∑ j, (Q i j - G i j) • f (τ j) (U j) - ∑ j, (Q i j - G i j) • f (τ j) (Y j)) := by
      have e1 : ∑ j, Q i j • f (τ j) (Y j) = ∑ j, G i j • f (τ j) (Y j) + ∑ j, (Q i j - G i j) • f (τ j) (Y j) := by
        rw [← Finset.sum_add_distrib]
        exact Finset.sum_congr rfl fun j _ => by rw [← add_smul]; congr 1; ring
      rw [Pi.sub_apply, hU i, hY i, e1]
      simp only [smul_sub, smul_add]
      abel
    rw [e]
    refine (norm_add_le _ _).trans (add_le_add ?_ ?_)
    · rw [norm_smul, Real.norm_eq_abs, abs_of_nonneg hh]
      have := sdc_weighted_le ((row_le_absSum G i).trans hG) (τ := τ) hL0 hL (U := U') (V := Y) (d := ‖U' - Y‖)
        (fun j => norm_le_pi_norm (U' - Y) j) (norm_nonneg _)
      calc h * _ ≤ h * (B * (L * ‖U' - Y‖)) := mul_le_mul_of_nonneg_left this hh
        _ = _ := by ring
    · rw [norm_smul, Real.norm_eq_abs, abs_of_nonneg hh]
      have := sdc_weighted_le ((row_le_absSum (Q - G) i).trans hD) (τ := τ) hL0 hL hd hd0
      calc h * _ ≤ h * (B * (L * d)) := mul_le_mul_of_nonneg_left this hh
        _ = _ := by ring
  have hx := norm_le_pi_norm (U' - Y) i
  have hx0 := norm_nonneg (U' - Y)
  have : ‖U' - Y‖ ≤ 2 * (h * L * B) * d := by nlinarith
  exact hx.trans this

/-- Two solutions of stage equations with different right sides. -/
theorem sdc_stages_le {A : Matrix (Fin M) (Fin M) ℝ} {B : ℝ} (hA : absSum A ≤ B) {τ : Fin M → ℝ} {f : ℝ → E → E} {L : ℝ} (hL0 : 0 ≤ L)
    (hL : ∀ t x y, ‖f t x - f t y‖ ≤ L * ‖x - y‖) {h : ℝ} (hh : 0 ≤ h) (hs : 2 * (h * L * B) ≤ 1) {v v' Y Y' : Fin M → E}
    (hY : ∀ i, Y i = v i + h • ∑ j, A i j • f (τ j) (Y j)) (hY' : ∀ i, Y' i = v' i + h • ∑ j, A i j • f (τ j) (Y' j)) {d : ℝ}
    (hd0 : 0 ≤ d) (hd : ∀ i, ‖v i - v' i‖ ≤ d) (i : Fin M) : ‖Y i - Y' i‖ ≤ 2 * d := by
  have hB : 0 ≤ B := (absSum_nonneg A).trans hA
  have key : ‖Y - Y'‖ ≤ d + h * L * B * ‖Y - Y'‖ := by
    refine (pi_norm_le_iff_of_nonneg (by positivity)).2 fun i => ?_
    have e : (Y - Y') i = (v i - v' i) + h • (∑ j, A i j • f (τ j) (Y j) - ∑ j, A i j • f (τ j) (Y' j)) := by
      rw [Pi.sub_apply, hY i, hY' i, smul_sub]; abel
    rw [e]
    refine (norm_add_le _ _).trans (add_le_add (hd i) ?_)
    rw [norm_smul, Real.norm_eq_abs, abs_of_nonneg hh]
    have := sdc_weighted_le ((row_le_absSum A i).trans hA) (τ := τ) hL0 hL (U := Y) (V := Y') (d := ‖Y - Y'‖)
      (fun j => norm_le_pi_norm (Y - Y') j) (norm_nonneg _)
    calc h * _ ≤ h * (B * (L * ‖Y - Y'‖)) := mul_le_mul_of_nonneg_left this hh
      _ = _ := by ring
  have hx := norm_le_pi_norm (Y - Y') i
  have hx0 := norm_nonneg (Y - Y')
  exact hx.trans (by nlinarith)

/-- Solvability of stage equations. -/
theorem sdc_stages_exist [CompleteSpace E] {A : Matrix (Fin M) (Fin M) ℝ} {B : ℝ} (hA : absSum A ≤ B) (τ : Fin M → ℝ) {f : ℝ → E → E} {L : ℝ}
    (hL0 : 0 ≤ L) (hL : ∀ t x y, ‖f t x - f t y‖ ≤ L * ‖x - y‖) {h : ℝ} (hh : 0 ≤ h) (hs : 2 * (h * L * B) ≤ 1) (v : Fin M → E) :
    ∃ Y : Fin M → E, ∀ i, Y i = v i + h • ∑ j, A i j • f (τ j) (Y j) := by
  set T : (Fin M → E) → Fin M → E := fun Y i => v i + h • ∑ j, A i j • f (τ j) (Y j) with hT
  have hB : 0 ≤ B := (absSum_nonneg A).trans hA
  have hlip : LipschitzWith (1 / 2) T := LipschitzWith.of_dist_le_mul fun Y Y' => by
    rw [dist_eq_norm, dist_eq_norm]
    refine (pi_norm_le_iff_of_nonneg (by positivity)).2 fun i => ?_
    have e : (T Y - T Y') i = h • (∑ j, A i j • f (τ j) (Y j) - ∑ j, A i j • f (τ j) (Y' j)) := by
      simp only [hT, Pi.sub_apply, smul_sub]; abel
    rw [e, norm_smul, Real.norm_eq_abs, abs_of_nonneg hh]
    have := sdc_weighted_le ((row_le_absSum A i).trans hA) (τ := τ) hL0 hL (U := Y) (V := Y') (d := ‖Y - Y'‖)
      (fun j => norm_le_pi_norm (Y - Y') j) (norm_nonneg _)
    calc h * _ ≤ h * (B * (L * ‖Y - Y'‖)) := mul_le_mul_of_nonneg_left this hh
      _ = h * L * B * ‖Y - Y'‖ := by ring
      _ ≤ _ := mul_le_mul_of_nonneg_right (by push_cast; linarith) (norm_nonneg _)
  have hcon : ContractingWith (1 / 2) T := ⟨by norm_num, hlip⟩
  exact ⟨_, fun i => (congrFun hcon.fixedPoint_isFixedPt i).symm⟩

/-- C122 (sweeps): there is a number `C` that depends only on the coefficients such that on every equation with Lipschitz constant `L`,
in every normed space, `K` sweeps of a step with `C h L ≤ 1` from any node values bring them, whatever the matrices, `(C h L) ^ K` times
nearer to the stages of the collocation, and the quadrature of the last values is `C h L` times nearer still. -/
theorem C122_sweeps (c : Fin M → ℝ) (Q : Matrix (Fin M) (Fin M) ℝ) (w : Fin M → ℝ) (g : ℕ → Matrix (Fin M) (Fin M) ℝ) (K : ℕ) :
    ∃ C : ℝ, 0 ≤ C ∧ ∀ {E : Type*} [NormedAddCommGroup E] [NormedSpace ℝ E] (f : ℝ → E → E) (L : ℝ), 0 ≤ L →
      (∀ t x y, ‖f t x - f t y‖ ≤ L * ‖x - y‖) → ∀ (t h : ℝ), 0 ≤ h → C * (h * L) ≤ 1 → ∀ (u : E) (Y : Fin M → E) (u1 : E),
      RKStep c Q w f t h u Y u1 → ∀ (U : ℕ → Fin M → E) (d : ℝ), 0 ≤ d → (∀ i, ‖U 0 i - Y i‖ ≤ d) →
      (∀ k < K, ∀ i, U (k + 1) i = u + h • ∑ j, g k i j • f (t + h * c j) (U (k + 1) j) +
        h • ∑ j, (Q i j - g k i j) • f (t + h * c j) (U k j)) →
      (∀ k ≤ K, ∀ i, ‖U k i - Y i‖ ≤ (C * (h * L)) ^ k * d) ∧
      ‖(u + h • ∑ j, w j • f (t + h * c j) (U K j)) - u1‖ ≤ (C * (h * L)) ^ (K + 1) * d := by
  obtain ⟨hB, hBQ, hBg⟩ := sdcBound_facts Q g K
  set B := sdcBound Q g K
  have hW : 0 ≤ ∑ j, |w j| := Finset.sum_nonneg fun _ _ => abs_nonneg _
  refine ⟨2 * B + ∑ j, |w j|, by positivity, ?_⟩
  intro E _ _ f L hL0 hL t h hh hs u Y u1 hst U d hd0 hd hU
  set C := 2 * B + ∑ j, |w j| with hC
  have hC0 : 0 ≤ C := by positivity
  have hhL : 0 ≤ h * L := by positivity
  have h2B : 2 * (h * L * B) ≤ C * (h * L) := by rw [hC]; nlinarith [mul_nonneg hhL hW]
  have hsw : ∀ k ≤ K, ∀ i, ‖U k i - Y i‖ ≤ (C * (h * L)) ^ k * d := by
    intro k
    induction k with
    | zero => intro _ i; rw [pow_zero, one_mul]; exact hd i
    | succ k ih =>
      intro hk i
      obtain ⟨b1, b2⟩ := hBg k (by omega)
      have hp : 0 ≤ (C * (h * L)) ^ k * d := by positivity
      refine (sdc_sweep_le b1 b2 (τ := fun j => t + h * c j) hL0 hL hh (h2B.trans hs) hst.stages (hU k (by omega)) hp (ih (by omega)) i).trans ?_
      calc 2 * (h * L * B) * ((C * (h * L)) ^ k * d) ≤ C * (h * L) * ((C * (h * L)) ^ k * d) := mul_le_mul_of_nonneg_right h2B hp
        _ = _ := by ring
  refine ⟨hsw, ?_⟩
  rw [hst.result]
  have e : (u + h • ∑ j, w j • f (t + h * c j) (U K j)) - (u + h • ∑ i, w i • f (t + h * c i) (Y i)) =
      h • (∑ j, w j • f (t + h * c j) (U K j) - ∑ i, w i • f (t + h * c i) (Y i)) := by rw [smul_sub]; abel
  rw [e, norm_smul, Real.norm_eq_abs, abs_of_nonneg hh]
  have hp : 0 ≤ (C * (h * L)) ^ K * d := by positivity
  have := sdc_weighted_le (le_refl (∑ j, |w j|)) (τ := fun j => t + h * c j) hL0 hL (hsw K le_rfl) hp
  calc h * _ ≤ h * ((∑ j, |w j|) * (L * ((C * (h * L)) ^ K * d))) := mul_le_mul_of_nonneg_left this hh
    _ = (∑ j, |w j|) * (h * L) * ((C * (h * L)) ^ K * d) := by ring
    _ ≤ C * (h * L) * ((C * (h * L)) ^ K * d) := mul_le_mul_of_nonneg_right (mul_le_mul_of_nonneg_right (by rw [hC]; linarith) hhL) hp
    _ = _ := by ring

/-- C122 (solvable): with a number `C` that depends only on the coefficients, steps with `C h L ≤ 1` can be done, in exactly one way. -/
theorem C122_solvable (c : Fin M → ℝ) (Q : Matrix (Fin M) (Fin M) ℝ) (g : ℕ → Matrix (Fin M) (Fin M) ℝ) (K : ℕ)
    (w : Option (Fin M → ℝ)) (hw : w = none → 0 < M) :
    ∃ C : ℝ, 0 ≤ C ∧ ∀ {E : Type*} [NormedAddCommGroup E] [NormedSpace ℝ E] [CompleteSpace E] (f : ℝ → E → E) (L : ℝ), 0 ≤ L →
      (∀ t x y, ‖f t x - f t y‖ ≤ L * ‖x - y‖) → ∀ (t h : ℝ), 0 ≤ h → C * (h * L) ≤ 1 → ∀ u : E,
      (∃ U u1, SDCTimeStep c Q g K w f t h u U u1) ∧
      ∀ U u1 U' u1', SDCTimeStep c Q g K w f t h u U u1 → SDCTimeStep c Q g K w f t h u U' u1' →
        (∀ k ≤ K, U k = U' k) ∧ u1 = u1' := by
  obtain ⟨hB, hBQ, hBg⟩ := sdcBound_facts Q g K
  set B := sdcBound Q g K
  refine ⟨2 * B, by positivity, ?_⟩
  intro E _ _ _ f L hL0 hL t h hh hs u
  have hs' : 2 * (h * L * B) ≤ 1 := by linarith
  have hassoc : ∀ {x y z : E}, x + y + z = x + z + y := by intros; abel
  constructor
  · have hex : ∀ (k : ℕ) (V : Fin M → E), ∃ V' : Fin M → E, k < K → ∀ i, V' i = u + h • ∑ j, g k i j • f (t + h * c j) (V' j) +
        h • ∑ j, (Q i j - g k i j) • f (t + h * c j) (V j) := by
      intro k V
      by_cases hk : k < K
      · obtain ⟨V', hV'⟩ := sdc_stages_exist (hBg k hk).1 (fun j => t + h * c j) hL0 hL hh hs'
          (fun i => u + h • ∑ j, (Q i j - g k i j) • f (t + h * c j) (V j))
        exact ⟨V', fun _ i => (hV' i).trans hassoc⟩
      · exact ⟨V, fun h => absurd h hk⟩
    choose F hF using hex
    let U : ℕ → Fin M → E := fun n => Nat.rec (fun _ => u) F n
    cases w with
    | none =>
      exact ⟨U, U K ⟨M - 1, by have := hw rfl; omega⟩, fun _ => rfl, fun k hk => hF k (U k) hk, by simp, fun _ => ⟨hw rfl, rfl⟩⟩
    | some w =>
      exact ⟨U, _, fun _ => rfl, fun k hk => hF k (U k) hk, fun v hv => by cases hv; rfl, by simp⟩
  · intro U u1 U' u1' hU hU'
    have hk : ∀ k ≤ K, U k = U' k := by
      intro k
      induction k with
      | zero => intro _; funext i; rw [hU.init, hU'.init]
      | succ k ih =>
        intro hk
        funext i
        have e := ih (by omega)
        have h1 : ∀ i, U (k + 1) i = (u + h • ∑ j, (Q i j - g k i j) • f (t + h * c j) (U k j)) +
            h • ∑ j, g k i j • f (t + h * c j) (U (k + 1) j) := fun i => (hU.sweep k (by omega) i).trans hassoc
        have h2 : ∀ i, U' (k + 1) i = (u + h • ∑ j, (Q i j - g k i j) • f (t + h * c j) (U k j)) +
            h • ∑ j, g k i j • f (t + h * c j) (U' (k + 1) j) := fun i => by rw [e]; exact (hU'.sweep k (by omega) i).trans hassoc
        have := sdc_stages_le (hBg k (by omega)).1 (τ := fun j => t + h * c j) hL0 hL hh hs'
          (v := fun i => u + h • ∑ j, (Q i j - g k i j) • f (t + h * c j) (U k j))
          (v' := fun i => u + h • ∑ j, (Q i j - g k i j) • f (t + h * c j) (U k j)) h1 h2 le_rfl (by simp) i
        rw [mul_zero] at this
        exact sub_eq_zero.1 (norm_le_zero_iff.1 this)
    refine ⟨hk, ?_⟩
    cases w with
    | none =>
      obtain ⟨_, e1⟩ := hU.lastNode rfl
      obtain ⟨_, e2⟩ := hU'.lastNode rfl
      rw [e1, e2, hk K le_rfl]
    | some w => rw [hU.quadrature w rfl, hU'.quadrature w rfl, hk K le_rfl]

end General

/-- The hypotheses of `C122_sweeps` are met: Picard sweeps `1 + h + ... + h^k` of the backward Euler step of `u' = u` from 1. -/
example (K : ℕ) : ∃ C : ℝ, ∀ h : ℝ, 0 ≤ h → h < 1 → C * (h * 1) ≤ 1 →
    ∀ k ≤ K, ‖(∑ j ∈ Finset.range (k + 1), h ^ j) - 1 / (1 - h)‖ ≤ (C * (h * 1)) ^ k * (h / (1 - h)) := by
  obtain ⟨C, -, hC⟩ := C122_sweeps (M := 1) (fun _ => 1) (fun _ _ => 1) (fun _ => 1) (fun _ => 0) K
  refine ⟨C, fun h hh h1 hs k hk => ?_⟩
  have hne : (1 - h) ≠ 0 := by linarith
  have := (hC (fun _ u : ℝ => u) 1 zero_le_one (fun t x y => by simp) 0 h hh hs 1 (fun _ => 1 / (1 - h)) (1 / (1 - h))
    ⟨fun i => by simp only [Finset.univ_unique, Finset.sum_singleton, smul_eq_mul]; field_simp; ring,
      by simp only [Finset.univ_unique, Finset.sum_singleton, smul_eq_mul]; field_simp; ring⟩
    (fun k _ => ∑ j ∈ Finset.range (k + 1), h ^ j) (h / (1 - h)) (div_nonneg hh (by linarith))
    (fun i => by
      have e : (∑ j ∈ Finset.range (0 + 1), h ^ j) - 1 / (1 - h) = -(h / (1 - h)) := by simp; field_simp; ring
      rw [e, norm_neg, Real.norm_eq_abs, abs_of_nonneg (div_nonneg hh (by linarith))])
    (fun k _ i => by
      simp only [Finset.univ_unique, Finset.sum_singleton, Matrix.zero_apply, smul_eq_mul, zero_mul, mul_zero, sub_zero, one_mul, add_zero]
      rw [Finset.sum_range_succ' _ (k + 1), Finset.mul_sum, add_comm]
      simp [pow_succ', add_comm])).1 k hk 0
  exact this

/-- The hypotheses of `C122_solvable` are met: three sweeps with the parallel backward Euler matrix on two nodes, on
`u' = cos t - sin u`. -/
example : ∃ C : ℝ, ∀ t h u : ℝ, 0 ≤ h → C * (h * 1) ≤ 1 → ∃ U u1, SDCTimeStep ![1 / 3, 1] !![5 / 12, -1 / 12; 3 / 4, 1 / 4]
    (fun _ => diagonal ![1 / 3, 1]) 3 none (fun t u => Real.cos t - Real.sin u) t h u U u1 := by
  obtain ⟨C, -, hC⟩ := C122_solvable ![1 / 3, 1] !![5 / 12, -1 / 12; 3 / 4, 1 / 4] (fun _ => diagonal ![1 / 3, 1]) 3 none (fun _ => by norm_num)
  exact ⟨C, fun t h u hh hs => (hC (fun t u : ℝ => Real.cos t - Real.sin u) 1 zero_le_one (fun t x y => by
    have e : Real.cos t - Real.sin x - (Real.cos t - Real.sin y) = Real.sin y - Real.sin x := by ring
    rw [e, one_mul, norm_sub_rev x y]
    exact Real.abs_sin_sub_sin_le _ _) t h hh hs u).1⟩

/-- Accumulation of local errors. -/
theorem sdc_accumulate {e : ℕ → ℝ} {x b : ℝ} (hx : 0 ≤ x) (hb : 0 ≤ b) (N : ℕ) (h0 : e 0 = 0)
    (hstep : ∀ n < N, e (n + 1) ≤ (1 + x) * e n + b) : ∀ n ≤ N, e n ≤ n * b * Real.exp (n * x) := by
  intro n
  induction n with
  | zero => intro _; rw [h0]; simp
  | succ n ih =>
    intro hn
    have h1 := ih (by omega)
    have h2 : (1 + x) ≤ Real.exp x := by linarith [Real.add_one_le_exp x]
    have h3 : Real.exp ((n + 1 : ℕ) * x) = Real.exp x * Real.exp (n * x) := by
      rw [← Real.exp_add]; congr 1; push_cast; ring
    have h4 : 1 ≤ Real.exp ((n + 1 : ℕ) * x) := Real.one_le_exp (by positivity)
    have h5 : (1 + x) * e n ≤ Real.exp x * (n * b * Real.exp (n * x)) :=
      (mul_le_mul_of_nonneg_left h1 (by linarith)).trans (mul_le_mul_of_nonneg_right h2 (by positivity))
    calc e (n + 1) ≤ (1 + x) * e n + b := hstep n (by omega)
      _ ≤ Real.exp x * (n * b * Real.exp (n * x)) + b * Real.exp ((n + 1 : ℕ) * x) :=
        add_le_add h5 (le_mul_of_one_le_right hb h4)
      _ = _ := by rw [h3]; push_cast; ring

/-- The slopes along a solution are bounded. -/
theorem slopes_bounded {E : Type*} [NormedAddCommGroup E] [NormedSpace ℝ E] {f : ℝ → E → E} {y : ℝ → E} {t0 t1 : ℝ} {p : ℕ}
    (hy : Solves f y t0 t1) (hf : SmoothAlong p f y t0 t1) : ∃ F, 0 ≤ F ∧ ∀ t ∈ Set.Icc t0 t1, ‖f t (y t)‖ ≤ F := by
  have hcont : ContinuousOn (fun t => f t (y t)) (Set.Icc t0 t1) := fun t ht => by
    have h1 : ContinuousWithinAt (fun s => (s, y s)) (Set.Icc t0 t1) t :=
      continuousWithinAt_id.prodMk (hy t ht).continuousWithinAt
    exact ContinuousAt.comp_continuousWithinAt (f := fun s => (s, y s)) (g := fun q : ℝ × E => f q.1 q.2) (hf t ht).continuousAt h1
  obtain ⟨F, hF⟩ := isCompact_Icc.exists_bound_of_continuousOn hcont
  exact ⟨max F 0, le_max_right _ _, fun t ht => (hF t ht).trans (le_max_left _ _)⟩

/-- Steps that stay near the ones of a method of order `p` converge. -/
theorem near_converges {M : ℕ} {E : Type*} [NormedAddCommGroup E] [NormedSpace ℝ E] [CompleteSpace E] {c : Fin M → ℝ}
    (hc01 : ∀ i, 0 ≤ c i ∧ c i ≤ 1) {Q : Matrix (Fin M) (Fin M) ℝ} {w : Fin M → ℝ} {f : ℝ → E → E} {L : ℝ} (hL0 : 0 ≤ L)
    (hL : ∀ t x y, ‖f t x - f t y‖ ≤ L * ‖x - y‖) {y : ℝ → E} {t0 t1 : ℝ} {p q : ℕ} (hq : 1 ≤ q) (hy : Solves f y t0 t1)
    (hf : SmoothAlong p f y t0 t1) (hloc : LocalOrder c Q w p f y t0 t1) {S : ℝ → ℝ → E → E → Prop} {h3 C3 : ℝ} (hh3 : 0 < h3) (hC3 : 0 ≤ C3)
    (hS : ∀ t h u u1, 0 ≤ h → h < h3 → S t h u u1 → ∀ Y v1 d, RKStep c Q w f t h u Y v1 → 0 ≤ d → (∀ i, ‖u - Y i‖ ≤ d) →
      ‖u1 - v1‖ ≤ C3 * h ^ q * d) :
    ∃ h0 > 0, ∃ C, ∀ h, 0 ≤ h → h < h0 → ∀ N : ℕ, t0 + N * h ≤ t1 → ∀ u : ℕ → E, u 0 = y t0 →
      (∀ n < N, S (t0 + n * h) h (u n) (u (n + 1))) → ∀ n ≤ N, ‖u n - y (t0 + n * h)‖ ≤ C * h ^ min p q := by
  obtain ⟨F, hF0, hF⟩ := slopes_bounded hy hf
  obtain ⟨ρ, hρ, h1, hh1, C1, hl⟩ := hloc
  set B := absSum Q with hB
  have hB0 : 0 ≤ B := absSum_nonneg Q
  set W := ∑ j, |w j| with hW
  have hW0 : 0 ≤ W := Finset.sum_nonneg fun _ _ => abs_nonneg _
  have hLB : 0 ≤ L * B := by positivity
  set a := 2 * W * L + C3 with ha
  have ha0 : 0 ≤ a := by positivity
  set F2 := 2 * B * (F + L * F) with hF2
  have hF20 : 0 ≤ F2 := by positivity
  set b := C3 * F2 + |C1| with hb
  have hb0 : 0 ≤ b := by positivity
  refine ⟨min (min h1 h3) (min 1 (1 / (2 * (L * B) + 1))), by positivity, (t1 - t0) * b * Real.exp ((t1 - t0) * a), ?_⟩
  intro h hh hlt N hN u hu0 hstep n hn
  have l1 : h < h1 := hlt.trans_le ((min_le_left _ _).trans (min_le_left _ _))
  have l3 : h < h3 := hlt.trans_le ((min_le_left _ _).trans (min_le_right _ _))
  have l0 : h ≤ 1 := (hlt.trans_le ((min_le_right _ _).trans (min_le_left _ _))).le
  have lB : 2 * (h * L * B) ≤ 1 := by
    have : h < 1 / (2 * (L * B) + 1) := hlt.trans_le ((min_le_right _ _).trans (min_le_right _ _))
    rw [lt_div_iff₀ (by positivity)] at this
    nlinarith
  have hm : ∀ {j : ℕ}, min p q ≤ j → h ^ j ≤ h ^ min p q := fun hj => pow_le_pow_of_le_one hh l0 hj
  -- one step
  have one : ∀ m < N, ‖u (m + 1) - y (t0 + (m + 1 : ℕ) * h)‖ ≤
      (1 + h * a) * ‖u m - y (t0 + m * h)‖ + b * h ^ (min p q + 1) := by
    intro m hmN
    set t := t0 + m * h with ht
    have ht1 : t0 + (m + 1 : ℕ) * h = t + h := by rw [ht]; push_cast; ring
    rw [ht1]
    have hmh : 0 ≤ (m : ℝ) * h := by positivity
    have hle : t + h ≤ t1 := by
      rw [← ht1]
      have : ((m + 1 : ℕ) : ℝ) * h ≤ N * h := mul_le_mul_of_nonneg_right (by exact_mod_cast hmN) hh
      linarith
    have hge : t0 ≤ t := by rw [ht]; linarith
    set e := ‖u m - y t‖ with he
    have he0 : 0 ≤ e := norm_nonneg _
    have htm : t ∈ Set.Icc t0 t1 := ⟨hge, by linarith⟩
    have hτ : ∀ j, t + h * c j ∈ Set.Icc t0 t1 ∧ 0 ≤ h * c j ∧ h * c j ≤ h := fun j => by
      have g1 := mul_nonneg hh (hc01 j).1
      have g2 := mul_le_of_le_one_right hh (hc01 j).2
      exact ⟨⟨by linarith, by linarith⟩, g1, g2⟩
    have hslope : ∀ j, ‖f (t + h * c j) (u m)‖ ≤ F + L * (F * h + e) := fun j => by
      obtain ⟨g1, g2, g3⟩ := hτ j
      have hyy : ‖y (t + h * c j) - y t‖ ≤ F * h := by
        have := (convex_Icc t0 t1).norm_image_sub_le_of_norm_hasDerivWithin_le (f := y) hy hF htm g1
        refine this.trans (mul_le_mul_of_nonneg_left ?_ hF0)
        rw [add_sub_cancel_left, Real.norm_eq_abs, abs_of_nonneg g2]
        exact g3
      have e1 : f (t + h * c j) (u m) = f (t + h * c j) (y (t + h * c j)) +
          (f (t + h * c j) (u m) - f (t + h * c j) (y (t + h * c j))) := by abel
      rw [e1]
      refine (norm_add_le _ _).trans (add_le_add (hF _ g1) ((hL _ _ _).trans (mul_le_mul_of_nonneg_left ?_ hL0)))
      have e2 : u m - y (t + h * c j) = (u m - y t) - (y (t + h * c j) - y t) := by abel
      rw [e2]
      exact (norm_sub_le _ _).trans (by linarith)
    obtain ⟨Y, hY⟩ := sdc_stages_exist (le_refl B) (fun j => t + h * c j) hL0 hL hh lB (fun _ => u m)
    have hst : RKStep c Q w f t h (u m) Y (u m + h • ∑ i, w i • f (t + h * c i) (Y i)) := ⟨hY, rfl⟩
    have hnear : ∀ i, ‖u m - Y i‖ ≤ F2 * h + e := by
      intro i
      have h' := sdc_stages_le (le_refl B) (τ := fun j => t + h * c j) hL0 hL hh lB (v := fun _ => u m)
        (v' := fun i => u m - h • ∑ j, Q i j • f (t + h * c j) (u m)) (Y := Y) (Y' := fun _ => u m) hY (fun i => by abel)
        (d := h * (B * (F + L * (F * h + e)))) (by positivity) (fun i => by
          rw [sub_sub_cancel, norm_smul, Real.norm_eq_abs, abs_of_nonneg hh]
          exact mul_le_mul_of_nonneg_left (norm_sum_smul_le (row_le_absSum Q i) (by positivity) hslope) hh) i
      rw [norm_sub_rev]
      refine h'.trans ?_
      have g1 : 2 * (h * (B * (F + L * (F * h + e)))) = 2 * B * (F + L * F * h) * h + 2 * (h * L * B) * e := by ring
      rw [g1]
      refine add_le_add ?_ (mul_le_of_le_one_left he0 lB)
      rw [hF2]
      refine mul_le_mul_of_nonneg_right (mul_le_mul_of_nonneg_left ?_ (by positivity)) hh
      have : L * F * h ≤ L * F := mul_le_of_le_one_right (by positivity) l0
      linarith
    have hdist := hS t h (u m) (u (m + 1)) hh l3 (hstep m hmN) Y _ (F2 * h + e) hst (by positivity) hnear
    obtain ⟨⟨⟨Ys, us⟩, hns, -⟩, hacc⟩ := hl t h hge hh l1 hle
    change NearStep c Q w f t h (y t) ρ Ys us at hns
    have hus := hacc Ys us hns
    have hYY : ∀ i, ‖Y i - Ys i‖ ≤ 2 * e := sdc_stages_le (le_refl B) (τ := fun j => t + h * c j) hL0 hL hh lB (v := fun _ => u m)
      (v' := fun _ => y t) hY hns.1.stages he0 (fun _ => le_rfl)
    have hvv : ‖(u m + h • ∑ i, w i • f (t + h * c i) (Y i)) - us‖ ≤ e + h * (W * (L * (2 * e))) := by
      rw [hns.1.result]
      have e1 : (u m + h • ∑ i, w i • f (t + h * c i) (Y i)) - (y t + h • ∑ i, w i • f (t + h * c i) (Ys i)) =
          (u m - y t) + h • (∑ i, w i • f (t + h * c i) (Y i) - ∑ i, w i • f (t + h * c i) (Ys i)) := by rw [smul_sub]; abel
      rw [e1]
      refine (norm_add_le _ _).trans (add_le_add le_rfl ?_)
      rw [norm_smul, Real.norm_eq_abs, abs_of_nonneg hh]
      exact mul_le_mul_of_nonneg_left (sdc_weighted_le (le_refl W) (τ := fun i => t + h * c i) hL0 hL hYY (by positivity)) hh
    have e1 : u (m + 1) - y (t + h) = (u (m + 1) - (u m + h • ∑ i, w i • f (t + h * c i) (Y i))) +
        ((u m + h • ∑ i, w i • f (t + h * c i) (Y i)) - us) + (us - y (t + h)) := by abel
    rw [e1]
    refine (norm_add_le _ _).trans ((add_le_add_left (norm_add_le _ _) _).trans ?_)
    have b1 : C3 * h ^ q * (F2 * h + e) ≤ C3 * F2 * h ^ (min p q + 1) + C3 * h * e := by
      have r1 : h ^ q ≤ h ^ min p q := hm (min_le_right _ _)
      have r2 : h ^ q ≤ h := by simpa using pow_le_pow_of_le_one hh l0 hq
      calc C3 * h ^ q * (F2 * h + e) = C3 * F2 * h * h ^ q + C3 * e * h ^ q := by ring
        _ ≤ C3 * F2 * h * h ^ min p q + C3 * e * h := add_le_add (mul_le_mul_of_nonneg_left r1 (by positivity))
          (mul_le_mul_of_nonneg_left r2 (by positivity))
        _ = _ := by ring
    have b2 : C1 * h ^ (p + 1) ≤ |C1| * h ^ (min p q + 1) :=
      (mul_le_mul_of_nonneg_right (le_abs_self C1) (by positivity)).trans
        (mul_le_mul_of_nonneg_left (pow_le_pow_of_le_one hh l0 (by have := min_le_left p q; omega)) (abs_nonneg _))
    have b3 : (1 + h * a) * e + b * h ^ (min p q + 1) =
        (C3 * F2 * h ^ (min p q + 1) + C3 * h * e) + (e + h * (W * (L * (2 * e)))) + |C1| * h ^ (min p q + 1) := by
      rw [ha, hb]; ring
    rw [b3]
    linarith
  have hacc := sdc_accumulate (e := fun m => ‖u m - y (t0 + m * h)‖) (x := h * a) (b := b * h ^ (min p q + 1)) (by positivity) (by positivity) N
    (by simp [hu0]) one n hn
  refine hacc.trans ?_
  have hnh : (n : ℝ) * h ≤ t1 - t0 := by
    have : (n : ℝ) * h ≤ N * h := mul_le_mul_of_nonneg_right (by exact_mod_cast hn) hh
    linarith
  have hnh0 : 0 ≤ (n : ℝ) * h := by positivity
  calc (n : ℝ) * (b * h ^ (min p q + 1)) * Real.exp (n * (h * a)) = (n * h) * b * Real.exp ((n * h) * a) * h ^ min p q := by
        rw [mul_assoc (n : ℝ) h a, pow_succ]; ring
    _ ≤ (t1 - t0) * b * Real.exp ((t1 - t0) * a) * h ^ min p q := by
        refine mul_le_mul_of_nonneg_right (mul_le_mul (mul_le_mul_of_nonneg_right hnh hb0) ?_ (Real.exp_nonneg _)
          (mul_nonneg (hnh0.trans hnh) hb0)) (by positivity)
        exact Real.exp_le_exp.2 (mul_le_mul_of_nonneg_right hnh ha0)

/-- C122 (order): spectral deferred correction with `K` sweeps from the copied initial value, with any matrices, on every equation
`u' = f(t, u)` with a Lipschitz constant that is smooth along the solution: order `min(order, K + 1)` with the quadrature, `min(order, K)` with
the last node. -/
theorem C122_order {M : ℕ} {nt qt : String} (hM : M ≤ 158) (c : Collocation M) (hc : Collocation.new M nt qt 0 1 = .ok c) (K : ℕ)
    (g : ℕ → Matrix (Fin M) (Fin M) ℝ) :
    ∃ order, c.order = some order ∧ M ≤ order ∧
      ∀ {E : Type*} [NormedAddCommGroup E] [NormedSpace ℝ E] [CompleteSpace E] (f : ℝ → E → E) (L : ℝ), 0 ≤ L →
        (∀ t x y, ‖f t x - f t y‖ ≤ L * ‖x - y‖) → ∀ (y : ℝ → E) (t0 t1 : ℝ), Solves f y t0 t1 → SmoothAlong order f y t0 t1 →
        (∃ h0 > 0, ∃ C, ∀ h, 0 ≤ h → h < h0 → ∀ N : ℕ, t0 + N * h ≤ t1 → ∀ u : ℕ → E, u 0 = y t0 →
          (∀ n < N, ∃ U, SDCTimeStep c.nodes c.Q g K (some c.weights) f (t0 + n * h) h (u n) U (u (n + 1))) →
          ∀ n ≤ N, ‖u n - y (t0 + n * h)‖ ≤ C * h ^ min order (K + 1)) ∧
        (0 < K → qt = "RADAU-RIGHT" ∨ qt = "LOBATTO" →
          ∃ h0 > 0, ∃ C, ∀ h, 0 ≤ h → h < h0 → ∀ N : ℕ, t0 + N * h ≤ t1 → ∀ u : ℕ → E, u 0 = y t0 →
          (∀ n < N, ∃ U, SDCTimeStep c.nodes c.Q g K none f (t0 + n * h) h (u n) U (u (n + 1))) →
          ∀ n ≤ N, ‖u n - y (t0 + n * h)‖ ≤ C * h ^ min order K) := by
  obtain ⟨order, ho, hle, hloc⟩ := C82_collocation hM c hc
  obtain ⟨hmono, hin, -, hright⟩ := C24_collocation_nodes zero_lt_one c hc
  obtain ⟨C, hC, hsw⟩ := C122_sweeps c.nodes c.Q c.weights g K
  refine ⟨order, ho, hle, fun {E} _ _ _ f L hL0 hL y t0 t1 hy hf => ?_⟩
  have hCL : 0 ≤ C * L := by positivity
  have hsmall : ∀ h, 0 ≤ h → h < 1 / (C * L + 1) → C * (h * L) ≤ 1 := fun h hh hlt => by
    rw [lt_div_iff₀ (by positivity)] at hlt
    nlinarith
  refine ⟨near_converges hin hL0 hL (by omega) hy hf (hloc f y t0 t1 hy hf)
    (S := fun t h u u1 => ∃ U, SDCTimeStep c.nodes c.Q g K (some c.weights) f t h u U u1) (h3 := 1 / (C * L + 1))
    (C3 := (C * L) ^ (K + 1)) (by positivity) (by positivity) ?_, fun hK hr => ?_⟩
  · rintro t h u u1 hh hlt ⟨U, hU⟩ Y v1 d hst hd0 hd
    have := (hsw f L hL0 hL t h hh (hsmall h hh hlt) u Y v1 hst U d hd0 (fun i => by rw [hU.init]; exact hd i) hU.sweep).2
    rw [hU.quadrature _ rfl]
    refine this.trans (le_of_eq ?_)
    rw [← mul_pow]; congr 2; ring
  · refine near_converges hin hL0 hL hK hy hf (hloc f y t0 t1 hy hf)
      (S := fun t h u u1 => ∃ U, SDCTimeStep c.nodes c.Q g K none f t h u U u1) (h3 := 1 / (C * L + 1))
      (C3 := (C * L) ^ K) (by positivity) (by positivity) ?_
    rintro t h u u1 hh hlt ⟨U, hU⟩ Y v1 d hst hd0 hd
    have := (hsw f L hL0 hL t h hh (hsmall h hh hlt) u Y v1 hst U d hd0 (fun i => by rw [hU.init]; exact hd i) hU.sweep).1 K le_rfl
    obtain ⟨hM0, e1⟩ := hU.lastNode rfl
    obtain ⟨i, hi⟩ := hright hr (Or.inr (by norm_num))
    have hlast : c.nodes ⟨M - 1, by omega⟩ = 1 :=
      le_antisymm (hin _).2 (hi ▸ hmono.monotone (show i ≤ (⟨M - 1, by omega⟩ : Fin M) from Fin.le_def.2 (by have := i.2; simp only; omega)))
    have hw := C26_weights_last_row zero_lt_one c hc _ hlast
    have hv1 : v1 = Y ⟨M - 1, by omega⟩ := by rw [hst.result, hst.stages, hw]
    rw [e1, hv1]
    refine (this _).trans (le_of_eq ?_)
    rw [← mul_pow]; congr 2; ring

/-- The hypotheses are met: two sweeps of the parallel backward Euler matrix on three RADAU-RIGHT nodes, on `u' = cos t - sin u + sin (sin t)` with the
solution `sin t`, up to any time: order 3 with the quadrature and 2 with the last node. -/
example (ext : ExternalNum) (T : ℝ) : ∃ (c : Collocation 3) (A : Matrix (Fin 3) (Fin 3) ℝ),
    Collocation.new 3 "LEGENDRE" "RADAU-RIGHT" 0 1 = .ok c ∧ getQD ext "BEPAR" (kwTime c.nodes 0) none = .ok ⟨3, A⟩ ∧
    (∃ h0 > 0, ∃ C, ∀ h, 0 ≤ h → h < h0 → ∀ N : ℕ, 0 + N * h ≤ T → ∀ u : ℕ → ℝ, u 0 = Real.sin 0 →
      (∀ n < N, ∃ U, SDCTimeStep c.nodes c.Q (fun _ => A) 2 (some c.weights)
        (fun t u => Real.cos t - Real.sin u + Real.sin (Real.sin t)) (0 + n * h) h (u n) U (u (n + 1))) →
      ∀ n ≤ N, ‖u n - Real.sin (0 + n * h)‖ ≤ C * h ^ 3) ∧
    ∃ h0 > 0, ∃ C, ∀ h, 0 ≤ h → h < h0 → ∀ N : ℕ, 0 + N * h ≤ T → ∀ u : ℕ → ℝ, u 0 = Real.sin 0 →
      (∀ n < N, ∃ U, SDCTimeStep c.nodes c.Q (fun _ => A) 2 none
        (fun t u => Real.cos t - Real.sin u + Real.sin (Real.sin t)) (0 + n * h) h (u n) U (u (n + 1))) →
      ∀ n ≤ N, ‖u n - Real.sin (0 + n * h)‖ ≤ C * h ^ 2 := by
  obtain ⟨c, hc⟩ := collocation_new_ok (M := 3) (nt := "LEGENDRE") (qt := "RADAU-RIGHT") (by decide)
    (by decide) ⟨by decide, by decide⟩ 0 1
  obtain ⟨A, hA⟩ : ∃ A : Matrix (Fin 3) (Fin 3) ℝ, getQD ext "BEPAR" (kwTime c.nodes 0) none = .ok ⟨3, A⟩ :=
    ⟨_, bepar_matrix ext c.nodes (by norm_num) none "BEPAR" (Or.inl rfl)⟩
  have ho5 : c.order = some 5 := by
    unfold Collocation.order
    obtain ⟨x, hM0, h⟩ := collocation_spec hc
    rw [h.nodeType, h.quadType]
    decide
  obtain ⟨order, ho, -, h⟩ := C122_order (by norm_num) c hc 2 (fun _ => A)
  obtain rfl : order = 5 := by rw [ho5] at ho; simpa using ho.symm
  obtain ⟨h1, h2⟩ := h (fun t u : ℝ => Real.cos t - Real.sin u + Real.sin (Real.sin t)) 1 zero_le_one (fun t x y => by
      have e : Real.cos t - Real.sin x + Real.sin (Real.sin t) - (Real.cos t - Real.sin y + Real.sin (Real.sin t)) =
        Real.sin y - Real.sin x := by ring
      rw [e, one_mul, norm_sub_rev x y]
      exact Real.abs_sin_sub_sin_le _ _) Real.sin 0 T
    (fun t _ => by
      have := (Real.hasDerivAt_sin t).hasDerivWithinAt (s := Set.Icc 0 T)
      convert this using 1
      ring)
    (fun t _ => by
      refine ContDiff.contDiffAt ?_
      fun_prop)
  exact ⟨c, A, hc, hA, h1, h2 (by norm_num) (Or.inl rfl)⟩

end QMat
