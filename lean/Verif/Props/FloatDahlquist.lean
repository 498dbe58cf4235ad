import Verif.Model.FloatDahlquist
import Verif.Props.FloatSDC
import Verif.Props.FloatNodes
import Verif.Props.Dahlquist
import Verif.Props.AStable
import Verif.Props.Butcher
import Verif.Lemmas.Nilpotent

/-!
# `solveDahlquist` in rounded arithmetic
-/

namespace QMat

open Finset Spec Matrix

variable {R : Rounding} {S : SolveOps} {M : ℕ}

namespace Rounding

/-- The stages of one step. -/
theorem stages_err (hM0 : 0 < M) {lam ui : ℂ} {tEnd : ℝ} {n : ℕ} {Q Q' : Matrix (Fin M) (Fin M) ℝ} {A : Matrix (Fin M) (Fin M) ℂ}
    (hA : R.SDCMatrix lam tEnd n Q' A) (hk : 2 * R.u < 1) (hM : ((2 * M : ℕ) : ℝ) * R.u < 1) {V q δ e κ : ℝ} (hV0 : 0 ≤ V)
    (hq : ∀ i, ∑ j, |Q i j| ≤ q) (hδ : ∀ i, ∑ j, |Q' i j - Q i j| ≤ δ)
    (hV : ∀ x, ‖x‖ ≤ V * ‖(1 - (lam * (tEnd / n : ℝ)) • cmat Q) *ᵥ x‖) (he : e = sweepErr R.u S.σ M)
    (hκ : κ = stageErr e V ‖lam * (tEnd / n : ℝ)‖ q δ) (hκ1 : κ < 1)
    {X : Fin M → ℂ} (hX : (1 - (lam * (tEnd / n : ℝ)) • cmat Q) *ᵥ X = fun _ => 1) :
    ∃ U, S.solve A (fun _ => ui) = .ok U ∧ ‖U‖ ≤ V / (1 - κ) * ‖ui‖ ∧ ‖U - ui • X‖ ≤ κ * (V / (1 - κ)) * ‖ui‖ := by
  obtain ⟨g1, g2, -⟩ := sweepErr_ge (R := R) hk hM S.σ_nonneg
  have hη := entryErr_nonneg (R := R) hk
  have he0 : 0 ≤ e := he ▸ R.u_nonneg.trans g2
  rw [← he] at g1
  set z := lam * (tEnd / n : ℝ) with hz
  have hq0 : 0 ≤ q := (Finset.sum_nonneg fun _ _ => abs_nonneg _).trans (hq ⟨0, hM0⟩)
  have hδ0 : 0 ≤ δ := (Finset.sum_nonneg fun _ _ => abs_nonneg _).trans (hδ ⟨0, hM0⟩)
  have hy := norm_nonneg z
  have hrow : ∀ i, ∑ j, |Q' i j| ≤ q + δ := fun i => by
    calc ∑ j, |Q' i j| ≤ ∑ j, (|Q i j| + |Q' i j - Q i j|) := Finset.sum_le_sum fun j _ => by
          have := abs_add_le (Q i j) (Q' i j - Q i j)
          rwa [add_sub_cancel] at this
      _ ≤ q + δ := by rw [Finset.sum_add_distrib]; exact add_le_add (hq i) (hδ i)
  have hdiff : ∀ x : Fin M → ℂ, ‖(z • cmat (Q' - Q)) *ᵥ x‖ ≤ ‖z‖ * δ * ‖x‖ := fun x =>
    mulVec_norm_le (fun i => mul_le_mul_of_nonneg_left (hδ i) hy) (mul_nonneg hy hδ0) x
  have hsplit : ∀ x : Fin M → ℂ, (1 - z • cmat Q') *ᵥ x = (1 - z • cmat Q) *ᵥ x - (z • cmat (Q' - Q)) *ᵥ x := fun x => by
    rw [← Matrix.sub_mulVec]
    congr 1
    ext i j
    simp [cmat, Matrix.one_apply]
    ring
  set p := 1 + ‖z‖ * (q + δ) with hp
  have hp1 : 1 ≤ p := by
    have : 0 ≤ ‖z‖ * (q + δ) := by positivity
    linarith
  have hκe : κ = V * (e * p) + V * (‖z‖ * δ) := by rw [hκ, stageErr]; ring
  have hVep : 0 ≤ V * (e * p) := by positivity
  have hden : 0 < 1 - V * (‖z‖ * δ) := by linarith
  have hV' : ∀ x, ‖x‖ ≤ V / (1 - V * (‖z‖ * δ)) * ‖(1 - z • cmat Q') *ᵥ x‖ := fun x => by
    rw [div_mul_eq_mul_div, le_div_iff₀ hden, hsplit]
    have h1 := norm_add_le ((1 - z • cmat Q) *ᵥ x - (z • cmat (Q' - Q)) *ᵥ x) ((z • cmat (Q' - Q)) *ᵥ x)
    rw [sub_add_cancel] at h1
    have h2 := mul_le_mul_of_nonneg_left (h1.trans (add_le_add le_rfl (hdiff x))) hV0
    have h3 := hV x
    linarith
  obtain ⟨U, hU, hres⟩ := solve_residual (S := S) hM0 (fun _ => ui) hA hk (div_nonneg hV0 hden.le)
    (fun i => add_le_add le_rfl (mul_le_mul_of_nonneg_left (hrow i) hy)) hV' (by
      have h1 := mul_le_mul_of_nonneg_left g1 (mul_nonneg (div_nonneg hV0 hden.le) (by linarith : (0:ℝ) ≤ p))
      refine h1.trans_lt ?_
      rw [show V / (1 - V * (‖z‖ * δ)) * p * e = V * (e * p) / (1 - V * (‖z‖ * δ)) by ring, div_lt_one hden]
      linarith)
  have h1κ : 0 < 1 - κ := by linarith
  have hres' : ‖(1 - z • cmat Q) *ᵥ U - fun _ => ui‖ ≤ (e * p + ‖z‖ * δ) * ‖U‖ := by
    have e1 : ((1 - z • cmat Q) *ᵥ U - fun _ => ui) = ((1 - z • cmat Q') *ᵥ U - fun _ => ui) + (z • cmat (Q' - Q)) *ᵥ U := by
      rw [hsplit]; abel
    rw [e1]
    have h1 := mul_le_mul_of_nonneg_right g1 (mul_nonneg (by linarith : (0:ℝ) ≤ p) (norm_nonneg U))
    refine (norm_add_le _ _).trans ?_
    have h2 := hdiff U
    linarith
  have hd : ‖U - ui • X‖ ≤ κ * ‖U‖ := by
    have e1 : (1 - z • cmat Q) *ᵥ (U - ui • X) = (1 - z • cmat Q) *ᵥ U - fun _ => ui := by
      rw [Matrix.mulVec_sub, Matrix.mulVec_smul, hX]
      ext i
      simp
    have h1 := hV (U - ui • X)
    rw [e1] at h1
    have h2 := mul_le_mul_of_nonneg_left hres' hV0
    rw [hκe]
    linarith
  have hXV : ‖ui • X‖ ≤ V * ‖ui‖ := by
    have h1 := hV X
    rw [hX] at h1
    have : ‖(fun _ => 1 : Fin M → ℂ)‖ ≤ 1 := by
      rw [pi_norm_le_iff_of_nonneg zero_le_one]; simp
    rw [norm_smul, mul_comm]
    exact mul_le_mul_of_nonneg_right (h1.trans (mul_le_of_le_one_right hV0 this)) (norm_nonneg _)
  have hUn : ‖U‖ ≤ V / (1 - κ) * ‖ui‖ := by
    rw [div_mul_eq_mul_div, le_div_iff₀ h1κ]
    have h1 := norm_add_le (U - ui • X) (ui • X)
    rw [sub_add_cancel] at h1
    linarith
  have hκ0 : 0 ≤ κ := by
    have : 0 ≤ V * (‖z‖ * δ) := by positivity
    linarith
  refine ⟨U, hU, hUn, hd.trans ?_⟩
  rw [mul_assoc]
  exact mul_le_mul_of_nonneg_left hUn hκ0

/-- The step update. -/
theorem dahlquist_update {lam ui : ℂ} {tEnd : ℝ} {n : ℕ} {w w' : Fin M → ℝ} {U X : Fin M → ℂ} {r : PyResult ℂ}
    (hk : 2 * R.u < 1) (hM : ((2 * M : ℕ) : ℝ) * R.u < 1) {V q δ e κ : ℝ} (hV : 0 ≤ V) (hκ : 0 ≤ κ) (hκ1 : κ < 1) (he : e = sweepErr R.u S.σ M)
    (hw : ∑ j, |w j| ≤ q) (hδ : ∑ j, |w' j - w j| ≤ δ) (hU : ‖U‖ ≤ V / (1 - κ) * ‖ui‖) (hd : ‖U - ui • X‖ ≤ κ * (V / (1 - κ)) * ‖ui‖)
    (h : R.SDCUpdate lam tEnd n ui U (some ⟨M, w'⟩) r) :
    ∃ u, r = .ok u ∧ ‖u - (1 + lam * (tEnd / n : ℝ) * ∑ i, (w i : ℂ) * X i) * ui‖ ≤
      (e + ‖lam * (tEnd / n : ℝ)‖ * V / (1 - κ) * (q * κ + e * (q + δ) + δ)) * ‖ui‖ := by
  cases h with
  | badSize h => exact absurd rfl h
  | @quadrature _ c s b hc hs hb =>
    refine ⟨_, rfl, ?_⟩
    have h1 := quadrature_err (ui := ui) hc hs hb hk hM S.σ_nonneg
    obtain ⟨-, g2, -⟩ := sweepErr_ge (R := R) hk hM S.σ_nonneg
    have he0 : 0 ≤ e := he ▸ R.u_nonneg.trans g2
    rw [← he] at h1
    set z := lam * (tEnd / n : ℝ) with hz
    clear_value z
    have hq0 : 0 ≤ q := (Finset.sum_nonneg fun _ _ => abs_nonneg _).trans hw
    have hδ0 : 0 ≤ δ := (Finset.sum_nonneg fun _ _ => abs_nonneg _).trans hδ
    have h1κ : 0 < 1 - κ := by linarith
    have hu0 := norm_nonneg ui
    set g := V / (1 - κ) * ‖ui‖ with hg
    have hg0 : 0 ≤ g := by positivity
    have hw' : ∑ j, |w' j| ≤ q + δ := by
      calc ∑ j, |w' j| ≤ ∑ j, (|w j| + |w' j - w j|) := Finset.sum_le_sum fun j _ => by
            have := abs_add_le (w j) (w' j - w j)
            rwa [add_sub_cancel] at this
        _ ≤ q + δ := by rw [Finset.sum_add_distrib]; exact add_le_add hw hδ
    have hsum : ∀ (v : Fin M → ℝ) (x : Fin M → ℂ), ‖∑ i, (v i : ℂ) * x i‖ ≤ (∑ i, |v i|) * ‖x‖ := fun v x => by
      rw [Finset.sum_mul]
      refine (norm_sum_le _ _).trans (Finset.sum_le_sum fun i _ => ?_)
      rw [norm_mul, Complex.norm_real, Real.norm_eq_abs]
      exact mul_le_mul_of_nonneg_left (norm_le_pi_norm x i) (abs_nonneg _)
    have e1 : R.cfl (ui + b) - (1 + z * ∑ i, (w i : ℂ) * X i) * ui =
        (R.cfl (ui + b) - (ui + z * ∑ i, (w' i : ℂ) * U i)) + z * ∑ i, ((w' i - w i : ℝ) : ℂ) * U i +
          z * ∑ i, (w i : ℂ) * (U - ui • X) i := by
      have e2 : ∑ i, ((w' i - w i : ℝ) : ℂ) * U i = ∑ i, (w' i : ℂ) * U i - ∑ i, (w i : ℂ) * U i := by
        rw [← Finset.sum_sub_distrib]
        exact Finset.sum_congr rfl fun i _ => by push_cast; ring
      have e3 : ∑ i, (w i : ℂ) * (U - ui • X) i = ∑ i, (w i : ℂ) * U i - ui * ∑ i, (w i : ℂ) * X i := by
        rw [Finset.mul_sum, ← Finset.sum_sub_distrib]
        exact Finset.sum_congr rfl fun i _ => by simp; ring
      rw [e2, e3]
      ring
    rw [e1]
    refine norm_add₃_le.trans ?_
    rw [norm_mul z, norm_mul z]
    have h2 : ‖∑ i, ((w' i - w i : ℝ) : ℂ) * U i‖ ≤ δ * g :=
      (hsum _ U).trans (mul_le_mul hδ hU (norm_nonneg _) hδ0)
    have h3 : ‖∑ i, (w i : ℂ) * (U - ui • X) i‖ ≤ q * (κ * g) :=
      (hsum w _).trans (mul_le_mul hw (hd.trans (le_of_eq (by rw [hg]; ring))) (norm_nonneg _) hq0)
    have h4 : (∑ i, |w' i|) * ‖U‖ ≤ (q + δ) * g := mul_le_mul hw' hU (norm_nonneg _) (by linarith)
    have k1 := mul_le_mul_of_nonneg_left (mul_le_mul_of_nonneg_left h4 (norm_nonneg z)) he0
    have k2 := mul_le_mul_of_nonneg_left h2 (norm_nonneg z)
    have k3 := mul_le_mul_of_nonneg_left h3 (norm_nonneg z)
    have e2 : (e + ‖z‖ * V / (1 - κ) * (q * κ + e * (q + δ) + δ)) * ‖ui‖ =
        e * ‖ui‖ + e * (‖z‖ * ((q + δ) * g)) + ‖z‖ * (δ * g) + ‖z‖ * (q * (κ * g)) := by rw [hg]; ring
    rw [e2]
    linarith

/-- All steps. -/
theorem dahlquist_steps {lam u0 s : ℂ} {tEnd : ℝ} {n : ℕ} {A : Matrix (Fin M) (Fin M) ℂ} {w : Σ k, Fin k → ℝ} {τ : ℝ} (hτ : 0 ≤ τ)
    (H : ∀ ui, ∃ U, S.solve A (fun _ => ui) = .ok U ∧ ∀ r', R.SDCUpdate lam tEnd n ui U (some w) r' →
      ∃ u, r' = .ok u ∧ ‖u - s * ui‖ ≤ τ * ‖ui‖) {i : ℕ} {r : PyResult (List ℂ)}
    (h : R.DahlquistSteps S lam u0 tEnd n A w i r) :
    ∃ l, r = .ok l ∧ l.length = i + 1 ∧ l[0]? = some u0 ∧ ∀ j (hj : j < l.length),
      ‖l[j] - s ^ j * u0‖ ≤ ((‖s‖ + τ) ^ j - ‖s‖ ^ j) * ‖u0‖ ∧ ‖l[j]‖ ≤ (‖s‖ + τ) ^ j * ‖u0‖ := by
  induction h with
  | start =>
    refine ⟨_, rfl, rfl, rfl, fun j hj => ?_⟩
    have : j = 0 := by simpa using hj
    subst this
    simp
  | raised h ih =>
    obtain ⟨l, hl, -⟩ := ih
    cases hl
  | @raisedSolve _ _ ui _ h hs ih =>
    obtain ⟨U, hU, -⟩ := H ui
    rw [hs] at hU
    cases hU
  | @step i l ui U r h hs hu ih =>
    obtain ⟨l', hl', hlen, h0, hb⟩ := ih
    cases hl'
    obtain ⟨U', hU', H'⟩ := H ui
    rw [hs] at hU'
    cases hU'
    obtain ⟨u, rfl, he⟩ := H' _ hu
    have hll : l.length = i := by simpa using hlen
    have e : l ++ [ui, u] = (l ++ [ui]) ++ [u] := by simp
    refine ⟨l ++ [ui, u], rfl, by simp [hll], ?_, fun j hj => ?_⟩
    · rw [e, List.getElem?_append_left (by simp)]
      exact h0
    · by_cases hj' : j < i + 1
      · have hj2 : j < (l ++ [ui]).length := by simp [hll, hj']
        have := hb j hj2
        simp only [e]
        rwa [List.getElem_append_left hj2]
      · have hji : j = i + 1 := by simp [hll] at hj; omega
        subst hji
        have h1 := hb i (by simp [hll])
        have e1 : (l ++ [ui])[i]'(by simp [hll]) = ui := by simp [← hll]
        rw [e1] at h1
        have e2 : (l ++ [ui, u])[i + 1]'hj = u := by simp [← hll]
        rw [e2, pow_succ', mul_assoc]
        exact steps_growth rfl hτ he h1.1 h1.2

end Rounding

open Rounding

theorem stageErr_nonneg {e V y q δ : ℝ} (he : 0 ≤ e) (hV : 0 ≤ V) (hy : 0 ≤ y) (hq : 0 ≤ q) (hδ : 0 ≤ δ) : 0 ≤ stageErr e V y q δ := by
  unfold stageErr; positivity

theorem dahlquistErr_nonneg {e V y q δ : ℝ} (he : 0 ≤ e) (hV : 0 ≤ V) (hy : 0 ≤ y) (hq : 0 ≤ q) (hδ : 0 ≤ δ)
    (h1 : stageErr e V y q δ < 1) : 0 ≤ dahlquistErr e V y q δ := by
  have h0 := stageErr_nonneg he hV hy hq hδ
  have : 0 < 1 - stageErr e V y q δ := by linarith
  unfold dahlquistErr; positivity

theorem dahlquist_run (hM0 : 0 < M) {Q Q' : Matrix (Fin M) (Fin M) ℝ} {w w' : Fin M → ℝ} {lam u0 : ℂ} {tEnd : ℝ} {n : ℕ}
    (hk : 2 * R.u < 1) (hM : ((2 * M : ℕ) : ℝ) * R.u < 1) {V q δ τ : ℝ} (hV0 : 0 ≤ V)
    (hV : ∀ x, ‖x‖ ≤ V * ‖(1 - (lam * (tEnd / n : ℝ)) • cmat Q) *ᵥ x‖)
    (hq : ∀ i, ∑ j, |Q i j| ≤ q) (hqw : ∑ j, |w j| ≤ q) (hδ : ∀ i, ∑ j, |Q' i j - Q i j| ≤ δ) (hδw : ∑ j, |w' j - w j| ≤ δ)
    (hκ : stageErr (sweepErr R.u S.σ M) V ‖lam * (tEnd / n : ℝ)‖ q δ < 1)
    (hτ : τ = dahlquistErr (sweepErr R.u S.σ M) V ‖lam * (tEnd / n : ℝ)‖ q δ) {r : PyResult (List ℂ)}
    (h : R.SolveDahlquist S lam u0 tEnd n Q' ⟨M, w'⟩ r) {s : ℂ} (hs : s = stabilityFunction Q w (lam * (tEnd / n : ℝ))) :
    ∃ l, r = .ok l ∧ l.length = n + 1 ∧ l[0]? = some u0 ∧ ∀ j (hj : j < l.length),
      ‖l[j] - s ^ j * u0‖ ≤ ((‖s‖ + τ) ^ j - ‖s‖ ^ j) * ‖u0‖ ∧ ‖l[j]‖ ≤ (‖s‖ + τ) ^ j * ‖u0‖ := by
  obtain ⟨A, hA, h⟩ := h
  have hdet := det_ne_zero_of_bounded hV
  obtain ⟨-, g2, -⟩ := sweepErr_ge (R := R) hk hM S.σ_nonneg
  have he0 := R.u_nonneg.trans g2
  have hq0 : 0 ≤ q := (Finset.sum_nonneg fun _ _ => abs_nonneg _).trans hqw
  have hδ0 : 0 ≤ δ := (Finset.sum_nonneg fun _ _ => abs_nonneg _).trans hδw
  have hτ0 : 0 ≤ τ := hτ ▸ dahlquistErr_nonneg he0 hV0 (norm_nonneg _) hq0 hδ0 hκ
  set X : Fin M → ℂ := (1 - (lam * (tEnd / n : ℝ)) • cmat Q)⁻¹ *ᵥ fun _ => 1 with hXd
  have hX : (1 - (lam * (tEnd / n : ℝ)) • cmat Q) *ᵥ X = fun _ => 1 := by
    rw [hXd, Matrix.mulVec_mulVec, Matrix.mul_nonsing_inv _ (isUnit_iff_ne_zero.2 hdet), Matrix.one_mulVec]
  refine dahlquist_steps hτ0 (fun ui => ?_) h
  obtain ⟨U, hU, h1, h2⟩ := stages_err (ui := ui) hM0 hA hk hM hV0 hq hδ hV rfl rfl hκ hX
  refine ⟨U, hU, fun r' hr' => ?_⟩
  obtain ⟨u, hu, h3⟩ := dahlquist_update hk hM hV0 (stageErr_nonneg he0 hV0 (norm_nonneg _) hq0 hδ0) hκ rfl hqw hδw h1 h2 hr'
  refine ⟨u, hu, ?_⟩
  rw [hs, hτ]
  exact h3

/-- C97: `solveDahlquist` in rounded arithmetic, with coefficients whose rows are wrong by at most `δ`, never raises and stays near the exact
run with the exact coefficients. -/
theorem C97_solve (hM0 : 0 < M) (g : QGenerator M) (emb : Bool) (w : Fin M → ℝ)
    (hw : (if emb then g.weightsEmbedded else .ok ⟨M, g.weights⟩) = .ok ⟨M, w⟩) (Q' : Matrix (Fin M) (Fin M) ℝ) (w' : Fin M → ℝ)
    (lam u0 : ℂ) (tEnd : ℝ) (n : ℕ) (hn : 0 < n) (hk : 2 * R.u < 1) (hM : ((2 * M : ℕ) : ℝ) * R.u < 1) (V q δ : ℝ) (hV0 : 0 ≤ V)
    (hV : ∀ x, ‖x‖ ≤ V * ‖(1 - (lam * (tEnd / n : ℝ)) • cmat g.Q) *ᵥ x‖) (hq : ∀ i, ∑ j, |g.Q i j| ≤ q) (hqw : ∑ j, |w j| ≤ q)
    (hδ : ∀ i, ∑ j, |Q' i j - g.Q i j| ≤ δ) (hδw : ∑ j, |w' j - w j| ≤ δ) (τ : ℝ)
    (hκ : stageErr (sweepErr R.u S.σ M) V ‖lam * (tEnd / n : ℝ)‖ q δ < 1)
    (hτ : τ = dahlquistErr (sweepErr R.u S.σ M) V ‖lam * (tEnd / n : ℝ)‖ q δ) (r : PyResult (List ℂ))
    (h : R.SolveDahlquist S lam u0 tEnd n Q' ⟨M, w'⟩ r) :
    ∃ l l' s, r = .ok l ∧ g.solveDahlquist lam u0 tEnd n emb = .ok l' ∧ s = ‖stabilityFunction g.Q w (lam * (tEnd / n : ℝ))‖ ∧
      l.length = n + 1 ∧ l'.length = n + 1 ∧ l[0]? = some u0 ∧ ∀ i (hi : i < l.length) (hi' : i < l'.length),
        ‖l[i] - l'[i]‖ ≤ ((s + τ) ^ i - s ^ i) * ‖u0‖ ∧ ‖l[i]‖ ≤ (s + τ) ^ i * ‖u0‖ := by
  obtain ⟨l, hl, hlen, h0, hb⟩ := dahlquist_run hM0 hk hM hV0 hV hq hqw hδ hδw hκ hτ h rfl
  have hdet := det_ne_zero_of_bounded hV
  have hex : g.solveDahlquist lam u0 tEnd n emb = .ok ((List.range (n + 1)).map fun k =>
      stabilityFunction g.Q w (lam * (tEnd / n : ℝ)) ^ k * u0) := by
    cases emb with
    | false =>
      have e : g.weights = w := by simpa using hw
      rw [C30_solveDahlquist g lam u0 tEnd n hn hdet, e]
    | true => exact C30_solveDahlquist_embedded g w (by simpa using hw) lam u0 tEnd n hn hdet
  refine ⟨l, _, _, hl, hex, rfl, hlen, by simp, h0, fun i hi hi' => ?_⟩
  simpa using hb i hi

/-- C97: every run has a result. -/
theorem C97_exists (lam u0 : ℂ) (tEnd : ℝ) (n : ℕ) (Q : Matrix (Fin M) (Fin M) ℝ) (w : Σ k, Fin k → ℝ) :
    ∃ r, R.SolveDahlquist S lam u0 tEnd n Q w r := by
  have hdot : ∀ {ι : Type} [Fintype ι] [DecidableEq ι] (x y : ι → ℂ), ∃ a, R.NpCDot x y a := by
    intro ι _ _ x y
    obtain ⟨a, ha⟩ := NpDot.exists (R := R) (Sum.elim (fun i => (x i).re) fun i => (x i).im) (Sum.elim (fun i => (y i).re) fun i => -(y i).im)
    obtain ⟨b, hb⟩ := NpDot.exists (R := R) (Sum.elim (fun i => (x i).re) fun i => (x i).im) (Sum.elim (fun i => (y i).im) fun i => (y i).re)
    exact ⟨⟨a, b⟩, ha, hb⟩
  have hmul : ∀ x y, ∃ a, R.NpCMul x y a := fun x y => hdot _ _
  obtain ⟨c, hc⟩ : ∃ c, R.LamDt lam tEnd n c := hmul _ _
  choose q hq using fun i j => hmul c (Q i j : ℝ)
  set A : Matrix (Fin M) (Fin M) ℂ := fun i j => R.cfl ((if i = j then 1 else 0) - q i j) with hAd
  have hA : R.SDCMatrix lam tEnd n Q A := ⟨c, hc, fun i j => ⟨_, hq i j, rfl⟩⟩
  have hst : ∀ i, ∃ r, R.DahlquistSteps S lam u0 tEnd n A w i r ∧ ∀ l, r = .ok l → l ≠ [] := by
    intro i
    induction i with
    | zero => exact ⟨_, .start, by rintro l ⟨⟩; simp⟩
    | succ i ih =>
      obtain ⟨r, hr, hne⟩ := ih
      cases r with
      | error e => exact ⟨_, .raised hr, by rintro l ⟨⟩⟩
      | ok l =>
        have hl := hne l rfl
        rw [← List.dropLast_append_getLast hl] at hr
        cases hs : S.solve A (fun _ => l.getLast hl) with
        | error e => exact ⟨_, .raisedSolve hr hs, by rintro l ⟨⟩⟩
        | ok U =>
          have hup : ∃ r, R.SDCUpdate lam tEnd n (l.getLast hl) U (some w) r := by
            obtain ⟨m, w⟩ := w
            by_cases h : m = M
            · subst h
              obtain ⟨t, ht⟩ := hdot (fun i => (w i : ℂ)) U
              obtain ⟨p, hp⟩ := hmul c t
              exact ⟨_, .quadrature hc ht hp⟩
            · exact ⟨_, .badSize h⟩
          obtain ⟨r, hr2⟩ := hup
          refine ⟨_, .step hr hs hr2, ?_⟩
          cases r with
          | error e => rintro l ⟨⟩
          | ok u => rintro l ⟨⟩; simp
  obtain ⟨r, hr, -⟩ := hst n
  exact ⟨r, A, hA, hr⟩

/-- C97: the assumption on the inverse for small `λ dt`. -/
theorem C97_small (z : ℂ) (Q : Matrix (Fin M) (Fin M) ℝ) (q : ℝ) (hq0 : 0 ≤ q) (hq : ∀ i, ∑ j, |Q i j| ≤ q) (hz : ‖z‖ * q < 1)
    (x : Fin M → ℂ) : ‖x‖ ≤ 1 / (1 - ‖z‖ * q) * ‖(1 - z • cmat Q) *ᵥ x‖ := by
  rw [one_div, inv_mul_eq_div, le_div_iff₀ (by linarith), Matrix.sub_mulVec, Matrix.one_mulVec]
  have h2 := mulVec_norm_le (fun i => mul_le_mul_of_nonneg_left (hq i) (norm_nonneg z)) (mul_nonneg (norm_nonneg z) hq0) x
  have h3 := norm_sub_norm_le x ((z • cmat Q) *ᵥ x)
  linarith

/-- C97: the assumption on the inverse for explicit methods, and any `λ dt`. -/
theorem C97_explicit (z : ℂ) (Q : Matrix (Fin M) (Fin M) ℝ) (q : ℝ) (hq0 : 0 ≤ q) (hq : ∀ i, ∑ j, |Q i j| ≤ q)
    (hL : ∀ i j, i ≤ j → Q i j = 0) (x : Fin M → ℂ) :
    ‖x‖ ≤ (∑ k ∈ range M, (‖z‖ * q) ^ k) * ‖(1 - z • cmat Q) *ᵥ x‖ := by
  have hnil : Q ^ M = 0 := by
    have h := pow_eq_zero_of_strictUpper (N := Qᵀ) fun i j hij => hL j i hij
    have h2 := congrArg Matrix.transpose h
    rwa [Matrix.transpose_pow, Matrix.transpose_transpose, Matrix.transpose_zero] at h2
  have hnilc : (z • cmat Q) ^ M = 0 := by
    have e : cmat Q ^ M = (Q ^ M).map Complex.ofReal := ((Complex.ofRealHom.mapMatrix (m := Fin M)).map_pow Q M).symm
    rw [smul_pow, e, hnil]
    ext i j
    simp
  set b := (1 - z • cmat Q) *ᵥ x with hb
  have hx : x = b + (z • cmat Q) *ᵥ x := by
    rw [hb, Matrix.sub_mulVec, Matrix.one_mulVec, sub_add_cancel]
  have hpow : ∀ k (y : Fin M → ℂ), ‖((z • cmat Q) ^ k) *ᵥ y‖ ≤ (‖z‖ * q) ^ k * ‖y‖ := by
    intro k
    induction k with
    | zero => intro y; simp
    | succ k ih =>
      intro y
      rw [pow_succ', ← Matrix.mulVec_mulVec, pow_succ', mul_assoc]
      exact (mulVec_norm_le (fun i => mul_le_mul_of_nonneg_left (hq i) (norm_nonneg z)) (mul_nonneg (norm_nonneg z) hq0) _).trans
        (mul_le_mul_of_nonneg_left (ih y) (mul_nonneg (norm_nonneg z) hq0))
  have hit : ∀ m, x = ∑ k ∈ range m, ((z • cmat Q) ^ k) *ᵥ b + ((z • cmat Q) ^ m) *ᵥ x := by
    intro m
    induction m with
    | zero => simp
    | succ m ih =>
      conv_lhs => rw [ih]
      rw [Finset.sum_range_succ, add_assoc, pow_succ, ← Matrix.mulVec_mulVec, ← Matrix.mulVec_add, ← hx]
  rw [hit M, hnilc, Matrix.zero_mulVec, add_zero, Finset.sum_mul]
  exact (norm_sum_le _ _).trans (Finset.sum_le_sum fun k _ => hpow k b)

/-- C97: coefficients that are correct up to a relative error `ε`, as the rounded entries of a table. -/
theorem C97_table (Q Q' : Matrix (Fin M) (Fin M) ℝ) (w w' : Fin M → ℝ) (q ε : ℝ) (hε : 0 ≤ ε) (hq : ∀ i, ∑ j, |Q i j| ≤ q) (hqw : ∑ j, |w j| ≤ q)
    (hQ : ∀ i j, |Q' i j - Q i j| ≤ ε * |Q i j|) (hw : ∀ j, |w' j - w j| ≤ ε * |w j|) :
    (∀ i, ∑ j, |Q' i j - Q i j| ≤ ε * q) ∧ ∑ j, |w' j - w j| ≤ ε * q := by
  have key : ∀ v v' : Fin M → ℝ, (∀ j, |v' j - v j| ≤ ε * |v j|) → ∑ j, |v j| ≤ q → ∑ j, |v' j - v j| ≤ ε * q := fun v v' h1 h2 => by
    refine (Finset.sum_le_sum fun j _ => h1 j).trans ?_
    rw [← Finset.mul_sum]
    exact mul_le_mul_of_nonneg_left h2 hε
  exact ⟨fun i => key _ _ (hQ i) (hq i), key _ _ hw hqw⟩

/-- C97: the size of the error of a step for `‖λ dt‖ q ≤ 1/2`. -/
theorem C97_half (e y q δ : ℝ) (he : 0 ≤ e) (he' : e ≤ 1 / 100) (hy : 0 ≤ y) (hq : 0 ≤ q) (hδ : 0 ≤ δ) (hyq : y * q ≤ 1 / 2)
    (hyδ : y * δ ≤ 1 / 100) : stageErr e 2 y q δ < 1 ∧ dahlquistErr e 2 y q δ ≤ 6 * e + 5 * (y * δ) := by
  have h0 : 0 ≤ y * q := mul_nonneg hy hq
  have h0' : 0 ≤ y * δ := mul_nonneg hy hδ
  have k1 : e * (y * q) ≤ e * (1 / 2) := mul_le_mul_of_nonneg_left hyq he
  have k2 : e * (y * δ) ≤ e * (1 / 100) := mul_le_mul_of_nonneg_left hyδ he
  have hκ : stageErr e 2 y q δ ≤ 3.02 * e + 2 * (y * δ) := by
    unfold stageErr
    linarith
  have hκ0 := stageErr_nonneg he zero_le_two hy hq hδ
  set κ := stageErr e 2 y q δ with hκd
  have hκ1 : κ ≤ 0.0502 := by linarith
  refine ⟨by linarith, ?_⟩
  unfold dahlquistErr
  rw [← hκd]
  have e1 : y * 2 / (1 - κ) * (q * κ + e * (q + δ) + δ) = (2 * ((y * q) * κ + e * (y * q) + e * (y * δ) + y * δ)) / (1 - κ) := by ring
  rw [e1]
  have k3 : (y * q) * κ ≤ 1 / 2 * κ := mul_le_mul_of_nonneg_right hyq hκ0
  have hnum : 2 * ((y * q) * κ + e * (y * q) + e * (y * δ) + y * δ) ≤ 4.04 * e + 4 * (y * δ) := by linarith
  have : (2 * ((y * q) * κ + e * (y * q) + e * (y * δ) + y * δ)) / (1 - κ) ≤ 5 * e + 5 * (y * δ) := by
    rw [div_le_iff₀ (by linarith)]
    have k4 : κ * (5 * e + 5 * (y * δ)) ≤ 0.0502 * (5 * e + 5 * (y * δ)) := mul_le_mul_of_nonneg_right hκ1 (by linarith)
    linarith
  linarith

/-- Up to 158 nodes none is moved, for all node types from orthogonal polynomials. -/
theorem unmoved_ortho {nt qt : String} (hM : M ≤ 158) (hnt : nt ∈ ORTHO_TYPES) (c : Collocation M) (hc : Collocation.new M nt qt 0 1 = .ok c) :
    Unmoved nt qt c := by
  obtain ⟨x, hM0, h⟩ := collocation_spec hc
  have hx := h.getNodes
  refine ⟨x, hx, fun i => ?_⟩
  obtain ⟨hl, hr⟩ := nodes_gap_all hnt h.hqt x hx hM0
  have hMr : (M:ℝ) ≤ 158 := by exact_mod_cast hM
  have hM1 : (1:ℝ) ≤ M := by exact_mod_cast hM0
  have hg : (1:ℝ) / 49928 ≤ 1 / (2 * (M:ℝ) ^ 2) := by
    apply one_div_le_one_div_of_le (by positivity)
    nlinarith
  have hmem := h.base.2.1
  have := nodes_unsnapped c hc x hx hM0 (hl.imp id fun hgl hcl => ?_) (hr.imp id fun hgr hcl => ?_) i
  · rw [this]; ring
  · unfold npIsClose at hcl
    have h1 := hmem ⟨0, hM0⟩
    rw [abs_sub_comm, abs_of_nonneg (by linarith [h1.1]), abs_of_nonneg (by linarith [h1.1])] at hcl
    norm_num at hcl
    linarith [h1.1, h1.2]
  · unfold npIsClose at hcl
    have h1 := hmem ⟨M - 1, by omega⟩
    rw [abs_of_nonneg (by linarith [h1.2]), abs_of_nonneg (by linarith [h1.1])] at hcl
    norm_num at hcl
    linarith [h1.1, h1.2]

/-- C93 on `[0, 1]`, without an assumption on the nodes. -/
theorem C93_collocation_unit {nt qt : String} (hM : M ≤ 158) (c : Collocation M) (hc : Collocation.new M nt qt 0 1 = .ok c) {B : ℝ}
    (hB : LebesgueType nt qt M B) : (∀ i, ∑ j, |c.Q i j| ≤ B * c.nodes i) ∧ ∑ j, |c.weights j| ≤ B := by
  obtain ⟨x, hx, hun⟩ := unmoved_ortho hM hB.ortho c hc
  obtain ⟨S, -, h1, h2, -⟩ := C93_collocation zero_lt_one c hc x hx (fun i => by rw [hun]; ring) hB
  exact ⟨fun i => by simpa using h1 i, by simpa using h2⟩

/-- C97: a collocation method computed in double precision and then used by `solveDahlquist` in double precision, compared with the exact
method and the exact run. -/
theorem C97_double {F : FejerOps} (E : NodeOps) (S : SolveOps) (hv : F.v ≤ 1 / 10 ^ 15) {m : ℕ} (hM : 0 < M) (hM' : M ≤ 100)
    (hm : m = M - (M + 1) % 2) (hη : 4 * F.κ / m + 4 * (1 + F.κ) * F.ρ / √m ≤ 1 / 10 ^ 15) {nt qt : String} {B : ℝ} (hB : LebesgueType nt qt M B)
    (hqt : qt ∈ QUAD_TYPES) (hn : ValidSize qt M) (hθ : E.θ ≤ 1 / 10 ^ 14) (hσ : E.σ ≤ 1 / 10 ^ 14) (hS : S.σ ≤ 1 / 1000)
    (lam u0 : ℂ) (tEnd : ℝ) (n : ℕ) (hn0 : 0 < n) (hz : ‖lam * (tEnd / n : ℝ)‖ * B ≤ 1 / 2) (e δ τ : ℝ)
    (he : e = nodesErr double.u E.θ E.σ nt qt M) (hδ : δ = (M:ℝ) ^ 3 * B ^ 2 * (12 * e + 1 / 10 ^ 13))
    (hyδ : ‖lam * (tEnd / n : ℝ)‖ * δ ≤ 1 / 100) (hτ : τ = 12 * S.σ + 24 * (M + 3) * double.u + 5 * (‖lam * (tEnd / n : ℝ)‖ * δ)) :
    ∃ c raw, Collocation.new M nt qt 0 1 = .ok c ∧ double.getEigenvalues E ⟨nt, qt⟩ M = .ok raw ∧
    (∃ nodes Q' w', double.CollocationArrays F qt hM raw 0 1 nodes Q' w') ∧
    ∀ nodes Q' w', double.CollocationArrays F qt hM raw 0 1 nodes Q' w' → ∀ r, double.SolveDahlquist S lam u0 tEnd n Q' ⟨M, w'⟩ r →
      ∃ l l' s, r = .ok l ∧ c.toQGenerator.solveDahlquist lam u0 tEnd n = .ok l' ∧
        s = ‖stabilityFunction c.Q c.weights (lam * (tEnd / n : ℝ))‖ ∧ l.length = n + 1 ∧ l'.length = n + 1 ∧
        (∀ i (hi : i < l.length) (hi' : i < l'.length), ‖l[i] - l'[i]‖ ≤ ((s + τ) ^ i - s ^ i) * ‖u0‖) ∧
        (nt = "LEGENDRE" → qt ≠ "RADAU-LEFT" → lam.re * tEnd ≤ 0 →
          ∀ i (hi : i < l.length) (hi' : i < l'.length), ‖l[i] - l'[i]‖ ≤ ((1 + τ) ^ i - 1) * ‖u0‖) := by
  obtain ⟨c, Sc, raw, e', hc, -, hraw, he', -, -, ⟨nodes0, Q0, w0, S0, hA0, hS0⟩, hall⟩ := C95_double E hv hM hM' hm hη hB hqt hn hθ hσ
  rw [← he] at he'
  simp only [he'] at hall
  refine ⟨c, raw, hc, hraw, ⟨nodes0, Q0, w0, hA0⟩, fun nodes Q' w' hA r hr => ?_⟩
  have hnodes : nodes = nodes0 := hA.1.trans hA0.1.symm
  obtain ⟨-, hQ, hw, -, -, -⟩ := hall nodes Q' w' S0 hA (hnodes ▸ hS0)
  obtain ⟨hqQ, hqw⟩ := C93_collocation_unit (by omega) c hc hB
  obtain ⟨-, hr01, -, -⟩ := C24_collocation_nodes (by norm_num) c hc
  have hB0 : 0 ≤ B := (Finset.sum_nonneg fun _ _ => abs_nonneg _).trans hqw
  have hrow : ∀ v v' : Fin M → ℝ, (∀ j, |v' j - v j| ≤ (M:ℝ) ^ 2 * B ^ 2 * (12 * e + 1 / 10 ^ 13)) → ∑ j, |v' j - v j| ≤ δ := fun v v' h => by
    refine (Finset.sum_le_card_nsmul _ _ _ fun j _ => h j).trans (le_of_eq ?_)
    rw [hδ]
    simp
    ring
  have hqQ' : ∀ i, ∑ j, |c.Q i j| ≤ B := fun i => (hqQ i).trans (mul_le_of_le_one_right hB0 (hr01 i).2)
  have hδ0 : 0 ≤ δ := (Finset.sum_nonneg fun _ _ => abs_nonneg _).trans (hrow _ _ hw)
  obtain ⟨h1, h2, h3⟩ := C96_double (R := double) (M := M) (σ := S.σ) (by rw [double_u]; norm_num) (by omega) S.σ_nonneg
  have hMr : (M:ℝ) ≤ 100 := by exact_mod_cast hM'
  have he0 : 0 ≤ sweepErr double.u S.σ M := double.u_nonneg.trans (sweepErr_ge h1 h2 S.σ_nonneg).2.1
  have hMu : (M:ℝ) * double.u ≤ 100 * double.u := mul_le_mul_of_nonneg_right hMr double.u_nonneg
  have hu : double.u ≤ 1 / 10 ^ 15 := by rw [double_u]; norm_num
  have he1 : sweepErr double.u S.σ M ≤ 1 / 100 := by linarith
  obtain ⟨hκ, hτ'⟩ := C97_half _ _ B δ he0 he1 (norm_nonneg (lam * (tEnd / n : ℝ))) hB0 hδ0 hz hyδ
  have hV : ∀ x, ‖x‖ ≤ 2 * ‖(1 - (lam * (tEnd / n : ℝ)) • cmat c.Q) *ᵥ x‖ := fun x => by
    refine (C97_small _ c.Q B hB0 hqQ' (by linarith) x).trans (mul_le_mul_of_nonneg_right ?_ (norm_nonneg _))
    rw [div_le_iff₀ (by linarith)]
    linarith
  obtain ⟨l, l', s, hl, hl', hs, hlen, hlen', -, hb⟩ := C97_solve (R := double) (S := S) hM c.toQGenerator false c.weights rfl Q' w' lam u0 tEnd n
    hn0 h1 h2 2 B δ zero_le_two hV hqQ' hqw (fun i => hrow _ _ (hQ i)) (hrow _ _ hw) _ hκ rfl r hr
  set τ' := dahlquistErr (sweepErr double.u S.σ M) 2 ‖lam * (tEnd / n : ℝ)‖ B δ with hτd
  have hτ0 : 0 ≤ τ' := dahlquistErr_nonneg he0 zero_le_two (norm_nonneg _) hB0 hδ0 hκ
  have hττ : τ' ≤ τ := by linarith
  have hs0 : 0 ≤ s := hs ▸ norm_nonneg _
  have hfin : ∀ i (hi : i < l.length) (hi' : i < l'.length), ‖l[i] - l'[i]‖ ≤ ((s + τ) ^ i - s ^ i) * ‖u0‖ := fun i hi hi' =>
    (hb i hi hi').1.trans (mul_le_mul_of_nonneg_right (sub_le_sub_right (pow_le_pow_left₀ (by linarith) (by linarith) i) _) (norm_nonneg _))
  refine ⟨l, l', s, hl, hl', hs, hlen, hlen', hfin, ?_⟩
  rintro rfl hqt' hlam i hi hi'
  refine (hfin i hi hi').trans (mul_le_mul_of_nonneg_right ?_ (norm_nonneg _))
  have hs1 : s ≤ 1 := by
    rw [hs]
    refine legendre_astable hqt' c hc (unmoved_small (by omega) c hc) ?_
    have hn' : (0:ℝ) < n := by exact_mod_cast hn0
    rw [Complex.mul_re, Complex.ofReal_re, Complex.ofReal_im, mul_zero, sub_zero, ← mul_div_assoc]
    exact div_nonpos_of_nonpos_of_nonneg hlam hn'.le
  have hτ1 : 0 ≤ τ := by linarith
  clear_value τ'
  clear hfin hb hi hi'
  induction i with
  | zero => simp
  | succ i ih =>
    have h4 : (s + τ) ^ i ≤ (1 + τ) ^ i := pow_le_pow_left₀ (by linarith) (by linarith) i
    have h5 : s * ((s + τ) ^ i - s ^ i) ≤ 1 * ((1 + τ) ^ i - 1) :=
      mul_le_mul hs1 ih (sub_nonneg.2 (pow_le_pow_left₀ hs0 (by linarith) i)) zero_le_one
    have h6 := mul_le_mul_of_nonneg_left h4 hτ1
    rw [pow_succ', pow_succ', pow_succ']
    linarith

/-- A solver with relative residuals of `10^-15`. -/
noncomputable abbrev ops : SolveOps := exactSolveOps (1 / 10 ^ 15) (by norm_num)

/-- Instance: five Gauss nodes and ten steps of `20 u' = -u`, in double precision. -/
example : ∃ c raw, Collocation.new 5 "LEGENDRE" "GAUSS" 0 1 = .ok c ∧ double.getEigenvalues roundedNodeOps ⟨"LEGENDRE", "GAUSS"⟩ 5 = .ok raw ∧
    ∃ nodes Q w r, double.CollocationArrays double.fejerOps "GAUSS" (by norm_num) raw 0 1 nodes Q w ∧
      double.SolveDahlquist ops (-1 / 20) 1 1 (10 : ℕ) Q ⟨5, w⟩ r ∧
      ∃ l l', r = .ok l ∧ c.toQGenerator.solveDahlquist (-1 / 20) 1 1 (10 : ℕ) = .ok l' ∧ l.length = 11 ∧
        ∀ i (hi : i < l.length) (hi' : i < l'.length), ‖l[i] - l'[i]‖ ≤ 1 / 10 ^ 7 := by
  obtain ⟨he, he2⟩ := nodesErr_double roundedNodeOps (M := 5) (by norm_num) "LEGENDRE" "GAUSS" le_rfl (by show (0:ℝ) ≤ _; norm_num)
  have he3 := he2 (by decide)
  have hz : ‖(-1 / 20 : ℂ) * ((1 : ℝ) / (10 : ℕ) : ℝ)‖ = 1 / 200 := by
    rw [norm_mul, norm_div, norm_neg, norm_one, Complex.norm_real]
    norm_num
  have hes := nodesErr_nonneg (u := double.u) (θ := roundedNodeOps.θ) (σ := roundedNodeOps.σ) double.u_nonneg roundedNodeOps.θ_nonneg
    roundedNodeOps.σ_nonneg "LEGENDRE" "GAUSS" 5
  generalize heq : nodesErr double.u roundedNodeOps.θ roundedNodeOps.σ "LEGENDRE" "GAUSS" 5 = e at he3 hes
  obtain ⟨c, raw, hc, hraw, ⟨nodes, Q, w, hA⟩, hall⟩ := C97_double (F := double.fejerOps) roundedNodeOps ops
    (by show double.u ≤ _; rw [double_u]; norm_num) (M := 5) (by norm_num) (by norm_num) (m := 5) rfl
    (by show 4 * double.u / (5:ℕ) + 4 * (1 + double.u) * 0 / √(5:ℕ) ≤ _; rw [double_u]; norm_num) (nt := "LEGENDRE") (qt := "GAUSS") (Or.inl ⟨rfl, rfl⟩)
    (by decide) ⟨by norm_num, fun h => by simp at h⟩ le_rfl (by show (0:ℝ) ≤ _; norm_num) (by show (1 / 10 ^ 15 : ℝ) ≤ _; norm_num)
    (-1 / 20) 1 1 10 (by norm_num) (by rw [hz]; norm_num) e _ _ heq.symm rfl (by rw [hz]; norm_num at he3 ⊢; linarith) rfl
  obtain ⟨r, hr⟩ := C97_exists (R := double) (S := ops) (-1 / 20) 1 1 10 Q ⟨5, w⟩
  obtain ⟨l, l', s, hl, hl', -, hlen, -, -, hb⟩ := hall nodes Q w hA r hr
  refine ⟨c, raw, hc, hraw, nodes, Q, w, r, hA, hr, l, l', hl, hl', hlen, fun i hi hi' => ?_⟩
  refine (hb rfl (by decide) (by norm_num) i hi hi').trans ?_
  rw [hz, norm_one, mul_one, double_u]
  set τ := 12 * ops.σ + 24 * (((5:ℕ):ℝ) + 3) * (1 / 2) ^ 53 + 5 * (1 / 200 * (((5:ℕ):ℝ) ^ 3 * ((5:ℕ):ℝ) ^ 2 * (12 * e + 1 / 10 ^ 13))) with hτ
  have hτ0 : 0 ≤ τ := by
    have := ops.σ_nonneg
    positivity
  have hτ1 : τ ≤ 6 / 10 ^ 9 := by
    have h0 : ops.σ = 1 / 10 ^ 15 := rfl
    rw [hτ, h0]
    norm_num at he3 ⊢
    linarith
  have hi10 : i ≤ 10 := by omega
  have h1 : (1 + τ) ^ i ≤ (1 + τ) ^ 10 := pow_le_pow_right₀ (by linarith) hi10
  have h2 : (1 + τ) ^ 10 ≤ (1 + 6 / 10 ^ 9) ^ 10 := pow_le_pow_left₀ (by linarith) (by linarith) 10
  have h3 : ((1:ℝ) + 6 / 10 ^ 9) ^ 10 ≤ 1 + 1 / 10 ^ 7 := by norm_num
  linarith

/-- Instance: RK4 with coefficients wrong by a relative error of `2^-53`, steps of size 1/10, `u' = -u`. -/
example (R : Rounding) (hu : R.u ≤ 2⁻¹ ^ 53) (Q' : Matrix (Fin 4) (Fin 4) ℝ) (w' : Fin 4 → ℝ)
    (hQ : ∀ i j, |Q' i j - Tables.tRK4.toRK.A i j| ≤ 2⁻¹ ^ 53 * |Tables.tRK4.toRK.A i j|)
    (hw : ∀ j, |w' j - Tables.tRK4.toRK.b j| ≤ 2⁻¹ ^ 53 * |Tables.tRK4.toRK.b j|) (r : PyResult (List ℂ))
    (h : R.SolveDahlquist ops (-1) 1 1 (10 : ℕ) Q' ⟨4, w'⟩ r) :
    ∃ l l' s, r = .ok l ∧ Tables.tRK4.toRK.toQGenerator.solveDahlquist (-1) 1 1 (10 : ℕ) = .ok l' ∧
      ∀ i (hi : i < l.length) (hi' : i < l'.length), ‖l[i] - l'[i]‖ ≤ ((s + 1 / 10 ^ 13) ^ i - s ^ i) := by
  have hA : ∀ i j : Fin 4, Tables.tRK4.toRK.A i j = (!![0, 0, 0, 0; 1 / 2, 0, 0, 0; 0, 1 / 2, 0, 0; 0, 0, 1, 0] : Matrix (Fin 4) (Fin 4) ℝ) i j := by
    intro i j
    change Quad.toReal ((Tables.tRK4.A.getD i []).getD j 0) = _
    fin_cases i <;> fin_cases j <;> first
      | exact (Quad.toReal_q 0 1).trans (by simp)
      | exact (Quad.toReal_q 1 2).trans (by simp)
      | exact (Quad.toReal_q 1 1).trans (by simp)
  have hb : ∀ j : Fin 4, Tables.tRK4.toRK.b j = (![1 / 6, 1 / 3, 1 / 3, 1 / 6] : Fin 4 → ℝ) j := by
    intro j
    change Quad.toReal (Tables.tRK4.b.getD j 0) = _
    fin_cases j <;> first
      | exact (Quad.toReal_q 1 6).trans (by simp)
      | exact (Quad.toReal_q 1 3).trans (by simp)
  have hz : ‖(-1 : ℂ) * ((1 : ℝ) / (10 : ℕ) : ℝ)‖ = 1 / 10 := by
    rw [norm_mul, norm_neg, norm_one, Complex.norm_real]
    norm_num
  have hq : ∀ i : Fin 4, ∑ j : Fin 4, |Tables.tRK4.toRK.A i j| ≤ 1 := by
    intro i
    rw [Finset.sum_congr rfl fun j _ => by rw [hA i j]]
    fin_cases i <;> simp [Fin.sum_univ_four] <;> norm_num
  have hqw : ∑ j : Fin 4, |Tables.tRK4.toRK.b j| ≤ 1 := by
    rw [Finset.sum_congr rfl fun j _ => by rw [hb j]]
    simp [Fin.sum_univ_four, abs_of_pos] <;> norm_num
  obtain ⟨h1, h2, h3⟩ := C96_double (R := R) (M := 4) (σ := ops.σ) hu (by norm_num) ops.σ_nonneg
  have he0 : 0 ≤ sweepErr R.u ops.σ 4 := R.u_nonneg.trans (sweepErr_ge h1 h2 ops.σ_nonneg).2.1
  have hu1 : R.u ≤ 1.2e-16 := hu.trans (by norm_num)
  have hσ : ops.σ = 1 / 10 ^ 15 := rfl
  have he : sweepErr R.u ops.σ 4 ≤ 6e-15 := h3.trans (by rw [hσ]; push_cast; linarith)
  obtain ⟨hδ, hδw⟩ := C97_table Tables.tRK4.toRK.A Q' Tables.tRK4.toRK.b w' 1 (2⁻¹ ^ 53) (by positivity) hq hqw hQ hw
  obtain ⟨hκ, hτ⟩ := C97_half (sweepErr R.u ops.σ 4) (1 / 10) 1 (2⁻¹ ^ 53 * 1) he0 (by linarith) (by norm_num) (by norm_num) (by norm_num)
    (by norm_num) (by norm_num)
  have hL : ∀ i j : Fin 4, i ≤ j → (!![0, 0, 0, 0; 1 / 2, 0, 0, 0; 0, 1 / 2, 0, 0; 0, 0, 1, 0] : Matrix (Fin 4) (Fin 4) ℝ) i j = 0 := by
    intro i j
    fin_cases i <;> fin_cases j <;> simp
  have hV : ∀ x : Fin 4 → ℂ, ‖x‖ ≤ 2 * ‖(1 - ((-1 : ℂ) * ((1 : ℝ) / (10 : ℕ) : ℝ)) • cmat (Tables.tRK4.toRK.A : Matrix (Fin 4) (Fin 4) ℝ)) *ᵥ x‖ := fun x => by
    refine (C97_explicit _ (Tables.tRK4.toRK.A : Matrix (Fin 4) (Fin 4) ℝ) 1 zero_le_one hq (fun i j hij => ?_) x).trans
      (mul_le_mul_of_nonneg_right ?_ (norm_nonneg _))
    · exact (hA i j).trans (hL i j hij)
    · rw [hz]
      change ∑ k ∈ range 4, _ ≤ _
      norm_num [Finset.sum_range_succ]
  obtain ⟨l, l', s, hl, hl', hs, -, -, -, hbd⟩ := C97_solve (R := R) (S := ops) (M := 4) (by norm_num) Tables.tRK4.toRK.toQGenerator false
    Tables.tRK4.toRK.b rfl Q' w' (-1) 1 1 10 (by norm_num) h1 h2 2 1 (2⁻¹ ^ 53 * 1) zero_le_two hV hq hqw hδ hδw _ (by rw [hz]; exact hκ) rfl r h
  refine ⟨l, l', s, hl, hl', fun i hi hi' => (hbd i hi hi').1.trans ?_⟩
  rw [norm_one, mul_one, hz]
  have hs0 : 0 ≤ s := hs ▸ norm_nonneg _
  have hτ0 := dahlquistErr_nonneg he0 zero_le_two (by norm_num : (0:ℝ) ≤ 1 / 10) zero_le_one (by norm_num : (0:ℝ) ≤ 2⁻¹ ^ 53 * 1) hκ
  refine sub_le_sub_right (pow_le_pow_left₀ (by linarith) (add_le_add le_rfl (hτ.trans ?_)) i) _
  norm_num at he ⊢
  linarith

end QMat
