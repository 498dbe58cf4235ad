import Verif.Lemmas.OrderTransfer
import Verif.Spec.SDCStep

/-!
# Spectral deferred correction as a Runge-Kutta method with stages `(k, i)`
-/

namespace QMat.Spec

open RTree Matrix

variable {M : ℕ} {K : ℕ}

/-- Coefficients of the stages of `K` sweeps. -/
def sdcA (Q : Matrix (Fin M) (Fin M) ℝ) (QDelta : ℕ → Matrix (Fin M) (Fin M) ℝ) (K : ℕ)
    (a a' : Fin (K + 1) × Fin M) : ℝ :=
  (if (a'.1 : ℕ) = a.1 ∧ (a.1 : ℕ) ≠ 0 then QDelta (a.1 - 1) a.2 a'.2 else 0)
    + if (a'.1 : ℕ) + 1 = a.1 then Q a.2 a'.2 - QDelta (a.1 - 1) a.2 a'.2 else 0

/-- Weights of the result. -/
def sdcB (Q : Matrix (Fin M) (Fin M) ℝ) (QDelta : ℕ → Matrix (Fin M) (Fin M) ℝ) (K : ℕ) :
    Option (Fin M → ℝ) → Fin (K + 1) × Fin M → ℝ
  | some v => fun a => if (a.1 : ℕ) = K then v a.2 else 0
  | none => fun a => if hM : 0 < M then sdcA Q QDelta K (Fin.last K, ⟨M - 1, by omega⟩) a else 0

variable {E : Type*} [AddCommGroup E] [Module ℝ E]

theorem sum_sdcA_zero (Q : Matrix (Fin M) (Fin M) ℝ) (QDelta : ℕ → Matrix (Fin M) (Fin M) ℝ)
    (i : Fin M) (g : ℕ → Fin M → E) :
    ∑ a, sdcA Q QDelta K (0, i) a • g a.1 a.2 = 0 := by
  refine Finset.sum_eq_zero fun a _ => ?_
  simp [sdcA]

theorem sum_sdcA_succ (Q : Matrix (Fin M) (Fin M) ℝ) (QDelta : ℕ → Matrix (Fin M) (Fin M) ℝ)
    (k : ℕ) (hk : k + 1 < K + 1) (i : Fin M) (g : ℕ → Fin M → E) :
    ∑ a, sdcA Q QDelta K (⟨k + 1, hk⟩, i) a • g a.1 a.2
      = ∑ j, QDelta k i j • g (k + 1) j + ∑ j, (Q i j - QDelta k i j) • g k j := by
  rw [Fintype.sum_prod_type_right, ← Finset.sum_add_distrib]
  refine Finset.sum_congr rfl fun j _ => ?_
  simp only [sdcA, add_smul, Finset.sum_add_distrib]
  congr 1
  · rw [Finset.sum_eq_single (⟨k + 1, hk⟩ : Fin (K + 1))]
    · simp
    · intro l _ hl
      rw [if_neg, zero_smul]
      rintro ⟨h1, -⟩
      exact hl (Fin.ext h1)
    · simp
  · rw [Finset.sum_eq_single (⟨k, by omega⟩ : Fin (K + 1))]
    · simp
    · intro l _ hl
      rw [if_neg, zero_smul]
      intro h1
      refine hl (Fin.ext ?_)
      simpa using h1
    · simp

theorem sum_last (v : Fin M → ℝ) (g : ℕ → Fin M → E) :
    ∑ a : Fin (K + 1) × Fin M, (if (a.1 : ℕ) = K then v a.2 else 0) • g a.1 a.2
      = ∑ j, v j • g K j := by
  rw [Fintype.sum_prod_type_right]
  refine Finset.sum_congr rfl fun j _ => ?_
  rw [Finset.sum_eq_single (Fin.last K)]
  · simp
  · intro l _ hl
    rw [if_neg, zero_smul]
    intro h1
    exact hl (Fin.ext h1)
  · simp

theorem sdcStageWeight_node (Q : Matrix (Fin M) (Fin M) ℝ)
    (QDelta : ℕ → Matrix (Fin M) (Fin M) ℝ) : ∀ (n : ℕ) (v : Fin n → RTree) (a : Fin (K + 1) × Fin M),
    sdcStageWeight Q QDelta (node n v) a.1 a.2
      = ∏ j, ∑ a', sdcA Q QDelta K a a' * sdcStageWeight Q QDelta (v j) a'.1 a'.2
  | 0, v, a => by simp [node, sdcStageWeight]
  | n + 1, v, ⟨⟨k, hk⟩, i⟩ => by
    simp only [node, sdcStageWeight]
    have ih := sdcStageWeight_node Q QDelta n (Fin.init v) (⟨k, hk⟩, i)
    rw [Fin.prod_univ_castSucc]
    change _ = (∏ j, ∑ a', sdcA Q QDelta K (⟨k, hk⟩, i) a' *
      sdcStageWeight Q QDelta (Fin.init v j) a'.1 a'.2) * _
    rw [← ih]
    cases k with
    | zero =>
      have := sum_sdcA_zero (K := K) Q QDelta i (fun k j => sdcStageWeight Q QDelta (v (Fin.last n)) k j)
      simp only [smul_eq_mul] at this
      change 0 = _ * ∑ a', sdcA Q QDelta K (0, i) a' * _
      rw [this, mul_zero]
    | succ k =>
      have := sum_sdcA_succ (K := K) Q QDelta k hk i
        (fun k j => sdcStageWeight Q QDelta (v (Fin.last n)) k j)
      simp only [smul_eq_mul] at this
      change _ = _ * ∑ a', sdcA Q QDelta K (⟨k + 1, hk⟩, i) a' * _
      rw [this]
      rfl

theorem sdcB_weight (Q : Matrix (Fin M) (Fin M) ℝ) (QDelta : ℕ → Matrix (Fin M) (Fin M) ℝ)
    (w : Option (Fin M → ℝ)) (t : RTree) :
    ∑ a, sdcB Q QDelta K w a * sdcStageWeight Q QDelta t a.1 a.2
      = sdcElementaryWeight Q QDelta K t w := by
  cases w with
  | some v =>
    have := sum_last (K := K) v (fun k j => sdcStageWeight Q QDelta t k j)
    simp only [smul_eq_mul] at this
    rw [sdcB, this]
    rfl
  | none =>
    simp only [sdcB, sdcElementaryWeight]
    split_ifs with hM
    · cases K with
      | zero =>
        have := sum_sdcA_zero (K := 0) Q QDelta ⟨M - 1, by omega⟩
          (fun k j => sdcStageWeight Q QDelta t k j)
        simp only [smul_eq_mul] at this
        exact this
      | succ K =>
        have := sum_sdcA_succ (K := K + 1) Q QDelta K (by omega) ⟨M - 1, by omega⟩
          (fun k j => sdcStageWeight Q QDelta t k j)
        simp only [smul_eq_mul] at this
        exact this
    · simp

section Steps

variable {E : Type*} [NormedAddCommGroup E] [NormedSpace ℝ E]

theorem sdc_to_stages {Q : Matrix (Fin M) (Fin M) ℝ} {QDelta : ℕ → Matrix (Fin M) (Fin M) ℝ}
    {w : Option (Fin M → ℝ)} {f : E → E} {h : ℝ} {u : E} {ρ : ℝ} {U : ℕ → Fin M → E} {u1 : E}
    (H : SDCStep Q QDelta K w f h u ρ U u1) :
    Stages (sdcA Q QDelta K) f u h (fun a => U a.1 a.2) ∧
      (∀ a : Fin (K + 1) × Fin M, ‖U a.1 a.2 - u‖ < ρ) ∧
      u1 = u + h • ∑ a : Fin (K + 1) × Fin M, sdcB Q QDelta K w a • f (U a.1 a.2) := by
  have hst : Stages (sdcA Q QDelta K) f u h (fun a => U a.1 a.2) := by
    rintro ⟨⟨k, hk⟩, i⟩
    cases k with
    | zero =>
      have := sum_sdcA_zero (K := K) Q QDelta i (fun k j => f (U k j))
      change U 0 i = u + h • ∑ a : Fin (K + 1) × Fin M, sdcA Q QDelta K (0, i) a • f (U a.1 a.2)
      rw [this, smul_zero, add_zero, H.init]
    | succ k =>
      have := sum_sdcA_succ (K := K) Q QDelta k hk i (fun k j => f (U k j))
      change U (k + 1) i = u + h • ∑ a : Fin (K + 1) × Fin M,
        sdcA Q QDelta K (⟨k + 1, hk⟩, i) a • f (U a.1 a.2)
      rw [this, smul_add, ← add_assoc]
      exact H.sweep k (by omega) i
  refine ⟨hst, fun a => H.near _ (by have := a.1.2; omega) _, ?_⟩
  cases w with
  | some v =>
    have := sum_last (K := K) v (fun k j => f (U k j))
    rw [sdcB, this]
    exact H.quadrature v rfl
  | none =>
    obtain ⟨hM, hu⟩ := H.lastNode rfl
    simp only [sdcB, dif_pos hM]
    rw [hu]
    exact hst (Fin.last K, ⟨M - 1, by omega⟩)

theorem sdc_of_stages {Q : Matrix (Fin M) (Fin M) ℝ} {QDelta : ℕ → Matrix (Fin M) (Fin M) ℝ}
    {w : Option (Fin M → ℝ)} (hw : w = none → 0 < M) {f : E → E} {h : ℝ} {u : E} {ρ : ℝ} {Z : Fin (K + 1) × Fin M → E}
    (hZ : Stages (sdcA Q QDelta K) f u h Z) (hn : ∀ a, ‖Z a - u‖ < ρ) :
    ∃ U : ℕ → Fin M → E, (∀ a : Fin (K + 1) × Fin M, Z a = U a.1 a.2) ∧
      SDCStep Q QDelta K w f h u ρ U (u + h • ∑ a, sdcB Q QDelta K w a • f (Z a)) := by
  let U : ℕ → Fin M → E := fun k i => if hk : k < K + 1 then Z (⟨k, hk⟩, i) else u
  have hU : ∀ a : Fin (K + 1) × Fin M, Z a = U a.1 a.2 := by
    rintro ⟨⟨k, hk⟩, i⟩
    change _ = dite (k < K + 1) _ _
    rw [dif_pos hk]
  refine ⟨U, hU, ?_⟩
  have hZU : Z = fun a => U a.1 a.2 := funext hU
  rw [hZU] at hZ hn ⊢
  refine ⟨fun i => ?_, fun k hk i => ?_, fun k hk i => ?_, ?_, ?_⟩
  · have h1 := hZ (0, i)
    have h2 := sum_sdcA_zero (K := K) Q QDelta i (fun k j => f (U k j))
    rw [h2, smul_zero, add_zero] at h1
    exact h1
  · have h1 := hZ (⟨k + 1, by omega⟩, i)
    have h2 := sum_sdcA_succ (K := K) Q QDelta k (by omega) i (fun k j => f (U k j))
    rw [h2, smul_add, ← add_assoc] at h1
    exact h1
  · exact hn (⟨k, by omega⟩, i)
  · rintro v rfl
    rw [sdcB, sum_last (K := K) v (fun k j => f (U k j))]
  · rintro rfl
    refine ⟨hw rfl, ?_⟩
    simp only [sdcB, dif_pos (hw rfl)]
    exact (hZ (Fin.last K, ⟨M - 1, by have := hw rfl; omega⟩)).symm

theorem shift_solves {f : E → E} {y : ℝ → E} {t0 T : ℝ} (hy : Solves (fun _ => f) y t0 T) :
    ∀ s ∈ Set.Icc (0 : ℝ) (T - t0), HasDerivWithinAt (fun s => y (t0 + s))
      (f (y (t0 + s))) (Set.Icc 0 (T - t0)) s := by
  intro s hs
  have h1 := hy (t0 + s) ⟨by linarith [hs.1], by linarith [hs.2]⟩
  have h2 : HasDerivWithinAt (fun s : ℝ => t0 + s) 1 (Set.Icc 0 (T - t0)) s :=
    ((hasDerivAt_id s).const_add t0).hasDerivWithinAt
  have h3 := h1.scomp s h2 (fun q hq => ⟨by linarith [hq.1], by linarith [hq.2]⟩)
  rw [one_smul] at h3
  exact h3

variable [CompleteSpace E]

/-- Tree conditions give the local order of spectral deferred correction. -/
theorem sdcLocal_of_trees {Q : Matrix (Fin M) (Fin M) ℝ} {QDelta : ℕ → Matrix (Fin M) (Fin M) ℝ}
    {w : Option (Fin M → ℝ)} {p : ℕ} (hp : 1 ≤ p) (hw : SDCTreeOrder Q QDelta K w p) {f : E → E}
    {y : ℝ → E} {t0 T : ℝ} (hy : Solves (fun _ => f) y t0 T)
    (hf : ∀ t ∈ Set.Icc t0 T, ContDiffAt ℝ p f (y t)) :
    SDCLocalOrder Q QDelta K w p f y t0 T := by
  have hM : w = none → 0 < M := by
    rintro rfl
    by_contra hM
    have := hw .leaf (by simpa [order] using hp)
    simp [sdcElementaryWeight, hM, density, order, childDensity] at this
  have hf' : ∀ s ∈ Set.Icc (0 : ℝ) (T - t0), ContDiffAt ℝ p f (y (t0 + s)) := fun s hs =>
    hf _ ⟨by linarith [hs.1], by linarith [hs.2]⟩
  have hy' := shift_solves hy
  obtain ⟨B, -, hB⟩ := elemDiff_bound (isCompact_Icc.image_of_continuousOn fun s hs =>
    (hy' s hs).continuousWithinAt) (p := p) (f := f) (by
      rintro _ ⟨s, hs, rfl⟩
      exact hf' s hs)
  obtain ⟨ρ, hρ, H⟩ := local_full (A := sdcA Q QDelta K) (b := sdcB Q QDelta K w)
    (W := fun t a => sdcStageWeight Q QDelta t a.1 a.2) (ε := 0)
    (sdcStageWeight_node Q QDelta) hp hy' hf' (fun s hs => hB _ ⟨s, hs, rfl⟩) (fun t ht => by
      rw [sdcB_weight, hw t ht, sub_self, abs_zero])
  obtain ⟨h0, hh0, C, hC, H⟩ := H ρ hρ le_rfl
  refine ⟨ρ, hρ, h0, hh0, C, fun t h ht hh hlt hth => ?_⟩
  obtain ⟨⟨Z, hZ, hZn⟩, H2, H3⟩ := H (t - t0) ⟨by linarith, by linarith⟩ h ⟨hh, hlt⟩ (by linarith)
  simp only [add_sub_cancel] at hZ hZn H2 H3
  refine ⟨?_, ?_, ?_⟩
  · obtain ⟨U, -, hU⟩ := sdc_of_stages hM hZ hZn
    exact ⟨U, _, hU⟩
  · intro U u1 U' u1' hU hU'
    obtain ⟨a1, a2, a3⟩ := sdc_to_stages hU
    obtain ⟨b1, b2, b3⟩ := sdc_to_stages hU'
    have he := H2 _ _ a1 b1 a2 b2
    refine ⟨fun k hk => ?_, ?_⟩
    · funext i
      exact congrFun he (⟨k, by omega⟩, i)
    · rw [a3, b3]
      congr 2
      refine Finset.sum_congr rfl fun a _ => ?_
      rw [congrFun he a]
  · intro U u1 hU
    obtain ⟨a1, a2, a3⟩ := sdc_to_stages hU
    have := H3 _ a1 a2
    rw [← a3, show t0 + (t - t0 + h) = t + h by ring, zero_mul, zero_mul, zero_add] at this
    exact this

/-- Tree conditions give the order of convergence of spectral deferred correction. -/
theorem sdcGlobal_of_trees {Q : Matrix (Fin M) (Fin M) ℝ} {QDelta : ℕ → Matrix (Fin M) (Fin M) ℝ}
    {w : Option (Fin M → ℝ)} {p : ℕ} (hp : 1 ≤ p) (hw : SDCTreeOrder Q QDelta K w p) {f : E → E}
    {y : ℝ → E} {t0 T : ℝ} (hy : Solves (fun _ => f) y t0 T)
    (hf : ∀ t ∈ Set.Icc t0 T, ContDiffAt ℝ p f (y t)) :
    SDCGlobalOrder Q QDelta K w p f y t0 T := by
  have hM : w = none → 0 < M := by
    rintro rfl
    by_contra hM
    have := hw .leaf (by simpa [order] using hp)
    simp [sdcElementaryWeight, hM, density, order, childDensity] at this
  have hf' : ∀ s ∈ Set.Icc (0 : ℝ) (T - t0), ContDiffAt ℝ p f (y (t0 + s)) := fun s hs =>
    hf _ ⟨by linarith [hs.1], by linarith [hs.2]⟩
  obtain ⟨ρ, hρ, h0, hh0, C, hC, H⟩ := global_uniform (A := sdcA Q QDelta K) (b := sdcB Q QDelta K w)
    (W := fun t a => sdcStageWeight Q QDelta t a.1 a.2)
    (sdcStageWeight_node Q QDelta) hp (fun t ht => by rw [sdcB_weight, hw t ht])
    (shift_solves hy) hf'
  refine ⟨ρ, hρ, h0, hh0, C, fun h hh hlt N hN => ?_⟩
  obtain ⟨⟨z, Z, hz⟩, H2, H3⟩ := H h ⟨hh, hlt⟩ N (by linarith)
  rw [add_zero] at hz H2 H3
  have hlift : ∀ u, SDCRun Q QDelta K w f h (y t0) ρ N u →
      ∃ Y, Run (sdcA Q QDelta K) (sdcB Q QDelta K w) f (y t0) h ρ N u Y := by
    intro u hu
    choose! U hU using hu.step
    refine ⟨fun n a => U n a.1 a.2, hu.start, fun n hn => (sdc_to_stages (hU n hn)).1,
      fun n hn => (sdc_to_stages (hU n hn)).2.1, fun n hn => (sdc_to_stages (hU n hn)).2.2⟩
  refine ⟨⟨z, hz.start, fun n hn => ?_⟩, ?_, ?_⟩
  · obtain ⟨U, -, hU⟩ := sdc_of_stages (w := w) hM (hz.stages n hn) (hz.near n hn)
    rw [← hz.result n hn] at hU
    exact ⟨U, hU⟩
  · intro u hu n hn
    obtain ⟨Y, hY⟩ := hlift u hu
    exact H2 u Y hY n hn
  · intro u u' hu hu' n hn
    obtain ⟨Y, hY⟩ := hlift u hu
    obtain ⟨Y', hY'⟩ := hlift u' hu'
    exact (H3 u Y u' Y' hY hY').1 n hn

end Steps

end QMat.Spec
