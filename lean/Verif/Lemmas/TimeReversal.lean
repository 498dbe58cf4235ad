import Verif.Spec.Mirrored
import Verif.Spec.RKStep
import Verif.Spec.Stability
import Verif.Lemmas.BStable
import Verif.Lemmas.Collocation

/-!
# Methods with mirrored coefficients
-/

namespace QMat

open Spec Matrix Polynomial

section Mirror

variable {s : ℕ} {c c' : Fin s → ℝ} {A A' : Matrix (Fin s) (Fin s) ℝ} {b b' : Fin s → ℝ}

theorem Spec.Mirrored.symm (h : Mirrored c A b c' A' b') : Mirrored c' A' b' c A b :=
  ⟨fun i => by rw [h.nodes, Fin.rev_rev]; ring, fun j => by rw [h.weights, Fin.rev_rev],
    fun i j => by rw [h.matrix, h.weights, Fin.rev_rev, Fin.rev_rev]; ring⟩

/-- The mirrored method undoes the step. -/
theorem Spec.Mirrored.step (h : Mirrored c A b c' A' b') {E : Type*} [AddCommGroup E] [Module ℝ E] {f : ℝ → E → E}
    {t dt : ℝ} {u u1 : E} {Y : Fin s → E} (hs : RKStep c A b f t dt u Y u1) :
    RKStep c' A' b' f (t + dt) (-dt) u1 (fun i => Y i.rev) u := by
  have ht : ∀ j, t + dt + -dt * c' j = t + dt * c j.rev := fun j => by rw [h.nodes]; ring
  have hsum : ∀ g : Fin s → E, ∑ j : Fin s, g j.rev = ∑ j, g j := fun g => Equiv.sum_comp Fin.revPerm g
  constructor
  · intro i
    simp only [ht, h.matrix]
    rw [hsum fun j => (b j - A i.rev j) • f (t + dt * c j) (Y j)]
    simp only [sub_smul, Finset.sum_sub_distrib]
    rw [hs.result, smul_sub, neg_smul, neg_smul]
    conv_lhs => rw [hs.stages i.rev]
    abel
  · simp only [ht, h.weights]
    rw [hsum fun j => b j • f (t + dt * c j) (Y j), hs.result, neg_smul]
    abel

/-- A step on Dahlquist's equation. -/
theorem dahlquist_step {z : ℂ} (hdet : (1 - z • A.map Complex.ofReal).det ≠ 0) (t : ℝ) (u u1 : ℂ) :
    (∃ Y, RKStep c A b (fun _ v => z * v) t 1 u Y u1) ↔ u1 = stabilityFunction A b z * u := by
  set B := (1 - z • A.map Complex.ofReal) with hB
  have hinv : B * B⁻¹ = 1 := Matrix.mul_nonsing_inv _ (isUnit_iff_ne_zero.2 hdet)
  have hinv' : B⁻¹ * B = 1 := Matrix.nonsing_inv_mul _ (isUnit_iff_ne_zero.2 hdet)
  have hmul : ∀ (Y : Fin s → ℂ) i, (B *ᵥ Y) i = Y i - ∑ j, (A i j : ℂ) * (z * Y j) := by
    intro Y i
    rw [hB, Matrix.sub_mulVec, Matrix.one_mulVec, Matrix.smul_mulVec]
    simp only [Pi.sub_apply, Pi.smul_apply, Matrix.mulVec, dotProduct, Matrix.map_apply, smul_eq_mul, Finset.mul_sum]
    congr 1
    exact Finset.sum_congr rfl fun j _ => by ring
  have hstage : ∀ Y : Fin s → ℂ, (∀ i, Y i = u + (1:ℝ) • ∑ j, A i j • (z * Y j)) ↔ Y = fun i => (B⁻¹ *ᵥ fun _ => 1) i * u := by
    intro Y
    have h1 : (∀ i, Y i = u + (1:ℝ) • ∑ j, A i j • (z * Y j)) ↔ B *ᵥ Y = fun _ => u := by
      constructor
      · intro h
        funext i
        rw [hmul]
        have := h i
        simp only [one_smul, Complex.real_smul] at this
        conv_lhs => rw [this]
        ring
      · intro h i
        have := congrFun h i
        rw [hmul] at this
        simp only [one_smul, Complex.real_smul]
        linear_combination this
    rw [h1]
    have e : (fun i => (B⁻¹ *ᵥ fun _ => (1:ℂ)) i * u) = B⁻¹ *ᵥ fun _ => u := by
      funext i
      simp [Matrix.mulVec, dotProduct, Finset.sum_mul]
    rw [e]
    constructor
    · intro h
      rw [← h, Matrix.mulVec_mulVec, hinv', Matrix.one_mulVec]
    · rintro rfl
      rw [Matrix.mulVec_mulVec, hinv, Matrix.one_mulVec]
  have hres : u + (1:ℝ) • ∑ i, b i • (z * ((B⁻¹ *ᵥ fun _ => 1) i * u)) = stabilityFunction A b z * u := by
    rw [stabilityFunction, ← hB]
    simp only [one_smul, Complex.real_smul, add_mul, one_mul, Finset.mul_sum, Finset.sum_mul]
    congr 1
    exact Finset.sum_congr rfl fun j _ => by ring
  constructor
  · rintro ⟨Y, hs⟩
    have := (hstage Y).1 hs.stages
    rw [hs.result, this, hres]
  · rintro rfl
    exact ⟨_, (hstage _).2 rfl, hres.symm⟩

theorem Spec.Mirrored.stability (h : Mirrored c A b c' A' b') {z : ℂ} (hdet : (1 - z • A.map Complex.ofReal).det ≠ 0)
    (hdet' : (1 - (-z) • A'.map Complex.ofReal).det ≠ 0) :
    stabilityFunction A' b' (-z) * stabilityFunction A b z = 1 := by
  obtain ⟨Y, hY⟩ := (dahlquist_step (c := c) (b := b) hdet 0 1 _).2 rfl
  have h1 := h.step hY
  have h2 : RKStep c' A' b' (fun (_ : ℝ) v => -z * v) 0 1 (stabilityFunction A b z * 1) (fun i => Y i.rev) 1 := by
    constructor
    · intro i
      have := h1.stages i
      simp only [neg_smul, one_smul] at this ⊢
      rw [this]
      simp only [neg_mul, smul_neg, Finset.sum_neg_distrib]
    · have := h1.result
      simp only [neg_smul, one_smul] at this ⊢
      refine this.trans ?_
      simp only [neg_mul, smul_neg, Finset.sum_neg_distrib]
  have := (dahlquist_step hdet' 0 _ _).1 ⟨_, h2⟩
  rw [mul_one] at this
  exact this.symm

end Mirror

/-- Collocation on mirrored nodes. -/
theorem collocation_mirrored {M : ℕ} {nt qt nt' qt' : String} (c c' : Collocation M)
    (hc : Collocation.new M nt qt 0 1 = .ok c) (hc' : Collocation.new M nt' qt' 0 1 = .ok c')
    (hn : ∀ i, c'.nodes i = 1 - c.nodes i.rev) : Mirrored c.nodes c.Q c.weights c'.nodes c'.Q c'.weights := by
  obtain ⟨x, hM, h⟩ := collocation_spec hc
  obtain ⟨x', hM', h'⟩ := collocation_spec hc'
  have hinj := (h'.strictMono (by norm_num)).injective
  have hsum : ∀ g : Fin M → ℝ, ∑ j : Fin M, g j.rev = ∑ j, g j := fun g => Equiv.sum_comp Fin.revPerm g
  -- a row that integrates all polynomials is unique
  have huniq : ∀ w w' : Fin M → ℝ, (∀ p : ℝ[X], p.degree < M → ∑ j, w j * p.eval (c'.nodes j) =
      ∑ j, w' j * p.eval (c'.nodes j)) → w = w' := by
    intro w w' hw
    funext k
    have h1 := hw (Lagrange.basis Finset.univ c'.nodes k) (by
      have := Lagrange.degree_basis (s := Finset.univ) hinj.injOn (Finset.mem_univ k)
      rw [this, Finset.card_univ, Fintype.card_fin]
      exact_mod_cast Nat.sub_lt hM Nat.one_pos)
    have e : ∀ v : Fin M → ℝ, ∑ j, v j * (Lagrange.basis Finset.univ c'.nodes k).eval (c'.nodes j) = v k := by
      intro v
      rw [Finset.sum_eq_single k]
      · rw [Lagrange.eval_basis_self hinj.injOn (Finset.mem_univ k), mul_one]
      · intro j _ hj
        rw [Lagrange.eval_basis_of_ne (Ne.symm hj) (Finset.mem_univ j), mul_zero]
      · simp
    rwa [e, e] at h1
  have hrefl : ∀ (p : ℝ[X]) (a b : ℝ), ∫ t in a..b, (p.comp (1 - X)).eval t = ∫ t in (1 - b)..(1 - a), p.eval t := by
    intro p a b
    simp only [eval_comp, eval_sub, eval_one, eval_X]
    exact intervalIntegral.integral_comp_sub_left (fun t => p.eval t) 1
  have hdeg : ∀ p : ℝ[X], p.degree < M → (p.comp (1 - X)).degree < M := by
    intro p hp
    rcases eq_or_ne p 0 with rfl | hp0
    · simpa using hp
    · have h1 : (1 - X : ℝ[X]).natDegree ≤ 1 := by
        rw [show (1 - X : ℝ[X]) = C 1 - X by simp]
        refine (natDegree_sub_le _ _).trans ?_
        simp
      have h2 : (p.comp (1 - X)).natDegree ≤ p.natDegree := by
        rw [natDegree_comp]
        exact (Nat.mul_le_mul_left _ h1).trans_eq (mul_one _)
      refine lt_of_le_of_lt degree_le_natDegree (lt_of_le_of_lt (Nat.cast_le.2 h2) ?_)
      rwa [← degree_eq_natDegree hp0]
  have hw : ∀ p : ℝ[X], p.degree < M → ∑ j, c.weights j.rev * p.eval (c'.nodes j) = ∫ t in (0:ℝ)..1, p.eval t := by
    intro p hp
    simp only [hn]
    rw [hsum fun j => c.weights j * p.eval (1 - c.nodes j)]
    have h1 : ∑ j, c.weights j * (p.comp (1 - X)).eval (c.nodes j) = ∫ t in (0:ℝ)..1, (p.comp (1 - X)).eval t :=
      h.weights_exact (by norm_num) _ (hdeg p hp)
    rw [hrefl] at h1
    simpa [eval_comp] using h1
  have hQ : ∀ i, ∀ p : ℝ[X], p.degree < M → ∑ j, c.Q i.rev j.rev * p.eval (c'.nodes j) =
      ∫ t in (c'.nodes i)..1, p.eval t := by
    intro i p hp
    simp only [hn]
    rw [hsum fun j => c.Q i.rev j * p.eval (1 - c.nodes j)]
    have h1 : ∑ j, c.Q i.rev j * (p.comp (1 - X)).eval (c.nodes j) = ∫ t in (0:ℝ)..(c.nodes i.rev), (p.comp (1 - X)).eval t :=
      h.Q_exact (by norm_num) _ (hdeg p hp) i.rev
    rw [hrefl] at h1
    simpa [eval_comp] using h1
  refine ⟨hn, fun j => ?_, fun i j => ?_⟩
  · refine congrFun (huniq c'.weights (fun j => c.weights j.rev) fun p hp => ?_) j
    rw [hw p hp]
    exact h'.weights_exact (by norm_num) p hp
  · refine congrFun (huniq (c'.Q i) (fun j => c.weights j.rev - c.Q i.rev j.rev) fun p hp => ?_) j
    simp only [sub_mul, Finset.sum_sub_distrib]
    rw [hw p hp, hQ i p hp]
    have h1 : ∑ j, c'.Q i j * p.eval (c'.nodes j) = ∫ t in (0:ℝ)..(c'.nodes i), p.eval t :=
      h'.Q_exact (by norm_num) p hp i
    rw [h1, eq_sub_iff_add_eq]
    exact intervalIntegral.integral_add_adjacent_intervals (p.continuous.intervalIntegrable _ _)
      (p.continuous.intervalIntegrable _ _)

end QMat
