import Verif.Model.FloatCollocation
import Verif.Props.FloatIntegration
import Verif.Lemmas.NodePerturb

/-!
# Rows of integration matrices on perturbed points in rounded arithmetic
-/

namespace QMat

open Polynomial Spec

theorem integral_sub_le {f g : ℝ[X]} {a b l u l' u' B K δ : ℝ} (hl : l ∈ Set.Icc a b) (hu : u ∈ Set.Icc a b)
    (hl' : |l' - l| ≤ δ) (hu' : |u' - u| ≤ δ) (hB : ∀ t ∈ Set.Icc (a - δ) (b + δ), |f.eval t| ≤ B)
    (hK : ∀ t ∈ Set.Icc a b, |f.eval t - g.eval t| ≤ K) :
    |(∫ t in l'..u', f.eval t) - ∫ t in l..u, g.eval t| ≤ 2 * (B * δ) + K * (b - a) := by
  have hδ : 0 ≤ δ := (abs_nonneg _).trans hl'
  have hi : ∀ (p : ℝ[X]) (c d : ℝ), IntervalIntegrable (fun t => p.eval t) MeasureTheory.volume c d := fun p c d =>
    p.continuous.intervalIntegrable c d
  have hB0 : 0 ≤ B := (abs_nonneg _).trans (hB l ⟨by linarith [hl.1], by linarith [hl.2]⟩)
  have hK0 : 0 ≤ K := (abs_nonneg _).trans (hK l hl)
  have e : (∫ t in l'..u', f.eval t) - ∫ t in l..u, g.eval t =
      (∫ t in l'..l, f.eval t) + (∫ t in u..u', f.eval t) + ∫ t in l..u, (f.eval t - g.eval t) := by
    rw [intervalIntegral.integral_sub (hi f l u) (hi g l u), ← intervalIntegral.integral_add_adjacent_intervals (hi f l' l) (hi f l u'),
      ← intervalIntegral.integral_add_adjacent_intervals (hi f l u) (hi f u u')]
    ring
  have small : ∀ c d : ℝ, |d - c| ≤ δ → c ∈ Set.Icc (a - δ) (b + δ) → d ∈ Set.Icc (a - δ) (b + δ) →
      |∫ t in c..d, f.eval t| ≤ B * δ := fun c d hcd hc hd => by
    have := intervalIntegral.norm_integral_le_of_norm_le_const (a := c) (b := d) (f := fun t => f.eval t) (C := B) fun t ht => by
      have ht' := Set.uIoc_subset_uIcc ht
      exact hB t (Set.uIcc_subset_Icc hc hd ht')
    rw [Real.norm_eq_abs] at this
    exact this.trans (mul_le_mul_of_nonneg_left hcd hB0)
  have hlm : l ∈ Set.Icc (a - δ) (b + δ) := ⟨by linarith [hl.1], by linarith [hl.2]⟩
  have hum : u ∈ Set.Icc (a - δ) (b + δ) := ⟨by linarith [hu.1], by linarith [hu.2]⟩
  have hlm' : l' ∈ Set.Icc (a - δ) (b + δ) := by
    have := abs_le.1 hl'
    exact ⟨by linarith [hl.1], by linarith [hl.2]⟩
  have hum' : u' ∈ Set.Icc (a - δ) (b + δ) := by
    have := abs_le.1 hu'
    exact ⟨by linarith [hu.1], by linarith [hu.2]⟩
  have h1 := small l' l (by rw [abs_sub_comm]; exact hl') hlm' hlm
  have h2 := small u u' hu' hum hum'
  have h3 : |∫ t in l..u, (f.eval t - g.eval t)| ≤ K * (b - a) := by
    have := intervalIntegral.norm_integral_le_of_norm_le_const (a := l) (b := u) (f := fun t => f.eval t - g.eval t) (C := K) fun t ht =>
      hK t (Set.uIcc_subset_Icc hl hu (Set.uIoc_subset_uIcc ht))
    rw [Real.norm_eq_abs] at this
    refine this.trans (mul_le_mul_of_nonneg_left ?_ hK0)
    rw [abs_le]
    constructor <;> linarith [hl.1, hl.2, hu.1, hu.2]
  rw [e]
  refine (abs_add_le _ _).trans ?_
  have := abs_add_le (∫ t in l'..l, f.eval t) (∫ t in u..u', f.eval t)
  linarith

theorem fejerRow_error (R : Rounding) (F : FejerOps) {n : ℕ} {x y w : Fin n → ℝ} {a b Λ δ : ℝ}
    (hx : Function.Injective x) (hab : a < b) (hxI : ∀ j, x j ∈ Set.Icc a b) (hL : ∀ t ∈ Set.Icc a b, lebesgue x t ≤ Λ)
    (hy : ∀ j, |y j - x j| ≤ δ) (hδ : 16 * ((n - 1 : ℕ) : ℝ) ^ 2 * Λ * δ ≤ b - a) (hw : R.Analytic y w)
    (hint : ∀ k : ℕ, k ≤ 2 * n → R.fl k = k) {m : ℕ} (hm : m = n - (n + 1) % 2) {ε η τ l u l' u' : ℝ}
    (hl : l ∈ Set.Icc a b) (hu : u ∈ Set.Icc a b) (hl' : |l' - l| ≤ δ) (hu' : |u' - u| ≤ δ)
    (hε : ε = F.v + Real.pi * gamma R.u 3) (hη : η = 4 * F.κ / m + 4 * (1 + F.κ) * F.ρ / √m) (hη' : η ≤ 1 / 10 ^ 15)
    (hτ : (b - a + 2 * δ) / 2 * (gamma R.u 4 * (1 + ε) + ε) + gamma R.u 3 * (max |a| |b| + δ) ≤ τ)
    (hτδ : 8 * ((n - 1 : ℕ) : ℝ) ^ 2 * (δ + τ) ≤ b - a)
    (hun : (3 * n + 3 : ℕ) * R.u < 1) (hΛ : gamma R.u (3 * n + 2) * (4 * Λ) < 1) (j : Fin n) :
    (∃ Q, R.FejerRow F y w l' u' Q) ∧ ∀ Q, R.FejerRow F y w l' u' Q →
      |Q j - ∫ t in l..u, (Lagrange.basis Finset.univ x j).eval t| ≤ collocationErr R.u n m (b - a) Λ δ τ η := by
  obtain ⟨hδ0, hΛ1, h8⟩ := perturbed_nonneg hx hab hxI hL hy hδ j
  have hba : 0 < b - a := sub_pos.2 hab
  have hn := j.pos
  have hn1 : (1:ℝ) ≤ n := by exact_mod_cast hn
  have hu0 := R.u_nonneg
  have hub : ∀ k : ℕ, k ≤ 3 * n + 3 → (k : ℝ) * R.u < 1 := fun k hk => by
    have : (k : ℝ) ≤ (3 * n + 3 : ℕ) := by exact_mod_cast hk
    nlinarith
  have hyi := perturbed_injective hx hab hxI hL hy hδ
  have hg : ∀ k : ℕ, k ≤ 3 * n + 3 → 0 ≤ gamma R.u k := fun k hk => by
    have := hub k hk
    rw [gamma]
    exact div_nonneg (by positivity) (by linarith)
  have hε0 : 0 ≤ ε := by
    rw [hε]
    have := F.v_nonneg
    have := hg 3 (by omega)
    have := Real.pi_pos
    positivity
  have hg4 := hg 4 (by omega)
  have hg3 := hg 3 (by omega)
  have hmax : 0 ≤ max |a| |b| := le_max_of_le_left (abs_nonneg a)
  have hlen : |u' - l'| ≤ b - a + 2 * δ := by
    have h1 := abs_le.1 hl'
    have h2 := abs_le.1 hu'
    rw [abs_le]
    constructor <;> linarith [hl.1, hl.2, hu.1, hu.2]
  have hmid : |u' + l'| / 2 ≤ max |a| |b| + δ := by
    have e1 : |l| ≤ max |a| |b| := abs_le_max_abs_abs hl.1 hl.2
    have e2 : |u| ≤ max |a| |b| := abs_le_max_abs_abs hu.1 hu.2
    have e3 : |u' + l'| ≤ (|u| + δ) + (|l| + δ) := by
      have h1 : |u'| ≤ |u| + δ := by
        have := abs_add_le u (u' - u)
        rw [add_sub_cancel] at this
        linarith
      have h2 : |l'| ≤ |l| + δ := by
        have := abs_add_le l (l' - l)
        rw [add_sub_cancel] at this
        linarith
      linarith [abs_add_le u' l']
    linarith
  have hτ' : |u' - l'| / 2 * (gamma R.u 4 * (1 + ε) + ε) + gamma R.u 3 * (|u' + l'| / 2) ≤ τ := by
    refine le_trans (add_le_add ?_ ?_) hτ
    · exact mul_le_mul_of_nonneg_right (by linarith) (by positivity)
    · exact mul_le_mul_of_nonneg_left hmid hg3
  have hτ0 : 0 ≤ τ := le_trans (by positivity) hτ'
  have hmem : ∀ z z' : ℝ, z ∈ Set.Icc a b → |z' - z| ≤ δ → a - (δ + τ) + τ ≤ z' ∧ z' + τ ≤ b + (δ + τ) := fun z z' hz h => by
    have h1 := abs_le.1 h
    exact ⟨by linarith [hz.1], by linarith [hz.2]⟩
  have hmle : m ≤ n := by omega
  obtain ⟨hex, herr⟩ := C92_integration R F (x := y) (w := w) hyi hw hint hm (ε := ε) (η := η) (δ := τ) (Λ := 4 * Λ)
    (D := 16 * ((n - 1 : ℕ) : ℝ) ^ 2 * Λ / (b - a)) (a := l') (b := u') (lo := a - (δ + τ)) (hi := b + (δ + τ)) hε hη hη'
    (hub 4 (by omega)) hτ' (le_min (hmem l l' hl hl').1 (hmem u u' hu hu').1)
    (by rw [← max_add_add_right]; exact max_le (hmem l l' hl hl').2 (hmem u u' hu hu').2) (hub _ (by omega))
    (fun s hs => perturbed_lebesgue_extend hx hab hxI hL hy hδ (by positivity) hτδ hs) hΛ j
    (fun s hs => perturbed_derivative hx hab hxI hL hy hδ (by positivity) hτδ hs j)
    (hub _ (by omega))
  refine ⟨hex, fun Q hQ => ?_⟩
  have h1 := herr Q hQ
  have h2 := integral_sub_le (f := Lagrange.basis Finset.univ y j) (g := Lagrange.basis Finset.univ x j) hl hu hl' hu'
    (B := 4 * Λ) (fun t ht => (abs_basis_le_lebesgue j t).trans (perturbed_lebesgue_extend hx hab hxI hL hy hδ hδ0 h8 ht))
    (fun t ht => perturbed_basis hx hab hxI hL hy hδ j ht)
  have e : 2 * Λ * (8 * ((n - 1 : ℕ) : ℝ) ^ 2 * Λ / (b - a) * δ) * (b - a) = 16 * ((n - 1 : ℕ) : ℝ) ^ 2 * Λ ^ 2 * δ := by
    field_simp
    ring
  rw [e] at h2
  have h3 : |Q j - ∫ t in l..u, (Lagrange.basis Finset.univ x j).eval t| ≤
      |Q j - ∫ t in l'..u', (Lagrange.basis Finset.univ y j).eval t| +
      |(∫ t in l'..u', (Lagrange.basis Finset.univ y j).eval t) - ∫ t in l..u, (Lagrange.basis Finset.univ x j).eval t| :=
    abs_sub_le _ _ _
  have hgn := hg (3 * n + 2) (by omega)
  have hgm := hg (m + 3) (by omega)
  have hη0 : 0 ≤ η := by
    rw [hη]
    have := F.κ_nonneg
    have := F.ρ_nonneg
    positivity
  have h4 : |Q j - ∫ t in l'..u', (Lagrange.basis Finset.univ y j).eval t| ≤ (b - a + 2 * δ) / 2 *
      ((1 + gamma R.u (3 * n + 2) * (1 + 4 * Λ) / (1 - gamma R.u (3 * n + 2) * (4 * Λ))) * (4 * Λ)
      * ((2 + m * η) * gamma R.u (m + 3) + m * η)
    + 2 * (gamma R.u (3 * n + 2) * (1 + 4 * Λ) / (1 - gamma R.u (3 * n + 2) * (4 * Λ)) * (4 * Λ)
      + 16 * ((n - 1 : ℕ) : ℝ) ^ 2 * Λ / (b - a) * τ)) := by
    refine h1.trans (mul_le_mul_of_nonneg_right (by linarith) ?_)
    have hG : 0 ≤ gamma R.u (3 * n + 2) * (1 + 4 * Λ) / (1 - gamma R.u (3 * n + 2) * (4 * Λ)) :=
      div_nonneg (by positivity) (by linarith)
    positivity
  rw [collocationErr]
  linarith

end QMat
