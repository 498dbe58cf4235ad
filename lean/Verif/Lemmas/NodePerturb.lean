import Verif.Lemmas.Markov
import Verif.Props.Lebesgue

/-!
# Interpolation on perturbed points

If the Lebesgue function of `x` is at most `Λ` on `[a, b]` and points `y` differ from `x` by at most `δ`, with `16 d² Λ δ ≤ b - a` for
`d = n - 1`, then the points `y` are distinct and have Lebesgue functions of at most `2 Λ`.
-/

namespace QMat

open Polynomial Spec

variable {n : ℕ} {x y : Fin n → ℝ} {a b Λ δ : ℝ}

theorem degree_basis_lt (hx : Function.Injective x) (j : Fin n) : (Lagrange.basis Finset.univ x j).degree < n := by
  have := Lagrange.degree_basis hx.injOn (Finset.mem_univ j)
  rw [this, Finset.card_univ, Fintype.card_fin]
  have := j.pos
  exact Nat.cast_lt.2 (by omega)

theorem degree_le_pred {q : ℝ[X]} (hn : 0 < n) (hq : q.degree < n) : q.degree ≤ ((n - 1 : ℕ) : WithBot ℕ) := by
  rcases eq_or_ne q 0 with rfl | h
  · simp
  · rw [degree_eq_natDegree h] at hq ⊢
    have := Nat.cast_lt.1 hq
    exact Nat.cast_le.2 (by omega)

theorem eval_basis_node (hx : Function.Injective x) (j k : Fin n) :
    (Lagrange.basis Finset.univ x j).eval (x k) = if k = j then 1 else 0 := by
  split_ifs with h
  · rw [h, Lagrange.eval_basis_self hx.injOn (Finset.mem_univ j)]
  · exact Lagrange.eval_basis_of_ne (Ne.symm h) (Finset.mem_univ k)

theorem one_le_lebesgue (hx : Function.Injective x) (hn : 0 < n) (t : ℝ) : 1 ≤ lebesgue x t := by
  have h := abs_eval_le_lebesgue hx (q := 1) (B := 1) (by rw [degree_one]; exact_mod_cast hn) (fun j => by simp) t
  simpa using h

theorem abs_basis_le_lebesgue (j : Fin n) (t : ℝ) : |(Lagrange.basis Finset.univ x j).eval t| ≤ lebesgue x t :=
  Finset.single_le_sum (f := fun j => |(Lagrange.basis Finset.univ x j).eval t|) (fun _ _ => abs_nonneg _) (Finset.mem_univ j)

/-- The Lebesgue function is the value of a polynomial with values of at most one at the points. -/
theorem lebesgue_eq_eval (hx : Function.Injective x) (s : ℝ) : ∃ q : ℝ[X], q.degree < n ∧ (∀ j, |q.eval (x j)| ≤ 1) ∧ q.eval s = lebesgue x s := by
  refine ⟨Lagrange.interpolate Finset.univ x fun j => (SignType.sign ((Lagrange.basis Finset.univ x j).eval s) : ℝ), ?_, fun j => ?_, ?_⟩
  · have := Lagrange.degree_interpolate_lt (s := Finset.univ) (v := x)
      (fun j => (SignType.sign ((Lagrange.basis Finset.univ x j).eval s) : ℝ)) hx.injOn
    simpa using this
  · rw [Lagrange.eval_interpolate_at_node _ hx.injOn (Finset.mem_univ j)]
    rcases lt_trichotomy ((Lagrange.basis Finset.univ x j).eval s) 0 with h | h | h <;> simp [h]
  · rw [Lagrange.interpolate_apply, eval_finsetSum, lebesgue]
    refine Finset.sum_congr rfl fun j _ => ?_
    rw [eval_mul, eval_C, sign_mul_self]

/-- Distance of points. -/
theorem gap_of_lebesgue (hx : Function.Injective x) (hab : a < b) (hxI : ∀ j, x j ∈ Set.Icc a b)
    (hL : ∀ t ∈ Set.Icc a b, lebesgue x t ≤ Λ) {i j : Fin n} (hij : i ≠ j) :
    b - a ≤ 4 * ((n - 1 : ℕ) : ℝ) ^ 2 * Λ * |x i - x j| := by
  have hba : 0 < b - a := sub_pos.2 hab
  have hd := degree_le_pred i.pos (degree_basis_lt hx i)
  have h := poly_sub_le (fun s hs => markov hd hab (fun t ht => (abs_basis_le_lebesgue i t).trans (hL t ht)) hs) (hxI i) (hxI j)
  rw [eval_basis_node hx, eval_basis_node hx, if_pos rfl, if_neg hij.symm, sub_zero, abs_one, div_mul_eq_mul_div, le_div_iff₀ hba,
    one_mul] at h
  exact h

section Perturbed

variable (hx : Function.Injective x) (hab : a < b) (hxI : ∀ j, x j ∈ Set.Icc a b) (hL : ∀ t ∈ Set.Icc a b, lebesgue x t ≤ Λ)
  (hy : ∀ j, |y j - x j| ≤ δ) (hδ : 16 * ((n - 1 : ℕ) : ℝ) ^ 2 * Λ * δ ≤ b - a)
include hx hab hxI hL hy hδ

theorem perturbed_injective : Function.Injective y := by
  intro i j hij
  by_contra hne
  have hba : 0 < b - a := sub_pos.2 hab
  have hg := gap_of_lebesgue hx hab hxI hL hne
  have hΛ : 0 ≤ Λ := (zero_le_one.trans (one_le_lebesgue hx i.pos a)).trans (hL a ⟨le_refl _, hab.le⟩)
  have h1 : |x i - x j| ≤ 2 * δ := by
    have e : x i - x j = (y j - x j) - (y i - x i) := by rw [hij]; ring
    rw [e]
    have := abs_sub (y j - x j) (y i - x i)
    linarith [hy i, hy j]
  have h2 : 4 * ((n - 1 : ℕ) : ℝ) ^ 2 * Λ * |x i - x j| ≤ 4 * ((n - 1 : ℕ) : ℝ) ^ 2 * Λ * (2 * δ) :=
    mul_le_mul_of_nonneg_left h1 (by positivity)
  nlinarith

theorem perturbed_mem (j : Fin n) : y j ∈ Set.Icc (a - δ) (b + δ) := by
  have h := abs_le.1 (hy j)
  have h' := hxI j
  exact ⟨by linarith [h'.1], by linarith [h'.2]⟩

theorem perturbed_nonneg (j : Fin n) : 0 ≤ δ ∧ 1 ≤ Λ ∧ 8 * ((n - 1 : ℕ) : ℝ) ^ 2 * δ ≤ b - a := by
  have h0 : 0 ≤ δ := (abs_nonneg _).trans (hy j)
  have h1 : 1 ≤ Λ := (one_le_lebesgue hx j.pos a).trans (hL a ⟨le_refl _, hab.le⟩)
  refine ⟨h0, h1, ?_⟩
  have : 0 ≤ ((n - 1 : ℕ) : ℝ) ^ 2 * δ := by positivity
  nlinarith

/-- Polynomials with values of at most `K` at the perturbed points. -/
theorem perturbed_bound {q : ℝ[X]} (hq : q.degree < n) (hn : 0 < n) {K : ℝ} (hK : ∀ j, |q.eval (y j)| ≤ K) {t : ℝ} (ht : t ∈ Set.Icc a b) :
    |q.eval t| ≤ 2 * Λ * K := by
  have hba : 0 < b - a := sub_pos.2 hab
  obtain ⟨h0, h1, h8⟩ := perturbed_nonneg hx hab hxI hL hy hδ ⟨0, hn⟩
  obtain ⟨z, hz, hzmax⟩ := (isCompact_Icc (a := a) (b := b)).exists_isMaxOn ⟨a, le_refl _, hab.le⟩
    (f := fun x => |q.eval x|) q.continuous.abs.continuousOn
  set M := |q.eval z| with hM
  have hM0 : 0 ≤ M := abs_nonneg _
  obtain ⟨-, hder⟩ := poly_extend (degree_le_pred hn hq) hab h0 h8 (M := M) fun s hs => hzmax hs
  have hv : ∀ j, |q.eval (x j)| ≤ K + 8 * ((n - 1 : ℕ) : ℝ) ^ 2 * M / (b - a) * δ := fun j => by
    have hsub := poly_sub_le hder (x := x j) (y := y j) ⟨by linarith [(hxI j).1], by linarith [(hxI j).2]⟩
      (perturbed_mem hx hab hxI hL hy hδ j)
    have e := abs_sub_abs_le_abs_sub (q.eval (x j)) (q.eval (y j))
    have h2 : 8 * ((n - 1 : ℕ) : ℝ) ^ 2 * M / (b - a) * |x j - y j| ≤ 8 * ((n - 1 : ℕ) : ℝ) ^ 2 * M / (b - a) * δ :=
      mul_le_mul_of_nonneg_left (by rw [abs_sub_comm]; exact hy j) (by positivity)
    linarith [hK j]
  have hK0 : 0 ≤ K := (abs_nonneg _).trans (hK ⟨0, hn⟩)
  have h3 : M ≤ Λ * (K + 8 * ((n - 1 : ℕ) : ℝ) ^ 2 * M / (b - a) * δ) := by
    refine (abs_eval_le_lebesgue hx hq hv z).trans (mul_le_mul_of_nonneg_right (hL z hz) ?_)
    positivity
  have h4 : Λ * (8 * ((n - 1 : ℕ) : ℝ) ^ 2 * M / (b - a) * δ) ≤ M / 2 := by
    rw [div_mul_eq_mul_div, mul_div_assoc', div_le_iff₀ hba]
    nlinarith
  have h5 : |q.eval t| ≤ M := hzmax ht
  nlinarith

theorem perturbed_lebesgue {t : ℝ} (ht : t ∈ Set.Icc a b) : lebesgue y t ≤ 2 * Λ := by
  rcases Nat.eq_zero_or_pos n with rfl | hn
  · have : 0 ≤ Λ := by simpa [lebesgue] using hL t ht
    simp [lebesgue, this]
  obtain ⟨q, hq, h1, h2⟩ := lebesgue_eq_eval (perturbed_injective hx hab hxI hL hy hδ) t
  have := perturbed_bound hx hab hxI hL hy hδ hq hn h1 ht
  rw [← h2]
  linarith [le_abs_self (q.eval t)]

/-- On a slightly larger interval. -/
theorem perturbed_lebesgue_extend {ε : ℝ} (hε : 0 ≤ ε) (h8 : 8 * ((n - 1 : ℕ) : ℝ) ^ 2 * ε ≤ b - a) {t : ℝ}
    (ht : t ∈ Set.Icc (a - ε) (b + ε)) : lebesgue y t ≤ 4 * Λ := by
  rcases Nat.eq_zero_or_pos n with rfl | hn
  · have : 0 ≤ Λ := by simpa [lebesgue] using hL a ⟨le_refl _, hab.le⟩
    simp [lebesgue, this]
  obtain ⟨q, hq, h1, h2⟩ := lebesgue_eq_eval (perturbed_injective hx hab hxI hL hy hδ) t
  have := (poly_extend (degree_le_pred hn hq) hab hε h8 fun s hs => perturbed_bound hx hab hxI hL hy hδ hq hn h1 hs).1 t ht
  rw [← h2]
  linarith [le_abs_self (q.eval t)]

theorem perturbed_derivative {ε : ℝ} (hε : 0 ≤ ε) (h8 : 8 * ((n - 1 : ℕ) : ℝ) ^ 2 * ε ≤ b - a) {t : ℝ}
    (ht : t ∈ Set.Icc (a - ε) (b + ε)) (j : Fin n) :
    |(derivative (Lagrange.basis Finset.univ y j)).eval t| ≤ 16 * ((n - 1 : ℕ) : ℝ) ^ 2 * Λ / (b - a) := by
  have hyi := perturbed_injective hx hab hxI hL hy hδ
  refine ((poly_extend (degree_le_pred j.pos (degree_basis_lt hyi j)) hab hε h8 fun s hs =>
    (abs_basis_le_lebesgue j s).trans (perturbed_lebesgue hx hab hxI hL hy hδ hs)).2 t ht).trans (le_of_eq ?_)
  ring

/-- The Lagrange polynomials of the perturbed points. -/
theorem perturbed_basis (j : Fin n) {t : ℝ} (ht : t ∈ Set.Icc a b) :
    |(Lagrange.basis Finset.univ y j).eval t - (Lagrange.basis Finset.univ x j).eval t| ≤
      2 * Λ * (8 * ((n - 1 : ℕ) : ℝ) ^ 2 * Λ / (b - a) * δ) := by
  obtain ⟨h0, h1, h8⟩ := perturbed_nonneg hx hab hxI hL hy hδ j
  have hba : 0 < b - a := sub_pos.2 hab
  have hyi := perturbed_injective hx hab hxI hL hy hδ
  have hdeg : (Lagrange.basis Finset.univ y j - Lagrange.basis Finset.univ x j).degree < n :=
    (degree_sub_le _ _).trans_lt (max_lt (degree_basis_lt hyi j) (degree_basis_lt hx j))
  rw [← eval_sub]
  refine perturbed_bound hx hab hxI hL hy hδ hdeg j.pos (fun k => ?_) ht
  have hder := (poly_extend (degree_le_pred j.pos (degree_basis_lt hx j)) hab h0 h8 fun s hs =>
    (abs_basis_le_lebesgue j s).trans (hL s hs)).2
  have hsub := poly_sub_le hder (x := x k) (y := y k) ⟨by linarith [(hxI k).1], by linarith [(hxI k).2]⟩
      (perturbed_mem hx hab hxI hL hy hδ k)
  rw [eval_sub, eval_basis_node hyi, ← eval_basis_node hx]
  refine hsub.trans (mul_le_mul_of_nonneg_left (by rw [abs_sub_comm]; exact hy k) (by positivity))

end Perturbed

end QMat
