import Verif.Lemmas.NodesSpec
import Mathlib.Analysis.SpecialFunctions.Trigonometric.Chebyshev.Basic

/-!
# The Chebyshev families
-/

namespace QMat

open Polynomial Spec NodesGenerator

/-- Three-term recurrence with `α_k = 0`, `β_k = 1/4` (`k ≥ 1`) against the Chebyshev recurrence. -/
theorem orthPoly_eq_scaled {α β : ℕ → ℝ} {P : ℕ → ℝ[X]} (s : ℝ)
    (hα : ∀ k, 1 ≤ k → α k = 0) (hβ : ∀ k, 2 ≤ k → β k = 1 / 4) (hP : ∀ k, 1 ≤ k → P (k + 2) = 2 * X * P (k + 1) - P k)
    (h1 : C (s * 2) * orthPoly α β 1 = P 1) (h2 : C (s * 4) * orthPoly α β 2 = P 2) (n : ℕ) :
    C (s * 2 ^ (n + 1)) * orthPoly α β (n + 1) = P (n + 1) := by
  induction n using Nat.strong_induction_on with
  | _ n ih =>
    match n with
    | 0 => simpa using h1
    | 1 => rw [← h2]; norm_num
    | n + 2 =>
      rw [hP (n + 1) (by omega), ← ih (n + 1) (by omega), ← ih n (by omega),
        orthPoly_succ α β (n + 1), hα _ (by omega), hβ _ (by omega)]
      have e1 : C (s * 2 ^ (n + 2 + 1)) = 2 * C (s * 2 ^ (n + 1 + 1)) := by
        rw [show (2 : ℝ[X]) = C 2 from rfl, ← C_mul]; congr 1; ring
      have e2 : C (s * 2 ^ (n + 2 + 1)) * C (1 / 4 : ℝ) = C (s * 2 ^ (n + 1)) := by
        rw [← C_mul]; congr 1; ring
      rw [C_0, sub_zero, mul_sub, ← mul_assoc (C (s * 2 ^ (n + 2 + 1))) (C (1 / 4)), e2, e1]
      ring

theorem cheby1_eq (n : ℕ) : C (2 ^ n : ℝ) *
    orthPoly (baseAlpha "CHEBY-1") (baseBeta "CHEBY-1") (n + 1) = Chebyshev.T ℝ (n + 1) := by
  have h := orthPoly_eq_scaled (α := baseAlpha "CHEBY-1") (β := baseBeta "CHEBY-1")
    (P := fun k => Chebyshev.T ℝ k) (1 / 2) (by simp [baseAlpha])
    (fun k hk => by
      simp [baseBeta, show k ≠ 0 by omega, show k ≠ 1 by omega]; norm_num)
    (fun k _ => by push_cast; exact Chebyshev.T_add_two ℝ k)
    (by simp [orthPoly, baseAlpha])
    (by
      simp [orthPoly, baseAlpha, baseBeta, Chebyshev.T_two]
      rw [mul_sub, ← C_mul, ← C_mul, show (2⁻¹ * 4 * 0.5 : ℝ) = 1 by norm_num,
        show (2⁻¹ * 4 : ℝ) = 2 by norm_num, C_1]
      rw [show (C 2 : ℝ[X]) = 2 from rfl]; ring) n
  push_cast at h
  rw [← h]
  congr 2
  ring

theorem cheby2_eq (n : ℕ) : C (2 ^ n : ℝ) *
    orthPoly (baseAlpha "CHEBY-2") (baseBeta "CHEBY-2") n = Chebyshev.U ℝ n := by
  cases n with
  | zero => simp [orthPoly]
  | succ n =>
    have h := orthPoly_eq_scaled (α := baseAlpha "CHEBY-2") (β := baseBeta "CHEBY-2")
      (P := fun k => Chebyshev.U ℝ k) 1 (by simp [baseAlpha])
      (fun k hk => by
        simp [baseBeta, show k ≠ 0 by omega]; norm_num)
      (fun k _ => by push_cast; exact Chebyshev.U_add_two ℝ k)
      (by simp [orthPoly, baseAlpha]; rfl)
      (by
        simp [orthPoly, baseAlpha, baseBeta, Chebyshev.U_two]
        rw [mul_sub, ← C_mul, show (4 * 0.25 : ℝ) = 1 by norm_num, C_1,
          show (C 4 : ℝ[X]) = 4 from rfl]; ring) n
    push_cast at h ⊢
    rw [← h, one_mul]

theorem cheby3_eq (n : ℕ) : C (2 ^ n : ℝ) *
    orthPoly (baseAlpha "CHEBY-3") (baseBeta "CHEBY-3") n =
      Chebyshev.U ℝ n - Chebyshev.U ℝ (n - 1) := by
  cases n with
  | zero => simp [orthPoly]
  | succ n =>
    have h := orthPoly_eq_scaled (α := baseAlpha "CHEBY-3") (β := baseBeta "CHEBY-3")
      (P := fun k => Chebyshev.U ℝ k - Chebyshev.U ℝ (k - 1)) 1
      (fun k hk => by simp [baseAlpha, show k ≠ 0 by omega])
      (fun k hk => by
        simp [baseBeta, show k ≠ 0 by omega]; norm_num)
      (fun k _ => by
        have h1 := Chebyshev.U_add_two ℝ k
        have h2 := Chebyshev.U_add_two ℝ (k - 1)
        push_cast
        rw [h1, show ((k:ℤ) + 2 - 1) = k - 1 + 2 by ring, h2,
          show ((k:ℤ) + 1 - 1) = k - 1 + 1 by ring]
        ring)
      (by
        simp [orthPoly, baseAlpha]
        rw [mul_sub, ← C_mul, show (2 * 0.5 : ℝ) = 1 by norm_num, C_1]; rfl)
      (by
        simp [orthPoly, baseAlpha, baseBeta, Chebyshev.U_two]
        have e : (C 0.5 : ℝ[X]) * 2 = 1 := by
          rw [show (2 : ℝ[X]) = C 2 from rfl, ← C_mul]; norm_num
        have e' : (C 0.25 : ℝ[X]) * 4 = 1 := by
          rw [show (4 : ℝ[X]) = C 4 from rfl, ← C_mul]; norm_num
        rw [show (C 4 : ℝ[X]) = 4 from rfl]
        linear_combination -e' - 2 * X * e) n
    push_cast at h ⊢
    rw [← h, one_mul]

theorem cheby4_eq (n : ℕ) : C (2 ^ n : ℝ) *
    orthPoly (baseAlpha "CHEBY-4") (baseBeta "CHEBY-4") n =
      Chebyshev.U ℝ n + Chebyshev.U ℝ (n - 1) := by
  cases n with
  | zero => simp [orthPoly]
  | succ n =>
    have h := orthPoly_eq_scaled (α := baseAlpha "CHEBY-4") (β := baseBeta "CHEBY-4")
      (P := fun k => Chebyshev.U ℝ k + Chebyshev.U ℝ (k - 1)) 1
      (fun k hk => by simp [baseAlpha, show k ≠ 0 by omega])
      (fun k hk => by
        simp [baseBeta, show k ≠ 0 by omega]; norm_num)
      (fun k _ => by
        have h1 := Chebyshev.U_add_two ℝ k
        have h2 := Chebyshev.U_add_two ℝ (k - 1)
        push_cast
        rw [h1, show ((k:ℤ) + 2 - 1) = k - 1 + 2 by ring, h2,
          show ((k:ℤ) + 1 - 1) = k - 1 + 1 by ring]
        ring)
      (by
        simp [orthPoly, baseAlpha]
        rw [mul_add, ← C_mul, show (2 * 0.5 : ℝ) = 1 by norm_num, C_1]; rfl)
      (by
        simp [orthPoly, baseAlpha, baseBeta, Chebyshev.U_two]
        have e : (C 0.5 : ℝ[X]) * 2 = 1 := by
          rw [show (2 : ℝ[X]) = C 2 from rfl, ← C_mul]; norm_num
        have e' : (C 0.25 : ℝ[X]) * 4 = 1 := by
          rw [show (4 : ℝ[X]) = C 4 from rfl, ← C_mul]; norm_num
        rw [show (C 4 : ℝ[X]) = 4 from rfl]
        linear_combination -e' + 2 * X * e) n
    push_cast at h ⊢
    rw [← h, one_mul]

/-! ### roots -/

open Real

theorem sin_nat_pi (k : ℕ) : sin (k * π) = 0 := sin_nat_mul_pi k

theorem cos_odd_half_pi (k : ℕ) : cos ((2 * k + 1) * (π / 2)) = 0 := by
  rw [show ((2 * k + 1) * (π / 2) : ℝ) = π / 2 + k * π by ring, cos_add_nat_mul_pi]
  simp

/-- Closed form of the angle of node `i` (increasing order), per Chebyshev kind. -/
noncomputable def chebyAngle (nt : String) (n i : ℕ) : ℝ :=
  if nt = "CHEBY-1" then (2 * (n - i : ℕ) - 1) * π / (2 * n)
  else if nt = "CHEBY-2" then (n - i : ℕ) * π / (n + 1)
  else if nt = "CHEBY-3" then (2 * (n - i : ℕ) - 1) * π / (2 * n + 1)
  else 2 * (n - i : ℕ) * π / (2 * n + 1)

theorem chebyAngle_mem {nt : String} {n i : ℕ} (hi : i < n) :
    0 < chebyAngle nt n i ∧ chebyAngle nt n i < π := by
  have h1 : (1:ℝ) ≤ (n - i : ℕ) := by exact_mod_cast (by omega : 1 ≤ n - i)
  have h2 : ((n - i : ℕ) : ℝ) ≤ n := by exact_mod_cast Nat.sub_le n i
  have hn : (0:ℝ) < n := by linarith
  have hpi := pi_pos
  unfold chebyAngle
  split_ifs
  · exact ⟨div_pos (mul_pos (by linarith) hpi) (by positivity), by
      rw [div_lt_iff₀ (by positivity)]; nlinarith⟩
  · exact ⟨div_pos (mul_pos (by linarith) hpi) (by positivity), by
      rw [div_lt_iff₀ (by positivity)]; nlinarith⟩
  · exact ⟨div_pos (mul_pos (by linarith) hpi) (by positivity), by
      rw [div_lt_iff₀ (by positivity)]; nlinarith⟩
  · exact ⟨div_pos (mul_pos (by linarith) hpi) (by positivity), by
      rw [div_lt_iff₀ (by positivity)]; nlinarith⟩

theorem chebyAngle_anti {nt : String} {n i j : ℕ} (hij : i < j) (hj : j < n) :
    chebyAngle nt n j < chebyAngle nt n i := by
  have h1 : ((n - j : ℕ) : ℝ) < (n - i : ℕ) := by exact_mod_cast (by omega : n - j < n - i)
  have hn : (0:ℝ) < n := by exact_mod_cast (by omega : 0 < n)
  have hpi := pi_pos
  unfold chebyAngle
  split_ifs
  · rw [div_lt_div_iff_of_pos_right (by positivity)]; nlinarith
  · rw [div_lt_div_iff_of_pos_right (by positivity)]; nlinarith
  · rw [div_lt_div_iff_of_pos_right (by positivity)]; nlinarith
  · rw [div_lt_div_iff_of_pos_right (by positivity)]; nlinarith

theorem chebyNodes_strictMono (nt : String) (n : ℕ) :
    StrictMono fun i : Fin n => cos (chebyAngle nt n i) := by
  intro i j hij
  exact cos_lt_cos_of_nonneg_of_le_pi (chebyAngle_mem j.isLt).1.le (chebyAngle_mem i.isLt).2.le
    (chebyAngle_anti hij j.isLt)

theorem cheby_root {nt : String} (hnt : nt ∈ ["CHEBY-1", "CHEBY-2", "CHEBY-3", "CHEBY-4"])
    {n i : ℕ} (hi : i < n) :
    (orthPoly (baseAlpha nt) (baseBeta nt) n).eval (cos (chebyAngle nt n i)) = 0 := by
  have hmem := chebyAngle_mem (nt := nt) hi
  set θ := chebyAngle nt n i with hθ
  have hsin : sin θ ≠ 0 := (sin_pos_of_pos_of_lt_pi hmem.1 hmem.2).ne'
  have hn : (n:ℝ) ≠ 0 := by
    have : 0 < n := by omega
    exact_mod_cast this.ne'
  have hp : ∀ k : ℕ, (2 ^ k : ℝ) ≠ 0 := fun k => pow_ne_zero _ (by norm_num)
  have h2n : (2 * (n:ℝ) + 1) ≠ 0 := by positivity
  have hn1 : ((n:ℝ) + 1) ≠ 0 := by positivity
  obtain ⟨r, hr⟩ : ∃ r, n - i = r + 1 := ⟨n - i - 1, by omega⟩
  simp only [List.mem_cons, List.not_mem_nil, or_false] at hnt
  rcases hnt with rfl | rfl | rfl | rfl
  · obtain ⟨m, rfl⟩ : ∃ m, n = m + 1 := ⟨n - 1, by omega⟩
    have h := congrArg (eval (cos θ)) (cheby1_eq m)
    rw [eval_mul, eval_C] at h
    have hT := Chebyshev.T_real_cos θ ((m:ℤ) + 1)
    rw [hT] at h
    refine (mul_eq_zero.mp (h.trans ?_)).resolve_left (hp m)
    have e : (((m:ℤ) + 1 : ℤ) : ℝ) * θ = (2 * r + 1) * (π / 2) := by
      rw [hθ, chebyAngle, if_pos rfl, hr]
      push_cast at hn ⊢
      field_simp
      ring
    rw [e, cos_odd_half_pi]
  · have h := congrArg (eval (cos θ)) (cheby2_eq n)
    rw [eval_mul, eval_C] at h
    have hU := Chebyshev.U_real_cos θ (n:ℤ)
    have e : (((n:ℤ) : ℝ) + 1) * θ = ((r + 1 : ℕ) : ℝ) * π := by
      rw [hθ, chebyAngle, if_neg (by decide), if_pos rfl, hr]
      push_cast
      field_simp
    rw [e, sin_nat_pi] at hU
    rw [(mul_eq_zero.mp hU).resolve_right hsin] at h
    exact (mul_eq_zero.mp h).resolve_left (hp n)
  · have h := congrArg (eval (cos θ)) (cheby3_eq n)
    rw [eval_mul, eval_C, eval_sub] at h
    have hU := Chebyshev.U_real_cos θ (n:ℤ)
    have hU' := Chebyshev.U_real_cos θ ((n:ℤ) - 1)
    have e : (n * θ + θ / 2) = (2 * r + 1) * (π / 2) := by
      rw [hθ, chebyAngle, if_neg (by decide), if_neg (by decide), if_pos rfl, hr]
      push_cast
      field_simp
      ring
    have hz : (eval (cos θ) (Chebyshev.U ℝ n) - eval (cos θ) (Chebyshev.U ℝ (n - 1))) * sin θ = 0 := by
      rw [sub_mul, hU, hU']
      push_cast
      rw [show (((n:ℝ) + 1) * θ) = (n * θ + θ / 2) + θ / 2 by ring,
        show (((n:ℝ) - 1 + 1) * θ) = (n * θ + θ / 2) - θ / 2 by ring, sin_add, sin_sub, e,
        cos_odd_half_pi]
      ring
    rw [(mul_eq_zero.mp hz).resolve_right hsin] at h
    exact (mul_eq_zero.mp h).resolve_left (hp n)
  · have h := congrArg (eval (cos θ)) (cheby4_eq n)
    rw [eval_mul, eval_C, eval_add] at h
    have hU := Chebyshev.U_real_cos θ (n:ℤ)
    have hU' := Chebyshev.U_real_cos θ ((n:ℤ) - 1)
    have e : (n * θ + θ / 2) = ((r + 1 : ℕ) : ℝ) * π := by
      rw [hθ, chebyAngle, if_neg (by decide), if_neg (by decide), if_neg (by decide), hr]
      push_cast
      field_simp
    have hz : (eval (cos θ) (Chebyshev.U ℝ n) + eval (cos θ) (Chebyshev.U ℝ (n - 1))) * sin θ = 0 := by
      rw [add_mul, hU, hU']
      push_cast
      rw [show (((n:ℝ) + 1) * θ) = (n * θ + θ / 2) + θ / 2 by ring,
        show (((n:ℝ) - 1 + 1) * θ) = (n * θ + θ / 2) - θ / 2 by ring, sin_add, sin_sub, e,
        sin_nat_pi]
      ring
    rw [(mul_eq_zero.mp hz).resolve_right hsin] at h
    exact (mul_eq_zero.mp h).resolve_left (hp n)

end QMat
