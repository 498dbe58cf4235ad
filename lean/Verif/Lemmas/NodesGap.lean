import Verif.Lemmas.NodesOrth
import Mathlib.Analysis.SpecialFunctions.Trigonometric.Bounds

/-!
# Distance of the outermost nodes to the ends of `[-1, 1]`
-/

namespace QMat

open Polynomial Spec NodesGenerator

theorem gap_of_deriv {n : ℕ} {x : Fin n → ℝ} (hx : ∀ i, x i ≤ 1) (k : Fin n) :
    (Lagrange.nodal Finset.univ x).eval 1 ≤
      (1 - x k) * (derivative (Lagrange.nodal Finset.univ x)).eval 1 := by
  rw [Lagrange.derivative_nodal, eval_finsetSum]
  have h1 : (Lagrange.nodal Finset.univ x).eval 1 =
      (1 - x k) * (Lagrange.nodal (Finset.univ.erase k) x).eval 1 := by
    rw [Lagrange.eval_nodal, Lagrange.eval_nodal, Finset.mul_prod_erase Finset.univ (fun i => 1 - x i)
      (Finset.mem_univ k)]
  rw [h1]
  refine mul_le_mul_of_nonneg_left ?_ (by linarith [hx k])
  refine Finset.single_le_sum (f := fun i => (Lagrange.nodal (Finset.univ.erase i) x).eval 1)
    (fun i _ => ?_) (Finset.mem_univ k)
  rw [Lagrange.eval_nodal]
  exact Finset.prod_nonneg fun j _ => by linarith [hx j]

theorem legPoly_deriv_one (n : ℕ) :
    (derivative (legPoly n)).eval 1 = n * (n + 1) / 2 * (legPoly n).eval 1 := by
  have h := congrArg (eval 1) (legPoly_ode n)
  simp only [derivative_mul, derivative_sub, derivative_one, eval_add, eval_mul, eval_sub, eval_pow,
    eval_X, eval_one, eval_C, derivative_X_pow] at h
  simp at h
  linarith

theorem legPoly_one_pos (n : ℕ) : 0 < (legPoly n).eval 1 := by
  obtain ⟨ρ, hr⟩ := (family_base (nt := "LEGENDRE") (by decide)).right
  exact hr.eval_pos le_rfl n

theorem legPoly_neg (n : ℕ) (t : ℝ) : (legPoly n).eval (-t) = (-1) ^ n * (legPoly n).eval t := by
  have h := eval_orthPoly_neg (baseAlpha "LEGENDRE") (baseBeta "LEGENDRE") n t
  have e : (fun k => -baseAlpha "LEGENDRE" k) = baseAlpha "LEGENDRE" := by
    funext k; simp [baseAlpha]
  rw [e] at h
  rw [legPoly, h, ← mul_assoc, ← mul_pow]
  simp

/-- The node polynomial of the Legendre types. -/
theorem legendre_nodal {qt : String} (hqt : qt = "GAUSS" ∨ qt = "RADAU-LEFT") {m : ℕ}
    (x : Fin (m + 1) → ℝ) (hx : getNodes ⟨"LEGENDRE", qt⟩ (m + 1) = .ok x) :
    ∃ a, Lagrange.nodal Finset.univ x = legPoly (m + 1) - C a * legPoly m ∧ (qt = "GAUSS" → a = 0) := by
  have hn := validSize_of_getNodes hx
  obtain ⟨x', a, b, hx', -, hnod, hlast, -⟩ := getNodes_ortho (nt := "LEGENDRE") (qt := qt) (by decide)
    (by rcases hqt with rfl | rfl <;> decide) hn
  rw [hx'] at hx
  cases hx
  have hstep := orthPoly_step (baseAlpha "LEGENDRE") (baseBeta "LEGENDRE") m
  have hb : b = baseBeta "LEGENDRE" m ∧ (qt = "GAUSS" → a = 0) := by
    rcases hqt with rfl | rfl
    · simp only [LastCoeffs, String.reduceEq, true_and, false_and, or_false] at hlast
      exact ⟨hlast.2, fun _ => by rw [hlast.1]; simp [baseAlpha]⟩
    · simp only [LastCoeffs, String.reduceEq, true_and, false_and, or_false, false_or] at hlast
      exact ⟨hlast.2, by simp⟩
  refine ⟨a, ?_, hb.2⟩
  rw [hnod, legPoly, hstep, lastPoly, legPoly, hb.1]
  simp only [show baseAlpha "LEGENDRE" m = 0 by simp [baseAlpha], C_0, sub_zero]
  ring

theorem legendre_gap {qt : String} (hqt : qt = "GAUSS" ∨ qt = "RADAU-LEFT") {n : ℕ}
    (x : Fin n → ℝ) (hx : getNodes ⟨"LEGENDRE", qt⟩ n = .ok x) (k : Fin n) :
    1 / (2 * (n:ℝ) ^ 2) ≤ 1 - x k := by
  obtain ⟨m, rfl⟩ : ∃ m, n = m + 1 := ⟨n - 1, by have := k.isLt; omega⟩
  have hn := validSize_of_getNodes hx
  obtain ⟨x', hx', -, hr, hl, -⟩ := getNodes_all (nt := "LEGENDRE") (qt := qt) (by decide)
    (by rcases hqt with rfl | rfl <;> decide) hn
  rw [hx'] at hx
  cases hx
  obtain ⟨a, hnod, ha⟩ := legendre_nodal hqt x hx'
  have hg := gap_of_deriv (fun i => (hr i).2) k
  have p1 := legPoly_one_pos (m + 1)
  have p0 := legPoly_one_pos m
  have hk : 0 ≤ 1 - x k := by linarith [(hr k).2]
  have hm : (0:ℝ) ≤ m := by positivity
  -- both cases: `N(1) = c P(1)`, `N'(1) ≤ 2 (m+1)^2 c P(1)`
  obtain ⟨c, hc, h1, h2⟩ : ∃ c > 0, (Lagrange.nodal Finset.univ x).eval 1 = c ∧
      (derivative (Lagrange.nodal Finset.univ x)).eval 1 ≤ 2 * ((m:ℝ) + 1) ^ 2 * c := by
    have hd : (derivative (Lagrange.nodal Finset.univ x)).eval 1 =
        ((m + 1 : ℕ):ℝ) * (((m + 1 : ℕ):ℝ) + 1) / 2 * (legPoly (m + 1)).eval 1 -
          a * (m * (m + 1) / 2 * (legPoly m).eval 1) := by
      rw [hnod]
      simp only [derivative_sub, derivative_C_mul, eval_sub, eval_mul, eval_C, legPoly_deriv_one]
    rcases hqt with rfl | rfl
    · have ha := ha rfl
      subst ha
      refine ⟨(legPoly (m + 1)).eval 1, p1, by rw [hnod]; simp, ?_⟩
      rw [hd, zero_mul, sub_zero]
      refine mul_le_mul_of_nonneg_right ?_ p1.le
      push_cast
      nlinarith
    · have hroot : (Lagrange.nodal Finset.univ x).eval (-1) = 0 := by
        obtain ⟨i, hi⟩ := hl.mpr (Or.inl rfl)
        exact (eval_nodal_eq_zero_iff x _).mpr ⟨i, hi⟩
      rw [hnod] at hroot
      simp only [eval_sub, eval_mul, eval_C, legPoly_neg, pow_succ] at hroot
      have hap : a * (legPoly m).eval 1 = -(legPoly (m + 1)).eval 1 := by
        have : (-1:ℝ) ^ m * (a * (legPoly m).eval 1 + (legPoly (m + 1)).eval 1) = 0 := by linarith
        have := (mul_eq_zero.mp this).resolve_left (by simp)
        linarith
      refine ⟨2 * (legPoly (m + 1)).eval 1, by linarith, ?_, ?_⟩
      · rw [hnod]; simp only [eval_sub, eval_mul, eval_C, hap]; ring
      · rw [hd]
        have : a * (m * (m + 1) / 2 * (legPoly m).eval 1) =
          m * (m + 1) / 2 * (a * (legPoly m).eval 1) := by ring
        rw [this, hap]
        push_cast
        nlinarith
  rw [h1] at hg
  have h3 : (1 - x k) * (derivative (Lagrange.nodal Finset.univ x)).eval 1 ≤
      (1 - x k) * (2 * ((m:ℝ) + 1) ^ 2 * c) := mul_le_mul_of_nonneg_left h2 hk
  have h4 : 1 ≤ (1 - x k) * (2 * ((m:ℝ) + 1) ^ 2) := by
    by_contra hlt
    have := mul_lt_mul_of_pos_right (not_le.mp hlt) hc
    nlinarith
  push_cast
  rw [div_le_iff₀ (by positivity)]
  linarith

/-- The configurations for which `Collocation.order` exceeds the number of nodes, `LOBATTO` apart. -/
def BonusType (nt qt : String) : Prop :=
  (nt = "LEGENDRE" ∧ qt ≠ "LOBATTO") ∨ (nt ∈ ["EQUID", "CHEBY-1", "CHEBY-2"] ∧ qt = "GAUSS")

theorem cos_gap {y : ℝ} (h0 : 0 ≤ y) (h1 : y ≤ Real.pi) : 2 / Real.pi ^ 2 * y ^ 2 ≤ 1 - Real.cos y := by
  have := Real.cos_le_one_sub_mul_cos_sq (x := y) (by rw [abs_of_nonneg h0]; exact h1)
  linarith

theorem gauss_gap {nt : String} (h : nt ∈ ["EQUID", "CHEBY-1", "CHEBY-2"]) {n : ℕ}
    (x : Fin n → ℝ) (hx : getNodes ⟨nt, "GAUSS"⟩ n = .ok x) (k : Fin n) :
    1 / (2 * (n:ℝ) ^ 2) ≤ 1 - x k := by
  have hk := k.isLt
  have hn : (1:ℝ) ≤ n := by exact_mod_cast (by omega : 1 ≤ n)
  have hk1 : (1:ℝ) ≤ ((n - k : ℕ):ℝ) := by exact_mod_cast (by omega : 1 ≤ n - (k:ℕ))
  have hk2 : ((n - k : ℕ):ℝ) ≤ n := by exact_mod_cast (by omega : n - (k:ℕ) ≤ n)
  have hpi := Real.pi_pos
  simp only [List.mem_cons, List.not_mem_nil, or_false] at h
  rcases h with rfl | rfl | rfl
  · obtain ⟨x', hx', hg, -⟩ := C16_equidistant (qt := "GAUSS") (by decide) (n := n)
      ⟨by omega, by simp⟩
    rw [hx'] at hx
    cases hx
    rw [hg rfl k]
    have hkn : ((k:ℕ):ℝ) + 1 ≤ n := by exact_mod_cast (by omega : (k:ℕ) + 1 ≤ n)
    have h1 : 2 / ((n:ℝ) + 1) ≤ 1 - (-1 + (((k:ℕ):ℝ) + 1) * (2 / (n + 1))) := by
      have : (((k:ℕ):ℝ) + 1) * (2 / ((n:ℝ) + 1)) ≤ n * (2 / (n + 1)) :=
        mul_le_mul_of_nonneg_right hkn (by positivity)
      have e : (2:ℝ) = (n + 1) * (2 / ((n:ℝ) + 1)) := by field_simp
      linarith
    refine le_trans ?_ h1
    rw [div_le_div_iff₀ (by positivity) (by positivity)]
    nlinarith
  · obtain ⟨x1, x2, x3, x4, hx1, hf, -⟩ := C17_chebyshev_closed_form (n := n) (by omega)
    rw [hx1] at hx
    cases hx
    rw [hf]
    set j : ℝ := ((n - k : ℕ):ℝ)
    have hy0 : 0 ≤ (2 * j - 1) * Real.pi / (2 * n) := by
      have : 0 ≤ 2 * j - 1 := by linarith
      positivity
    have hy1 : (2 * j - 1) * Real.pi / (2 * n) ≤ Real.pi := by
      rw [div_le_iff₀ (by positivity)]
      nlinarith
    refine le_trans ?_ (cos_gap hy0 hy1)
    have e : 2 / Real.pi ^ 2 * ((2 * j - 1) * Real.pi / (2 * n)) ^ 2 =
        (2 * j - 1) ^ 2 * (1 / (2 * n ^ 2)) := by
      field_simp
    rw [e]
    exact le_mul_of_one_le_left (by positivity) (by nlinarith)
  · obtain ⟨x1, x2, x3, x4, -, -, hx2, hf, -⟩ := C17_chebyshev_closed_form (n := n) (by omega)
    rw [hx2] at hx
    cases hx
    rw [hf]
    set j : ℝ := ((n - k : ℕ):ℝ)
    have hy0 : 0 ≤ j * Real.pi / (n + 1) := by positivity
    have hy1 : j * Real.pi / (n + 1) ≤ Real.pi := by
      rw [div_le_iff₀ (by positivity)]
      nlinarith
    refine le_trans ?_ (cos_gap hy0 hy1)
    have e : 2 / Real.pi ^ 2 * (j * Real.pi / (n + 1)) ^ 2 = j ^ 2 * (2 / (n + 1) ^ 2) := by
      field_simp
    rw [e]
    have : (1:ℝ) ≤ j ^ 2 := by nlinarith
    refine le_trans ?_ (le_mul_of_one_le_left (by positivity) this)
    rw [div_le_div_iff₀ (by positivity) (by positivity)]
    nlinarith

/-- Outermost nodes are end points or at least `1/(2n²)` away from them. -/
theorem nodes_gap {nt qt : String} (hqt : qt ∈ QUAD_TYPES) (h : BonusType nt qt) {n : ℕ}
    (x : Fin n → ℝ) (hx : getNodes ⟨nt, qt⟩ n = .ok x) (hn : 0 < n) :
    (x ⟨0, hn⟩ = -1 ∨ 1 / (2 * (n:ℝ) ^ 2) ≤ 1 + x ⟨0, hn⟩) ∧
    (x ⟨n - 1, by omega⟩ = 1 ∨ 1 / (2 * (n:ℝ) ^ 2) ≤ 1 - x ⟨n - 1, by omega⟩) := by
  have hrev : (⟨n - 1, by omega⟩ : Fin n) = (⟨0, hn⟩ : Fin n).rev := by
    apply Fin.ext; simp
  have hsz := validSize_of_getNodes hx
  rcases h with ⟨rfl, hq⟩ | ⟨hnt, rfl⟩
  · simp only [QUAD_TYPES, List.mem_cons, List.not_mem_nil, or_false] at hqt
    have hm : ∀ {qt : String}, qt ∈ QUAD_TYPES → ∀ (_ : ValidSize qt n),
        ∃ y : Fin n → ℝ, getNodes ⟨"LEGENDRE", qt⟩ n = .ok y ∧ StrictMono y ∧
        ((∃ i, y i = -1) ↔ qt = "RADAU-LEFT" ∨ qt = "LOBATTO") ∧
        ((∃ i, y i = 1) ↔ qt = "RADAU-RIGHT" ∨ qt = "LOBATTO") ∧ ∀ i, y i ∈ Set.Icc (-1:ℝ) 1 := by
      intro qt hq hv
      obtain ⟨y, hy, hs, hr, hl, hrr⟩ := getNodes_all (nt := "LEGENDRE") (by decide) hq hv
      exact ⟨y, hy, hs, hl, hrr, hr⟩
    rcases hqt with rfl | rfl | rfl | rfl
    · have g := legendre_gap (Or.inl rfl) x hx
      refine ⟨Or.inr ?_, Or.inr (g _)⟩
      have := C20_symmetric (nt := "LEGENDRE") (qt := "GAUSS") (by decide) (by decide) x hx ⟨0, hn⟩
      have g' := g (⟨0, hn⟩ : Fin n).rev
      rw [this]
      linarith
    · obtain ⟨y, hy, hs, hl, -, hr⟩ := hm (qt := "RADAU-LEFT") (by decide) hsz
      rw [hy] at hx
      cases hx
      refine ⟨Or.inl ?_, Or.inr (legendre_gap (Or.inr rfl) x hy _)⟩
      obtain ⟨i, hi⟩ := hl.mpr (Or.inl rfl)
      refine le_antisymm ?_ (hr _).1
      rw [← hi]
      exact hs.monotone (Fin.mk_le_of_le_val (Nat.zero_le _))
    · obtain ⟨y, hy, hs, -, hrr, hr⟩ := hm (qt := "RADAU-RIGHT") (by decide) hsz
      rw [hy] at hx
      cases hx
      constructor
      · by_cases h2 : 2 ≤ n
        · right
          obtain ⟨z, hz, -⟩ := hm (qt := "RADAU-LEFT") (by decide) ⟨by omega, fun _ => h2⟩
          have g := legendre_gap (Or.inr rfl) z hz
          have := C20_mirror (nt := "LEGENDRE") (qt := "RADAU-LEFT") (nt' := "LEGENDRE")
            (qt' := "RADAU-RIGHT") (by decide) (by decide) (by decide) (by decide) z x hz hy ⟨0, hn⟩
          have g' := g (⟨0, hn⟩ : Fin n).rev
          rw [this]
          linarith
        · right
          obtain rfl : n = 1 := by omega
          obtain ⟨i, hi⟩ := hrr.mpr (Or.inl rfl)
          obtain rfl : i = ⟨0, hn⟩ := Subsingleton.elim _ _
          rw [hi]; norm_num
      · left
        obtain ⟨i, hi⟩ := hrr.mpr (Or.inl rfl)
        refine le_antisymm (hr _).2 ?_
        rw [← hi]
        have := i.isLt
        exact hs.monotone (Fin.mk_le_mk.mpr (by omega))
    · exact absurd rfl hq
  · have g := gauss_gap hnt x hx
    refine ⟨Or.inr ?_, Or.inr (g _)⟩
    have := C20_symmetric (nt := nt) (qt := "GAUSS") (List.mem_cons_of_mem _ hnt) (by decide) x hx
      ⟨0, hn⟩
    have g' := g (⟨0, hn⟩ : Fin n).rev
    rw [this]
    linarith

end QMat
