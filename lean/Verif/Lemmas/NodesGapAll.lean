import Verif.Lemmas.Weyl
import Verif.Lemmas.NodesGap

/-!
# Distances of the nodes from the ends, for all families of orthogonal polynomials
-/

namespace QMat

open Polynomial Spec NodesGenerator Matrix

/-- Eigenvalues increase with the diagonal. -/
theorem tridiagonal_eigenvalues_mono {n : ℕ} {d d' e : ℕ → ℝ} (hd : ∀ k < n, d k ≤ d' k) (i : Fin n) :
    npSort (eighTridiagonal n d e) i ≤ npSort (eighTridiagonal n d' e) i := by
  refine (weyl (tridiagonal_isHermitian n d e) (tridiagonal_isHermitian n d' e) (ε := 0) (fun v => ?_) i).trans_eq (add_zero _)
  have hsub : tridiagonal n d' e = tridiagonal n d e + Matrix.diagonal fun k : Fin n => d' k - d k := by
    ext a b
    simp only [tridiagonal, Matrix.add_apply, Matrix.of_apply, Matrix.diagonal_apply]
    split_ifs <;> ring
  rw [hsub, add_mulVec, dotProduct_add, zero_mul, add_zero, le_add_iff_nonneg_right]
  simp only [dotProduct, Matrix.mulVec_diagonal]
  refine Finset.sum_nonneg fun a _ => ?_
  have := sub_nonneg.2 (hd a a.2)
  nlinarith [mul_nonneg this (mul_self_nonneg (v a))]

theorem lt_radauRight {α β ρ : ℕ → ℝ} (h : RatioBound α β ρ) (m : ℕ) : α m < radauRight α β m := by
  have p1 := h.eval_pos le_rfl m
  have p2 := h.eval_pos le_rfl (m + 1)
  rw [orthPoly_step] at p2
  simp only [eval_sub, eval_mul, eval_X, eval_C] at p2
  rw [radauRight, lt_sub_iff_add_lt, ← lt_sub_iff_add_lt', div_lt_iff₀ p1]
  linarith

/-- Nodes with the right (left) end are to the right (left) of those without. -/
theorem radau_mono {nt : String} (hnt : nt ∈ ORTHO_TYPES) {n : ℕ} {x y : Fin n → ℝ} (hx : getNodes ⟨nt, "GAUSS"⟩ n = .ok x) :
    (getNodes ⟨nt, "RADAU-RIGHT"⟩ n = .ok y → ∀ i, x i ≤ y i) ∧ (getNodes ⟨nt, "RADAU-LEFT"⟩ n = .ok y → ∀ i, y i ≤ x i) := by
  have hv := validSize_of_getNodes hx
  obtain ⟨m, rfl⟩ : ∃ m, n = m + 1 := ⟨n - 1, by have := hv.1; omega⟩
  have hF := family_base hnt
  have spec : ∀ {qt : String} {z : Fin (m + 1) → ℝ}, qt ∈ QUAD_TYPES → getNodes ⟨nt, qt⟩ (m + 1) = .ok z → ∃ a b,
      LastCoeffs (baseAlpha nt) (baseBeta nt) qt m a b ∧ z = npSort (eighTridiagonal (m + 1) (Function.update (baseAlpha nt) m a)
        fun k => √(Function.update (baseBeta nt) m b (k + 1))) := fun {qt z} hqt hz => by
    have hs := validSize_of_getNodes hz
    obtain ⟨z', _, _, hz', -, -, -, -, α, β, htri, hz0⟩ := getNodes_ortho hnt hqt hs
    obtain ⟨a, b, h1, h2, -⟩ := tridiagCoefficients_spec hnt hqt hs
    rw [hz] at hz'
    cases hz'
    rw [h1] at htri
    obtain ⟨rfl, rfl⟩ : _ = α ∧ _ = β := by simpa using htri
    exact ⟨a, b, h2, hz0⟩
  obtain ⟨a, b, hl, rfl⟩ := spec (by decide) hx
  simp only [LastCoeffs, String.reduceEq, true_and, false_and, or_false] at hl
  obtain ⟨rfl, rfl⟩ := hl
  constructor
  · intro hy i
    obtain ⟨a, b, hl, rfl⟩ := spec (by decide) hy
    simp only [LastCoeffs, String.reduceEq, true_and, false_and, or_false, false_or] at hl
    obtain ⟨rfl, rfl⟩ := hl
    refine tridiagonal_eigenvalues_mono (fun k _ => ?_) i
    by_cases hk : k = m
    · subst hk
      rw [Function.update_self, Function.update_self]
      obtain ⟨ρ, hr⟩ := hF.right
      exact (lt_radauRight hr k).le
    · rw [Function.update_of_ne hk, Function.update_of_ne hk]
  · intro hy i
    obtain ⟨a, b, hl, rfl⟩ := spec (by decide) hy
    simp only [LastCoeffs, String.reduceEq, true_and, false_and, or_false, false_or] at hl
    obtain ⟨rfl, rfl⟩ := hl
    refine tridiagonal_eigenvalues_mono (fun k _ => ?_) i
    by_cases hk : k = m
    · subst hk
      rw [Function.update_self, Function.update_self]
      obtain ⟨ρ, hr⟩ := hF.left
      have := (lt_radauRight hr k).le
      rw [radauLeft_neg] at this
      linarith
    · rw [Function.update_of_ne hk, Function.update_of_ne hk]

theorem sin_ge {s : ℝ} (h0 : 0 ≤ s) (h1 : s ≤ Real.pi / 6) : 3 / Real.pi * s ≤ Real.sin s := by
  have hpi := Real.pi_pos
  have hc := strictConcaveOn_sin_Icc.concaveOn
  have ha : 0 ≤ 1 - 6 * s / Real.pi := by rw [sub_nonneg, div_le_one hpi]; linarith
  have hb : 0 ≤ 6 * s / Real.pi := by positivity
  have m0 : (0:ℝ) ∈ Set.Icc 0 Real.pi := ⟨le_rfl, hpi.le⟩
  have m1 : Real.pi / 6 ∈ Set.Icc 0 Real.pi := ⟨by positivity, by linarith⟩
  have h := hc.2 m0 m1 ha hb (by ring)
  simp only [smul_eq_mul, mul_zero, Real.sin_zero, zero_add, Real.sin_pi_div_six] at h
  rw [show 6 * s / Real.pi * (Real.pi / 6) = s by field_simp] at h
  refine le_trans (le_of_eq ?_) h
  field_simp
  ring

theorem cos_gap_third {y : ℝ} (h0 : 0 ≤ y) (h1 : y ≤ Real.pi / 3) : 9 / (2 * Real.pi ^ 2) * y ^ 2 ≤ 1 - Real.cos y := by
  have hpi := Real.pi_pos
  have h := sin_ge (s := y / 2) (by linarith) (by linarith)
  have e : Real.cos y = 1 - 2 * Real.sin (y / 2) ^ 2 := by
    rw [show y = 2 * (y / 2) by ring, Real.cos_two_mul, Real.cos_sq']
    ring_nf
  have h2 := pow_le_pow_left₀ (by positivity) h 2
  have e2 : (3 / Real.pi * (y / 2)) ^ 2 = 9 / (2 * Real.pi ^ 2) * y ^ 2 / 2 := by
    field_simp; ring
  rw [e]
  linarith

/-- Distances of the Chebyshev nodes without end nodes. -/
theorem cheby_gap {nt : String} (hnt : nt ∈ ["CHEBY-1", "CHEBY-2", "CHEBY-3", "CHEBY-4"]) {n : ℕ}
    (x : Fin n → ℝ) (hx : getNodes ⟨nt, "GAUSS"⟩ n = .ok x) (k : Fin n) :
    1 / (2 * (n:ℝ) ^ 2) ≤ 1 - x k ∧ 1 / (2 * (n:ℝ) ^ 2) ≤ 1 + x k := by
  have hk := k.isLt
  have hn : (1:ℝ) ≤ n := by exact_mod_cast (by omega : 1 ≤ n)
  have hk1 : (1:ℝ) ≤ ((n - k : ℕ):ℝ) := by exact_mod_cast (by omega : 1 ≤ n - (k:ℕ))
  have hk2 : ((n - k : ℕ):ℝ) ≤ n := by exact_mod_cast (by omega : n - (k:ℕ) ≤ n)
  have hpi := Real.pi_pos
  have hpi2 : (0:ℝ) < Real.pi ^ 2 := by positivity
  -- angles of at least `π/(2n+1)` and at least `2π/(2n+1)`
  have odd : ∀ {c : ℝ}, 1 ≤ c → c ≤ 2 * n → 1 / (2 * (n:ℝ) ^ 2) ≤ 1 - Real.cos (c * Real.pi / (2 * n + 1)) := fun {c} h1 h2 => by
    by_cases h3 : c * Real.pi / (2 * n + 1) ≤ Real.pi / 3
    · refine le_trans ?_ (cos_gap_third (by positivity) h3)
      have e : 9 / (2 * Real.pi ^ 2) * (c * Real.pi / (2 * n + 1)) ^ 2 = c ^ 2 * (9 / (2 * (2 * n + 1) ^ 2)) := by field_simp
      rw [e]
      refine le_trans ?_ (le_mul_of_one_le_left (by positivity) (by nlinarith : (1:ℝ) ≤ c ^ 2))
      rw [div_le_div_iff₀ (by positivity) (by positivity)]
      nlinarith
    · have h4 : Real.cos (c * Real.pi / (2 * n + 1)) ≤ Real.cos (Real.pi / 3) :=
        Real.cos_le_cos_of_nonneg_of_le_pi (by positivity) (by
          rw [div_le_iff₀ (by positivity), mul_comm]; exact mul_le_mul_of_nonneg_left (by linarith) hpi.le) (not_le.1 h3).le
      rw [Real.cos_pi_div_three] at h4
      have h5 : 1 / (2 * (n:ℝ) ^ 2) ≤ 1 / 2 := by
        apply one_div_le_one_div_of_le (by norm_num)
        nlinarith
      linarith
  simp only [List.mem_cons, List.not_mem_nil, or_false] at hnt
  obtain ⟨x1, x2, x3, x4, hx1, -, hx2, -, hx3, hf3, hx4, hf4⟩ := C17_chebyshev_closed_form (n := n) (by omega)
  have sym : ∀ {nt : String}, nt = "CHEBY-1" ∨ nt = "CHEBY-2" → getNodes ⟨nt, "GAUSS"⟩ n = .ok x →
      1 / (2 * (n:ℝ) ^ 2) ≤ 1 - x k ∧ 1 / (2 * (n:ℝ) ^ 2) ≤ 1 + x k := fun {nt} hnt hx => by
    have g := gauss_gap (nt := nt) (by rcases hnt with rfl | rfl <;> decide) x hx
    refine ⟨g k, ?_⟩
    have h1 := C20_symmetric (nt := nt) (qt := "GAUSS") (by rcases hnt with rfl | rfl <;> decide) (by decide) x hx k
    have h2 := g k.rev
    rw [h1]
    linarith
  set j : ℝ := ((n - k : ℕ):ℝ) with hj
  rcases hnt with rfl | rfl | rfl | rfl
  · exact sym (Or.inl rfl) hx
  · exact sym (Or.inr rfl) hx
  · rw [hx3] at hx
    cases hx
    rw [hf3, ← hj]
    refine ⟨odd (by linarith) (by linarith), ?_⟩
    have h1 := odd (c := 2 * n + 1 - (2 * j - 1)) (by linarith) (by linarith)
    rw [show (2 * n + 1 - (2 * j - 1)) * Real.pi / (2 * n + 1) = Real.pi - (2 * j - 1) * Real.pi / (2 * n + 1) by
      field_simp, Real.cos_pi_sub] at h1
    linarith
  · rw [hx4] at hx
    cases hx
    rw [hf4, ← hj]
    refine ⟨odd (by linarith) (by linarith), ?_⟩
    have h1 := odd (c := 2 * n + 1 - 2 * j) (by linarith) (by linarith)
    rw [show (2 * n + 1 - 2 * j) * Real.pi / (2 * n + 1) = Real.pi - 2 * j * Real.pi / (2 * n + 1) by
      field_simp, Real.cos_pi_sub] at h1
    linarith

/-- Distances of the end nodes from the ends. -/
theorem nodes_gap_all {nt qt : String} (hnt : nt ∈ ORTHO_TYPES) (hqt : qt ∈ QUAD_TYPES) {n : ℕ}
    (x : Fin n → ℝ) (hx : getNodes ⟨nt, qt⟩ n = .ok x) (hn : 0 < n) :
    (x ⟨0, hn⟩ = -1 ∨ 1 / (2 * (n:ℝ) ^ 2) ≤ 1 + x ⟨0, hn⟩) ∧
    (x ⟨n - 1, by omega⟩ = 1 ∨ 1 / (2 * (n:ℝ) ^ 2) ≤ 1 - x ⟨n - 1, by omega⟩) := by
  have hnt' : nt ∈ NODE_TYPES := List.mem_of_mem_tail (by exact hnt)
  obtain ⟨y, hy, hs, hr, hl, hrr⟩ := getNodes_all hnt' hqt (validSize_of_getNodes hx)
  rw [hx] at hy
  cases hy
  have left : qt = "RADAU-LEFT" ∨ qt = "LOBATTO" → x ⟨0, hn⟩ = -1 := fun h => by
    obtain ⟨k, hk⟩ := hl.mpr h
    refine le_antisymm ?_ (hr _).1
    rw [← hk]
    exact hs.monotone (Fin.mk_le_of_le_val (Nat.zero_le _))
  have right : qt = "RADAU-RIGHT" ∨ qt = "LOBATTO" → x ⟨n - 1, by omega⟩ = 1 := fun h => by
    obtain ⟨k, hk⟩ := hrr.mpr h
    refine le_antisymm (hr _).2 ?_
    rw [← hk]
    exact hs.monotone (Fin.le_def.2 (by simp; omega))
  have gauss : ∃ z : Fin n → ℝ, getNodes ⟨nt, "GAUSS"⟩ n = .ok z ∧
      1 / (2 * (n:ℝ) ^ 2) ≤ 1 + z ⟨0, hn⟩ ∧ 1 / (2 * (n:ℝ) ^ 2) ≤ 1 - z ⟨n - 1, by omega⟩ := by
    obtain ⟨z, hz, -⟩ := getNodes_all hnt' (qt := "GAUSS") (by decide) (n := n) ⟨hn, fun h => absurd h (by decide)⟩
    refine ⟨z, hz, ?_⟩
    by_cases hL : nt = "LEGENDRE"
    · subst hL
      have g := legendre_gap (Or.inl rfl) z hz
      refine ⟨?_, g _⟩
      have := C20_symmetric (nt := "LEGENDRE") (qt := "GAUSS") (by decide) (by decide) z hz ⟨0, hn⟩
      have g' := g (⟨0, hn⟩ : Fin n).rev
      rw [this]
      linarith
    · have h4 : nt ∈ ["CHEBY-1", "CHEBY-2", "CHEBY-3", "CHEBY-4"] := by
        simp only [ORTHO_TYPES, List.mem_cons, List.not_mem_nil, or_false] at hnt ⊢
        tauto
      exact ⟨(cheby_gap h4 z hz _).2, (cheby_gap h4 z hz _).1⟩
  obtain ⟨z, hz, g1, g2⟩ := gauss
  simp only [QUAD_TYPES, List.mem_cons, List.not_mem_nil, or_false] at hqt
  rcases hqt with rfl | rfl | rfl | rfl
  · rw [hz] at hx
    cases hx
    exact ⟨Or.inr g1, Or.inr g2⟩
  · have h := (radau_mono hnt hz (y := x)).2 hx ⟨n - 1, by omega⟩
    exact ⟨Or.inl (left (Or.inl rfl)), Or.inr (by linarith)⟩
  · have h := (radau_mono hnt hz (y := x)).1 hx ⟨0, hn⟩
    exact ⟨Or.inr (by linarith), Or.inl (right (Or.inl rfl))⟩
  · exact ⟨Or.inl (left (Or.inr rfl)), Or.inl (right (Or.inr rfl))⟩

end QMat
