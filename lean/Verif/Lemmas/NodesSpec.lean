import Verif.Lemmas.Nodes

/-!
# Specification of `getNodes` for the orthogonal-polynomial families
-/

namespace QMat

open Polynomial Spec NodesGenerator

/-- The request is accepted by the size checks of `getNodes`. -/
def ValidSize (qt : String) (n : ℕ) : Prop :=
  1 ≤ n ∧ (qt = "LOBATTO" ∨ qt = "RADAU-LEFT" → 2 ≤ n)

/-- Last coefficients computed by `getTridiagCoefficients`. -/
def LastCoeffs (α β : ℕ → ℝ) (qt : String) (m : ℕ) (a b : ℝ) : Prop :=
  (qt = "GAUSS" ∧ a = α m ∧ b = β m) ∨ (qt = "RADAU-RIGHT" ∧ a = radauRight α β m ∧ b = β m) ∨
  (qt = "RADAU-LEFT" ∧ a = radauLeft α β m ∧ b = β m) ∨ (qt = "LOBATTO" ∧ 0 < m ∧ 0 < b)

theorem tridiagCoefficients_spec {nt qt : String} (hnt : nt ∈ ORTHO_TYPES) (hqt : qt ∈ QUAD_TYPES)
    {m : ℕ} (hn : ValidSize qt (m + 1)) :
    ∃ a b, getTridiagCoefficients ⟨nt, qt⟩ (m + 1) =
        .ok (Function.update (baseAlpha nt) m a, Function.update (baseBeta nt) m b) ∧
      LastCoeffs (baseAlpha nt) (baseBeta nt) qt m a b ∧
      LastSpec (baseAlpha nt) (baseBeta nt) m a b (qt = "LOBATTO" ∨ qt = "RADAU-LEFT")
        (qt = "LOBATTO" ∨ qt = "RADAU-RIGHT") := by
  have hF := family_base hnt
  have hc := getOrthogPolyCoefficients_eq qt hnt (n := m + 1) (by omega)
  obtain ⟨ρ, hr⟩ := hF.right
  obtain ⟨ρ', hl⟩ := hF.left
  simp only [QUAD_TYPES, List.mem_cons, List.not_mem_nil, or_false] at hqt
  set α := baseAlpha nt
  set β := baseBeta nt
  unfold getTridiagCoefficients
  rw [hc]
  simp only [bind, Except.bind, pure, Except.pure, evalOrthogPoly_prev, Nat.add_sub_cancel]
  rcases hqt with rfl | rfl | rfl | rfl
  · refine ⟨α m, β m, ?_, Or.inl ⟨rfl, rfl, rfl⟩, ?_⟩
    · simp [show pyStartsWith "GAUSS" "RADAU" = false by decide]
    · simpa using hF.gauss m
  · refine ⟨radauLeft α β m, β m, ?_, Or.inr (Or.inr (Or.inl ⟨rfl, rfl, rfl⟩)), ?_⟩
    · have h0 : (orthPoly α β m).eval (-1) ≠ 0 := by
        have := hl.eval_pos le_rfl m
        rw [eval_orthPoly_neg] at this
        exact neg_pow_mul_pos_ne this
      simp [h0, radauLeft, show pyStartsWith "RADAU-LEFT" "RADAU" = true by decide,
        show pyEndsWith "RADAU-LEFT" "LEFT" = true by decide]
    · simpa using hF.radauLeft m
  · refine ⟨radauRight α β m, β m, ?_, Or.inr (Or.inl ⟨rfl, rfl, rfl⟩), ?_⟩
    · have h0 : (orthPoly α β m).eval 1 ≠ 0 := (hr.eval_pos le_rfl m).ne'
      simp [h0, radauRight, show pyStartsWith "RADAU-RIGHT" "RADAU" = true by decide,
        show pyEndsWith "RADAU-RIGHT" "LEFT" = false by decide]
    · simpa using hF.radauRight m
  · have hm : 0 < m := by have := hn.2 (Or.inl rfl); omega
    obtain ⟨a, b, hs, hb, hL⟩ := hF.lobatto hm
    refine ⟨a, b, ?_, Or.inr (Or.inr (Or.inr ⟨rfl, hm, hb⟩)), ?_⟩
    · rw [hs]; simp [show pyStartsWith "LOBATTO" "RADAU" = false by decide]
    · simpa using hL

/-- What `getNodes` returns for the orthogonal-polynomial families. -/
theorem getNodes_ortho {nt qt : String} (hnt : nt ∈ ORTHO_TYPES) (hqt : qt ∈ QUAD_TYPES)
    {m : ℕ} (hn : ValidSize qt (m + 1)) :
    ∃ (x : Fin (m + 1) → ℝ) (a b : ℝ), getNodes ⟨nt, qt⟩ (m + 1) = .ok x ∧ StrictMono x ∧
      Lagrange.nodal Finset.univ x = lastPoly (baseAlpha nt) (baseBeta nt) m a b ∧
      LastCoeffs (baseAlpha nt) (baseBeta nt) qt m a b ∧
      LastSpec (baseAlpha nt) (baseBeta nt) m a b (qt = "LOBATTO" ∨ qt = "RADAU-LEFT")
        (qt = "LOBATTO" ∨ qt = "RADAU-RIGHT") ∧
      ∃ α' β', getTridiagCoefficients ⟨nt, qt⟩ (m + 1) = .ok (α', β') ∧
        x = npSort (eighTridiagonal (m + 1) α' fun k => Real.sqrt (β' (k + 1))) := by
  have hF := family_base hnt
  obtain ⟨ρ, hr⟩ := hF.right
  obtain ⟨a, b, htri, hlast, hspec⟩ := tridiagCoefficients_spec hnt hqt hn
  set α := baseAlpha nt
  set β := baseBeta nt
  set α' := Function.update α m a with hα'
  set β' := Function.update β m b with hβ'
  have hβpos : ∀ k, 1 ≤ k → k < m + 1 → 0 < β' k := by
    intro k h1 hk
    by_cases hkm : k = m
    · subst hkm
      rw [hβ', Function.update_self]
      rcases hlast with ⟨-, -, rfl⟩ | ⟨-, -, rfl⟩ | ⟨-, -, rfl⟩ | ⟨-, -, h⟩
      · exact hr.beta _ h1
      · exact hr.beta _ h1
      · exact hr.beta _ h1
      · exact h
    · rw [hβ', Function.update_of_ne hkm]; exact hr.beta _ h1
  obtain ⟨hs, hnod⟩ := jacobi_nodes (n := m + 1) (α := α') hβpos
  rw [hα', hβ', orthPoly_update, ← lastPoly, ← hα', ← hβ'] at hnod
  set x := npSort (eighTridiagonal (m + 1) α' fun k => Real.sqrt (β' (k + 1))) with hx
  have hroot : ∀ i, (lastPoly α β m a b).eval (x i) = 0 := fun i => by
    rw [← hnod]; exact (eval_nodal_eq_zero_iff x _).mpr ⟨i, rfl⟩
  have hle : ∀ i, x i ≤ 1 := fun i => by
    by_contra h
    exact (hspec.right _ (not_le.mp h)).ne' (hroot i)
  have hge : ∀ i, -1 ≤ x i := fun i => by
    by_contra h
    have := hspec.left (-x i) (by linarith)
    rw [neg_neg, hroot i, mul_zero] at this
    exact lt_irrefl _ this
  have hlastx : (qt = "LOBATTO" ∨ qt = "RADAU-RIGHT") → x (Fin.last m) = 1 := fun h => by
    have h1 := hspec.atRight.mpr h
    rw [← hnod] at h1
    obtain ⟨i, hi⟩ := (eval_nodal_eq_zero_iff x _).mp h1
    have := hs.monotone (Fin.le_last i)
    exact le_antisymm (hle _) (by rw [hi] at this; exact this)
  have hfirstx : (qt = "LOBATTO" ∨ qt = "RADAU-LEFT") → x 0 = -1 := fun h => by
    have h1 := hspec.atLeft.mpr h
    rw [← hnod] at h1
    obtain ⟨i, hi⟩ := (eval_nodal_eq_zero_iff x _).mp h1
    have := hs.monotone (Fin.zero_le i)
    exact le_antisymm (by rw [hi] at this; exact this) (hge _)
  have hneq : ¬ nt = "EQUID" := by
    rintro rfl
    revert hnt; decide
  have c1 : ¬ ((qt = "LOBATTO" ∨ qt = "RADAU-LEFT") ∧ m + 1 < 2) := fun h => by
    have := hn.2 h.1; omega
  refine ⟨x, a, b, ?_, hs, hnod, hlast, hspec, α', β', htri, hx⟩
  unfold getNodes
  rw [if_neg c1, dif_neg (by omega)]
  simp only [hneq, false_and, if_false, htri, bind, Except.bind, pure, Except.pure]
  rw [if_neg]
  · congr 1
    rw [← hx]
    have e1 : (if qt = "LOBATTO" ∨ qt = "RADAU-RIGHT" then
        Function.update x ⟨m + 1 - 1, by omega⟩ 1 else x) = x := by
      split_ifs with h
      · have := hlastx h
        rw [← this]
        exact Function.update_eq_self (Fin.last m) x
      · rfl
    rw [e1]
    split_ifs with h
    · have := hfirstx h
      rw [← this]
      exact Function.update_eq_self 0 x
    · rfl
  · rintro ⟨k, h1, hk, hlt⟩
    exact absurd (hβpos k h1 hk) (not_lt.mpr hlt.le)

end QMat
