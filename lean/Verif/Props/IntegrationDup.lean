import Verif.Props.Integration

/-!
# Columns of integration matrices with duplicated points (C09)
-/

namespace QMat

open Matrix Polynomial LagrangeApproximation

/-- C09 (integration, columns in use): the column of the copy in use is the one of the approximation built on the sorted
distinct points, whatever the options and the rules. -/
theorem C09_duplicates_integration_kept {n m r : ℕ} (points : Fin n → ℝ)
    (hdup : ¬ Function.Injective points)
    (q : Fin m → ℝ) (hq : StrictMono q) (hr : Set.range q = Set.range points)
    (wc wc' : String) (sw sw' : Bool) (sr sr' dupl dupl' : String) (fv fv')
    (hcheb : wc = "CHEBFUN" ∨ wc' = "CHEBFUN" → 2 ≤ m)
    (L : LagrangeApproximation n) (hL : LagrangeApproximation.new points wc sw sr dupl fv = .ok L)
    (L' : LagrangeApproximation m) (hL' : LagrangeApproximation.new q wc' sw' sr' dupl' fv' = .ok L')
    (ext : ExternalQuad) (hext : ext.Exact) (numQuad numQuad' : String)
    (hnq : numQuad ∈ ["LEGENDRE_NUMPY", "LEGENDRE_SCIPY", "FEJER"])
    (hnq' : numQuad' ∈ ["LEGENDRE_NUMPY", "LEGENDRE_SCIPY", "FEJER"])
    (intervals : Fin r → ℝ × ℝ) :
    ∃ Q Q', L.getIntegrationMatrix ext intervals numQuad = .ok Q ∧ L'.getIntegrationMatrix ext intervals numQuad' = .ok Q' ∧
      ∀ (i : Fin r) (j : Fin n) (u : Fin m), points j = q u →
        (dupl = "USE_LEFT" → (¬ ∃ j' < j, points j' = points j) → Q i j = Q' i u) ∧
        (dupl = "USE_RIGHT" → (¬ ∃ j', j < j' ∧ points j' = points j) → Q i j = Q' i u) := by
  have hcard : Nat.card (Set.range points) = m := by
    rw [← hr, Nat.card_range_of_injective hq.injective, Nat.card_fin]
  have hm : 0 < m := by
    rcases Nat.eq_zero_or_pos m with rfl | h
    · exfalso
      apply hdup
      have he : Set.range points = ∅ := by rw [← hr]; exact Set.range_eq_empty q
      have : IsEmpty (Fin n) := Set.range_eq_empty_iff.1 he
      exact Function.injective_of_subsingleton points
    · exact h
  obtain ⟨Q, hQ, hex⟩ := C09_duplicates_integration_exact points hdup hcard wc sw sr dupl fv (fun h => hcheb (Or.inl h)) L hL ext numQuad
    hnq (fun _ => hext) intervals
  obtain ⟨Q', hQ', hex'⟩ := C04_integration_exact q hq hm wc' sw' sr' dupl' fv' (fun h => hcheb (Or.inr h)) L' hL' ext numQuad'
    hnq' (fun _ => hext) intervals
  refine ⟨Q, Q', hQ, hQ', fun i j u hju => ?_⟩
  set p := Lagrange.basis Finset.univ q u with hp
  have hdeg : p.degree < m := by
    rw [hp, Lagrange.degree_basis (hq.injective.injOn) (Finset.mem_univ u), Finset.card_univ, Fintype.card_fin]
    exact_mod_cast Nat.sub_lt hm one_pos
  have hpu : p.eval (q u) = 1 := Lagrange.eval_basis_self hq.injective.injOn (Finset.mem_univ u)
  have hpo : ∀ k, points k ≠ points j → p.eval (points k) = 0 := by
    intro k hk
    have : points k ∈ Set.range q := by rw [hr]; exact ⟨k, rfl⟩
    obtain ⟨v, hv⟩ := this
    rw [← hv]
    exact Lagrange.eval_basis_of_ne (fun e => hk (by rw [← hv, ← e, hju])) (Finset.mem_univ v)
  have h' : Q' i u = ∫ t in (intervals i).1..(intervals i).2, p.eval t := by
    rw [← hex' p hdeg i]
    have : (Q' *ᵥ Spec.vals p q) i = ∑ v, Q' i v * p.eval (q v) := rfl
    rw [this, Finset.sum_eq_single u (fun v _ hv => by
      rw [hp, Lagrange.eval_basis_of_ne (Ne.symm hv) (Finset.mem_univ v), mul_zero]) (by simp), hpu, mul_one]
  have h : (∀ k, k ≠ j → points k = points j → Q i k = 0) → Q i j = Q' i u := by
    intro hz
    rw [h', ← hex p hdeg i]
    have : (Q *ᵥ Spec.vals p points) i = ∑ k, Q i k * p.eval (points k) := rfl
    rw [this, Finset.sum_eq_single j (fun k _ hk => by
      by_cases e : points k = points j
      · rw [hz k hk e, zero_mul]
      · rw [hpo k e, mul_zero]) (by simp), hju, hpu, mul_one]
  constructor
  · intro hd hfirst
    refine h fun k hk he => ?_
    have hjk : j < k := lt_of_le_of_ne (not_lt.1 fun hlt => hfirst ⟨k, hlt, he⟩) hk.symm
    exact (C09_duplicates_integration_columns points wc sw sr dupl fv L hL ext numQuad intervals Q hQ k).1 hd ⟨j, hjk, he.symm⟩ i
  · intro hd hlast
    refine h fun k hk he => ?_
    have hkj : k < j := lt_of_le_of_ne (not_lt.1 fun hlt => hlast ⟨k, hlt, he⟩) hk
    exact (C09_duplicates_integration_columns points wc sw sr dupl fv L hL ext numQuad intervals Q hQ k).2 hd ⟨j, hkj, he.symm⟩ i

/-- Instance: the points `[1, 0, 1]`; the first column is the one of the point `1` among `[0, 1]`. -/
example (ext : ExternalQuad) (hext : ext.Exact) : ∃ L L' Q Q', LagrangeApproximation.new ![(1:ℝ), 0, 1] = .ok L ∧
    LagrangeApproximation.new ![(0:ℝ), 1] = .ok L' ∧ L.getIntegrationMatrix ext ![((0:ℝ), (2:ℝ))] "FEJER" = .ok Q ∧
    L'.getIntegrationMatrix ext ![((0:ℝ), (2:ℝ))] "FEJER" = .ok Q' ∧ Q 0 0 = Q' 0 1 := by
  obtain ⟨L, hL⟩ := C01_constructor_total (by norm_num) ![(1:ℝ), 0, 1] "AUTO" false "MAX" "USE_LEFT"
    ⟨by decide, by decide, by decide, by decide⟩
  obtain ⟨L', hL'⟩ := C01_constructor_total (by norm_num) ![(0:ℝ), 1] "AUTO" false "MAX" "USE_LEFT"
    ⟨by decide, by decide, by decide, by decide⟩
  have hdup : ¬ Function.Injective ![(1:ℝ), 0, 1] := fun h => by
    have : (0 : Fin 3) = 2 := h rfl
    simp at this
  obtain ⟨Q, Q', hQ, hQ', h⟩ := C09_duplicates_integration_kept _ hdup ![(0:ℝ), 1]
    (Fin.strictMono_iff_lt_succ.mpr fun i => by fin_cases i; simp) (by
      ext x
      simp only [Matrix.range_cons, Matrix.range_empty, Set.mem_union, Set.mem_singleton_iff, Set.mem_empty_iff_false]
      tauto) _ _ _ _ _ _ _ _ _ _ (by simp) L hL L' hL' ext hext "FEJER" "FEJER" (by decide) (by decide) ![((0:ℝ), (2:ℝ))]
  exact ⟨L, L', Q, Q', hL, hL', hQ, hQ', (h 0 0 1 rfl).1 rfl (by simp)⟩
end QMat
