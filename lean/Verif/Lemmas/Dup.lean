import Verif.Lemmas.Deriv

/-!
# Lemmas on duplicated points
-/

namespace QMat

open Matrix Polynomial LagrangeApproximation

theorem exists_cast_npUnique {n m : ℕ} (points : Fin n → ℝ) (q : Fin m → ℝ) (hq : StrictMono q)
    (hr : Set.range q = Set.range points) :
    ∃ h : m = npUniqueSize points, ∀ u, q u = npUnique points (Fin.cast h u) := by
  have himg : Finset.univ.image q = Finset.univ.image points := by
    rw [← Finset.coe_inj]
    simpa using hr
  have hcard : npUniqueSize points = m := by
    unfold npUniqueSize
    rw [← himg, Finset.card_image_of_injective _ hq.injective, Finset.card_fin]
  refine ⟨hcard.symm, fun u => ?_⟩
  have hcard' : (Finset.univ.image points).card = m := hcard
  have := Finset.orderEmbOfFin_unique hcard' (f := q)
    (fun x => by rw [← himg]; exact Finset.mem_image_of_mem _ (Finset.mem_univ x)) hq
  conv_lhs => rw [this]
  unfold npUnique
  simp only [Finset.orderEmbOfFin_apply]
  rfl

theorem mem_range_npUniqueFirst {n : ℕ} (points : Fin n → ℝ) (j : Fin n) :
    j ∈ Set.range (npUniqueFirst points) ↔ ¬ ∃ j' < j, points j' = points j := by
  constructor
  · rintro ⟨u, rfl⟩ ⟨j', hlt, he⟩
    rw [points_npUniqueFirst points] at he
    exact absurd (Finset.min'_le (Finset.univ.filter fun i => points i = npUnique points u) j'
      (by simpa using he)) (not_le.mpr hlt)
  · intro h
    refine ⟨npUniqueInverse points j, le_antisymm ?_ ?_⟩
    · exact Finset.min'_le _ j (by simp [npUnique_inverse])
    · by_contra hlt
      exact h ⟨_, not_le.mp hlt, by rw [points_npUniqueFirst points, npUnique_inverse]⟩

theorem mem_range_npUniqueLast {n : ℕ} (points : Fin n → ℝ) (j : Fin n) :
    j ∈ Set.range (npUniqueLast points) ↔ ¬ ∃ j', j < j' ∧ points j' = points j := by
  constructor
  · rintro ⟨u, rfl⟩ ⟨j', hlt, he⟩
    rw [points_npUniqueLast points] at he
    exact absurd (Finset.le_max' (Finset.univ.filter fun i => points i = npUnique points u) j'
      (by simpa using he)) (not_le.mpr hlt)
  · intro h
    refine ⟨npUniqueInverse points j, le_antisymm ?_ ?_⟩
    · by_contra hlt
      exact h ⟨_, not_le.mp hlt, by rw [points_npUniqueLast points, npUnique_inverse]⟩
    · exact Finset.le_max' _ j (by simp [npUnique_inverse])

/-- Column structure with duplicates: which columns are zero, and the value of the others. -/
theorem dup_columns {n m : ℕ} {points : Fin n → ℝ} (hdup : ¬ Function.Injective points)
    {q : Fin m → ℝ} (hq : StrictMono q) (hr : Set.range q = Set.range points) {dupl : String}
    {L : LagrangeApproximation n} (hS : NewSpec points dupl L) :
    ∃ h : m = L.nUniquePoints, (∀ u, q u = L.uniquePoints (Fin.cast h u)) ∧
      ∀ {r : ℕ} (M : Matrix (Fin r) (Fin L.nUniquePoints) ℝ) (i : Fin r) (j : Fin n) (u : Fin m),
        points j = q u →
        (dupl = "USE_LEFT" → ((∃ j' < j, points j' = points j) → L.handleDuplicates M i j = 0) ∧
          ((¬ ∃ j' < j, points j' = points j) →
            L.handleDuplicates M i j = M i (Fin.cast h u))) ∧
        (dupl = "USE_RIGHT" →
          ((∃ j', j < j' ∧ points j' = points j) → L.handleDuplicates M i j = 0) ∧
          ((¬ ∃ j', j < j' ∧ points j' = points j) →
            L.handleDuplicates M i j = M i (Fin.cast h u))) := by
  obtain ⟨h1, hu1⟩ := exists_cast_npUnique points q hq hr
  obtain ⟨h2, hu2, hd⟩ := hS.dup hdup
  have h : m = L.nUniquePoints := h1.trans h2.symm
  have hqu : ∀ u, q u = L.uniquePoints (Fin.cast h u) := fun u => by
    rw [hu1, ← hu2]; simp
  refine ⟨h, hqu, ?_⟩
  intro r M i j u hju
  have repeq : ∀ rep : Fin (npUniqueSize points) → Fin n,
      (∀ v, points (rep v) = npUnique points v) →
      L.DupSpec (fun u => rep (Fin.cast h2 u)) →
      (j ∈ Set.range rep → L.handleDuplicates M i j = M i (Fin.cast h u)) ∧
      (j ∉ Set.range rep → L.handleDuplicates M i j = 0) := by
    intro rep hrep hD
    constructor
    · rintro ⟨v, rfl⟩
      have hv : v = Fin.cast h1 u := (npUnique_strictMono points).injective (by
        rw [← hrep, hju, hu1])
      have := hD.entry_rep M i (Fin.cast h2.symm v)
      simp only [Fin.cast_cast, Fin.cast_eq_self] at this
      rw [this, hv]
      simp
    · intro hj
      refine hD.entry_zero M i j ?_
      rintro ⟨v, rfl⟩
      exact hj ⟨_, rfl⟩
  constructor
  · intro hl
    have hD := (hd.resolve_right (fun hh => by rw [hl] at hh; simp at hh)).2
    have := repeq _ (points_npUniqueFirst points) hD
    rw [mem_range_npUniqueFirst] at this
    exact ⟨fun hh => this.2 (not_not.mpr hh), this.1⟩
  · intro hl
    have hD := (hd.resolve_left (fun hh => by rw [hl] at hh; simp at hh)).2
    have := repeq _ (points_npUniqueLast points) hD
    rw [mem_range_npUniqueLast] at this
    exact ⟨fun hh => this.2 (not_not.mpr hh), this.1⟩

/-- The Lagrange basis only depends on the points, not on how `Fin m` is presented. -/
theorem basis_cast {m m' : ℕ} (h : m = m') (x : Fin m → ℝ) (x' : Fin m' → ℝ)
    (hx : ∀ u, x u = x' (Fin.cast h u)) (u : Fin m) :
    Lagrange.basis Finset.univ x u = Lagrange.basis Finset.univ x' (Fin.cast h u) := by
  subst h
  have : x = x' := funext fun u => hx u
  subst this
  rfl

end QMat
