import Verif.Lemmas.SDCTables

/-!
# What the computations of `SDCTables` prove
-/

namespace QMat

open Matrix Polynomial Spec NodesGenerator

namespace SDCArith

variable {M : ℕ}

theorem separated_lt {ms : List ℕ} (h : separated ms = true) {i j : ℕ} (hij : i < j) (hj : j < ms.length) :
    ms.getD i 0 + 2 * nodeRad < ms.getD j 0 := by
  induction ms generalizing i j with
  | nil => simp at hj
  | cons a l ih =>
    cases l with
    | nil => simp at hj; omega
    | cons b l =>
      simp only [separated, Bool.and_eq_true, decide_eq_true_eq] at h
      obtain ⟨j, rfl⟩ : ∃ k, j = k + 1 := ⟨j - 1, by omega⟩
      simp only [List.getD_cons_succ]
      have hj' : j < (b :: l).length := by simpa using hj
      cases i with
      | succ i =>
        simp only [List.getD_cons_succ]
        exact ih h.2 (by omega) hj'
      | zero =>
        simp only [List.getD_cons_zero]
        rcases Nat.eq_zero_or_pos j with rfl | h0
        · simpa using h.1
        · have := ih h.2 h0 hj'
          simp only [List.getD_cons_zero] at this
          omega

theorem S_eq : (Ball.S : ℝ) = 1152921504606846976 := by norm_num [Ball.S]

/-- Enclosure of the nodes on `[-1, 1]`. -/
theorem ortho_enclosed {nt qt : String} (hnt : nt ∈ ORTHO_TYPES) {ms : List ℕ} (hlen : ms.length = M)
    (hok : orthoOk nt qt ms = true) {x : Fin M → ℝ} (hx : getNodes ⟨nt, qt⟩ M = .ok x)
    (hqt : qt ∈ QUAD_TYPES) :
    (∀ i, |(x i + 1) / 2 * Ball.S - (ms.getD i 0 : ℕ)| ≤ nodeRad) ∧
    Lagrange.nodal Finset.univ x = lastPoly (baseAlpha nt) (baseBeta nt) (M - 1) (lastQ nt qt (M - 1)).1
      (lastQ nt qt (M - 1)).2 ∧ StrictMono x := by
  have hv := validSize_of_getNodes hx
  obtain ⟨m, rfl⟩ : ∃ m, M = m + 1 := ⟨M - 1, by have := hv.1; omega⟩
  obtain ⟨x', a, b, hx', hs, hnod, hlast, hspec, -⟩ := getNodes_ortho hnt hqt hv
  rw [hx] at hx'
  cases hx'
  simp only [orthoOk, hlen, Nat.add_sub_cancel, Bool.and_eq_true, Bool.or_eq_true, decide_eq_true_eq,
    List.all_eq_true] at hok
  obtain ⟨⟨⟨⟨h1, h2⟩, h3⟩, -⟩, -⟩ := hok
  have hP := lastPoly_eq hnt hlast hspec fun h => h1.resolve_left (by simp [h])
  rw [hP] at hnod
  rw [Nat.add_sub_cancel]
  refine ⟨fun i => ?_, hnod, hs⟩
  have hS : (0:ℝ) < Ball.S := Ball.S_pos
  have hSq : (Ball.S : ℚ) ≠ 0 := by norm_num [Ball.S]
  have hcast : ∀ k : ℤ, ((toRef k : ℚ) : ℝ) = 2 * k / Ball.S - 1 := fun k => by
    unfold toRef
    push_cast
    rfl
  have hmono : ∀ {a b : ℤ}, a < b → ((toRef a : ℚ) : ℝ) < ((toRef b : ℚ) : ℝ) := by
    intro a b hab
    rw [hcast, hcast]
    have : (a:ℝ) < b := by exact_mod_cast hab
    have := div_lt_div_of_pos_right (mul_lt_mul_of_pos_left this two_pos) hS
    linarith
  have key := roots_enclosed hs hnod
    (l := fun i => ((toRef ((ms.getD i 0 : ℕ) - nodeRad) : ℚ) : ℝ))
    (r := fun i => ((toRef ((ms.getD i 0 : ℕ) + nodeRad) : ℚ) : ℝ))
    (fun i => (hmono (by unfold nodeRad; omega)).le)
    (fun i j hij => by
      have := separated_lt h3 (Fin.lt_def.mp hij) (by rw [hlen]; exact j.2)
      refine hmono ?_
      push_cast
      omega)
    (fun i => by
      have hi : (i:ℕ) < ms.length := by rw [hlen]; exact i.2
      have hm : ms.getD i 0 ∈ ms := by
        rw [List.getD_eq_getElem?_getD, List.getElem?_eq_getElem hi]
        exact List.getElem_mem hi
      have := h2 _ hm
      rw [← evalLast_cast, ← evalLast_cast]
      exact_mod_cast this) i
  rw [hcast, hcast] at key
  push_cast at key
  rw [abs_le]
  have e1 : 2 * (((ms.getD i 0 : ℕ) : ℝ) - nodeRad) ≤ (x i + 1) * Ball.S := by
    have := key.1
    rw [sub_le_iff_le_add, div_le_iff₀ hS] at this
    exact this
  have e2 : (x i + 1) * Ball.S ≤ 2 * (((ms.getD i 0 : ℕ) : ℝ) + nodeRad) := by
    have := key.2
    rw [le_sub_iff_add_le, le_div_iff₀ hS] at this
    exact this
  constructor <;> linarith

/-- The nodes of a collocation are in the balls of the table. -/
theorem nodes_enclosed {nt qt : String} (c : Collocation M) (hc : Collocation.new M nt qt 0 1 = .ok c)
    {ms : List ℕ} (hlen : ms.length = M) (he : (nt, qt, ms) ∈ nodeTable) :
    VRel Ball.Rel M (nodeBalls ms) c.nodes ∧
    ∃ x, getNodes ⟨nt, qt⟩ M = .ok x ∧ ∀ i, c.nodes i = (x i + 1) / 2 := by
  have hok := List.all_eq_true.mp nodeTable_ok _ he
  obtain ⟨x, hM0, h⟩ := collocation_spec hc
  have hS := S_eq
  simp only [nodesOk] at hok
  have hfin : (∀ i, |c.nodes i * Ball.S - (ms.getD i 0 : ℕ)| ≤ nodeRad) →
      VRel Ball.Rel M (nodeBalls ms) c.nodes := by
    intro h
    refine ⟨by simp [nodeBalls, hlen], fun i a ha => ?_⟩
    rw [nodeBalls, List.getElem?_map, Option.map_eq_some_iff] at ha
    obtain ⟨m, hm, rfl⟩ := ha
    rintro _ ⟨rfl⟩
    have := h i
    rw [List.getD_eq_getElem?_getD, hm] at this
    simpa [Ball.Mem] using this
  split_ifs at hok with hE
  · subst hE
    have hM4 : ms.length ≤ 158 := by
      have : nodeTable.all (fun e => decide (e.2.2.length ≤ 158)) = true := by decide +kernel
      simpa using List.all_eq_true.mp this _ he
    have hx := SDCRat.equid_nodes (by omega) c hc
    have hv := validSize_of_getNodes h.getNodes
    refine ⟨hfin fun i => ?_, _, getNodes_equid h.hqt hv, fun i => ?_⟩
    · simp only [equidOk, List.all_eq_true, List.mem_range, decide_eq_true_eq] at hok
      have := hok i (by rw [hlen]; exact i.2)
      rw [hlen] at this
      rw [hx, SDCRat.vec]
      exact_mod_cast this
    · have hN : (0:ℝ) < equidIntervals qt M := by exact_mod_cast equidIntervals_pos hv
      rw [hx, SDCRat.vec, SDCRat.equid]
      simp only [List.getD_eq_getElem?_getD, List.getElem?_map, List.getElem?_range i.2, Option.map_some,
        Option.getD_some]
      push_cast
      field_simp
      ring
  · have hnt : nt ∈ ORTHO_TYPES := by
      have := h.hnt
      simp only [NODE_TYPES, List.mem_cons] at this
      rcases this with h | h
      · exact absurd h hE
      · simpa [ORTHO_TYPES] using h
    obtain ⟨hb, -, -⟩ := ortho_enclosed hnt hlen hok h.getNodes h.hqt
    have hv := validSize_of_getNodes h.getNodes
    obtain ⟨m, rfl⟩ : ∃ m, M = m + 1 := ⟨M - 1, by have := hv.1; omega⟩
    have hb0 := abs_le.mp (hb ⟨0, hM0⟩)
    have hb1 := abs_le.mp (hb ⟨m, by omega⟩)
    simp only [orthoOk, hlen, Nat.add_sub_cancel, Bool.and_eq_true, Bool.or_eq_true, decide_eq_true_eq,
      List.all_eq_true] at hok
    obtain ⟨⟨-, hl⟩, hr⟩ := hok
    have hends : (isLeft qt = true → x ⟨0, hM0⟩ = -1) ∧ (isRight qt = true → x ⟨m, by omega⟩ = 1) := by
      constructor
      · intro h'
        simp only [isLeft, Bool.or_eq_true, decide_eq_true_eq] at h'
        exact h.first h'.symm
      · intro h'
        simp only [isRight, Bool.or_eq_true, decide_eq_true_eq] at h'
        exact h.last h'.symm
    have hun : ∀ i, c.nodes i = (x i + 1) / 2 := by
      intro i
      have := nodes_unsnapped c hc x h.getNodes hM0 ?_ ?_ i
      · rw [this]; ring
      · rcases hl with hl | hl
        · left; exact hends.1 hl
        · right
          have hl' : ((Ball.S / 100 + 1 : ℕ) : ℝ) ≤ ((ms.getD 0 0 : ℕ) : ℝ) := by exact_mod_cast hl
          have e : Ball.S / 100 + 1 = 11529215046068470 := by decide
          rw [e] at hl'
          rw [hS] at hb0
          generalize ((ms.getD 0 0 : ℕ) : ℝ) = u at *
          norm_num [nodeRad] at hb0 hl'
          have hp : (1:ℝ) / 1000 ≤ (x ⟨0, hM0⟩ + 1) / 2 := by
            rw [Fin.zero_eta] at *
            linarith
          unfold npIsClose
          intro hcl
          rw [show (0:ℝ) + (1 - 0) * ((x ⟨0, hM0⟩ + 1) / 2) = (x ⟨0, hM0⟩ + 1) / 2 by ring, zero_sub, abs_neg,
            abs_of_pos (by linarith)] at hcl
          linarith
      · rcases hr with hr | hr
        · left; exact hends.2 hr
        · right
          have hr' : ((ms.getD m 0 : ℕ) : ℝ) ≤ ((Ball.S - Ball.S / 100 : ℕ) : ℝ) := by exact_mod_cast hr.le
          have e : Ball.S - Ball.S / 100 = 1141392289560778507 := by decide
          rw [e] at hr'
          rw [hS] at hb1
          dsimp only at hb1
          have hu := Nat.cast_nonneg (α := ℝ) (ms.getD m 0)
          generalize ((ms.getD m 0 : ℕ) : ℝ) = u at *
          have hv0 : -(1:ℝ) ≤ (x ⟨m, by omega⟩ + 1) / 2 := by
            have := hb1.1
            norm_num [nodeRad] at this
            linarith
          have hp : (x ⟨m, by omega⟩ + 1) / 2 ≤ 999 / 1000 := by
            have := hb1.2
            norm_num [nodeRad] at this hr'
            linarith
          change ¬ npIsClose 1 (0 + (1 - 0) * ((x ⟨m, by omega⟩ + 1) / 2))
          generalize (x ⟨m, by omega⟩ + 1) / 2 = v at *
          unfold npIsClose
          intro hcl
          rw [show (0:ℝ) + (1 - 0) * v = v by ring, abs_of_pos (by linarith)] at hcl
          rcases abs_cases v with hh | hh <;> linarith
    refine ⟨hfin fun i => ?_, x, h.getNodes, hun⟩
    rw [hun]
    exact hb i

end SDCArith

end QMat
