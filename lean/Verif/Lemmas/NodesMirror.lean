import Verif.Lemmas.NodesSpec

/-!
# Mirror images of node sets, equidistant nodes
-/

namespace QMat

open Polynomial Spec NodesGenerator

/-- The node type whose nodes are the mirror image. -/
def mirrorNode (nt : String) : String :=
  if nt = "CHEBY-3" then "CHEBY-4" else if nt = "CHEBY-4" then "CHEBY-3" else nt

/-- The quadrature type whose nodes are the mirror image. -/
def mirrorQuad (qt : String) : String :=
  if qt = "RADAU-LEFT" then "RADAU-RIGHT" else if qt = "RADAU-RIGHT" then "RADAU-LEFT" else qt

theorem baseAlpha_mirror {nt : String} (hnt : nt ∈ ORTHO_TYPES) :
    baseAlpha (mirrorNode nt) = fun k => -baseAlpha nt k := by
  simp only [ORTHO_TYPES, List.mem_cons, List.not_mem_nil, or_false] at hnt
  funext k
  rcases hnt with rfl | rfl | rfl | rfl | rfl <;> simp [baseAlpha, mirrorNode] <;>
    split_ifs <;> norm_num

theorem baseBeta_mirror {nt : String} (hnt : nt ∈ ORTHO_TYPES) :
    baseBeta (mirrorNode nt) = baseBeta nt := by
  simp only [ORTHO_TYPES, List.mem_cons, List.not_mem_nil, or_false] at hnt
  funext k
  rcases hnt with rfl | rfl | rfl | rfl | rfl <;> simp [baseBeta, mirrorNode]

theorem mirrorNode_mem {nt : String} (hnt : nt ∈ ORTHO_TYPES) : mirrorNode nt ∈ ORTHO_TYPES := by
  simp only [ORTHO_TYPES, List.mem_cons, List.not_mem_nil, or_false] at hnt
  rcases hnt with rfl | rfl | rfl | rfl | rfl <;> decide

theorem mirrorQuad_mem {qt : String} (hqt : qt ∈ QUAD_TYPES) : mirrorQuad qt ∈ QUAD_TYPES := by
  simp only [QUAD_TYPES, List.mem_cons, List.not_mem_nil, or_false] at hqt
  rcases hqt with rfl | rfl | rfl | rfl <;> decide

/-- The two coefficients chosen for `LOBATTO` are determined by the two roots. -/
theorem lobatto_unique {α β : ℕ → ℝ} (hF : Family α β) {m : ℕ} (hm : 0 < m) {a b a' b' : ℝ}
    (h1 : (lastPoly α β m a b).eval 1 = 0) (h2 : (lastPoly α β m a b).eval (-1) = 0)
    (h1' : (lastPoly α β m a' b').eval 1 = 0) (h2' : (lastPoly α β m a' b').eval (-1) = 0) :
    a = a' ∧ b = b' := by
  obtain ⟨⟨ρ, hr⟩, ⟨ρ', hl⟩⟩ := hF
  obtain ⟨m, rfl⟩ : ∃ k, m = k + 1 := ⟨m - 1, by omega⟩
  have B1 := hr.eval_pos le_rfl (m + 1)
  have B2 : 0 < (prevPoly α β (m + 1)).eval 1 := hr.eval_pos le_rfl m
  have Q1 := hl.eval_pos le_rfl (m + 1)
  have Q2 : 0 < (prevPoly (fun k => -α k) β (m + 1)).eval 1 := hl.eval_pos le_rfl m
  have e2 := eval_lastPoly_neg α β (m + 1) a b 1
  have e2' := eval_lastPoly_neg α β (m + 1) a' b' 1
  rw [h2, mul_zero, eval_lastPoly] at e2
  rw [h2', mul_zero, eval_lastPoly] at e2'
  rw [eval_lastPoly] at h1 h1'
  set p := (orthPoly α β (m + 1)).eval 1
  set q := (prevPoly α β (m + 1)).eval 1
  set p' := (orthPoly (fun k => -α k) β (m + 1)).eval 1
  set q' := (prevPoly (fun k => -α k) β (m + 1)).eval 1
  have k1 : (a' - a) * p = (b - b') * q := by linear_combination h1 - h1'
  have k2 : (a' - a) * p' = -((b - b') * q') := by linear_combination e2' - e2
  have hD : (b - b') * (q * p' + q' * p) = 0 := by linear_combination p * k2 - p' * k1
  have hpos : 0 < q * p' + q' * p := by positivity
  have hb : b - b' = 0 := (mul_eq_zero.mp hD).resolve_right hpos.ne'
  rw [hb, zero_mul] at k1
  have ha := (mul_eq_zero.mp k1).resolve_right B1.ne'
  exact ⟨by linarith, by linarith⟩

theorem getNodes_mirror_ortho {nt qt : String} (hnt : nt ∈ ORTHO_TYPES) (hqt : qt ∈ QUAD_TYPES)
    {m : ℕ} (hn : ValidSize qt (m + 1)) (hn' : ValidSize (mirrorQuad qt) (m + 1))
    {x y : Fin (m + 1) → ℝ} (hx : getNodes ⟨nt, qt⟩ (m + 1) = .ok x)
    (hy : getNodes ⟨mirrorNode nt, mirrorQuad qt⟩ (m + 1) = .ok y) (i : Fin (m + 1)) :
    y i = -x i.rev := by
  obtain ⟨x', a, b, hx', hsx, hnx, hlx, hpx, -⟩ := getNodes_ortho hnt hqt hn
  obtain ⟨y', a', b', hy', hsy, hny, hly, hpy, -⟩ :=
    getNodes_ortho (mirrorNode_mem hnt) (mirrorQuad_mem hqt) hn'
  rw [hx'] at hx; cases hx
  rw [hy'] at hy; cases hy
  rw [baseAlpha_mirror hnt, baseBeta_mirror hnt] at hny hly hpy
  have hF := family_base hnt
  have hF' : Family (fun k => -baseAlpha nt k) (baseBeta nt) := by
    have := family_base (mirrorNode_mem hnt)
    rwa [baseAlpha_mirror hnt, baseBeta_mirror hnt] at this
  set α := baseAlpha nt
  set β := baseBeta nt
  -- the last coefficients are mirrored
  have hab : a' = -a ∧ b' = b := by
    simp only [QUAD_TYPES, List.mem_cons, List.not_mem_nil, or_false] at hqt
    rcases hqt with rfl | rfl | rfl | rfl
    · simp only [LastCoeffs, mirrorQuad, String.reduceEq, true_and, false_and, or_false, if_false]
        at hlx hly
      exact ⟨by rw [hlx.1, hly.1], by rw [hlx.2, hly.2]⟩
    · simp only [LastCoeffs, mirrorQuad, String.reduceEq, true_and, false_and, or_false, if_true,
        false_or] at hlx hly
      exact ⟨by rw [hlx.1, hly.1, radauLeft_neg], by rw [hlx.2, hly.2]⟩
    · simp only [LastCoeffs, mirrorQuad, String.reduceEq, true_and, false_and, or_false, if_true,
        false_or, if_false] at hlx hly
      refine ⟨?_, by rw [hlx.2, hly.2]⟩
      have := radauLeft_neg (fun k => -α k) β m
      simp only [neg_neg] at this
      rw [hlx.1, hly.1]
      linarith
    · simp only [LastCoeffs, mirrorQuad, String.reduceEq, true_and, false_and, if_false,
        false_or] at hlx hly
      have r := hpx.atRight.mpr (Or.inl rfl)
      have l := hpx.atLeft.mpr (Or.inl rfl)
      have r' := hpy.atRight.mpr (Or.inl rfl)
      have l' := hpy.atLeft.mpr (Or.inl rfl)
      refine lobatto_unique hF' hlx.1 r' l' ?_ ?_
      · rw [eval_lastPoly_neg, l, mul_zero]
      · rw [eval_lastPoly_neg, neg_neg, r, mul_zero]
  obtain ⟨rfl, rfl⟩ := hab
  set z : Fin (m + 1) → ℝ := fun i => -x i.rev with hz
  have hsz : StrictMono z := fun i j hij => neg_lt_neg (hsx (Fin.rev_lt_rev.mpr hij))
  have : z = y := by
    refine eq_of_nodal_eq hsz hsy fun i => ?_
    rw [hny, eval_lastPoly_neg, hz]
    simp only [neg_neg]
    rw [← hnx, (eval_nodal_eq_zero_iff x _).mpr ⟨_, rfl⟩, mul_zero]
  rw [← this]

/-! ### equidistant nodes -/

/-- Number of intervals of the equidistant grid, and whether the left end is a node. -/
def equidIntervals (qt : String) (n : ℕ) : ℕ :=
  if qt = "GAUSS" then n + 1 else if qt = "LOBATTO" then n - 1 else n

/-- Index of the first node in the grid. -/
def equidOffset (qt : String) : ℕ := if qt = "GAUSS" ∨ qt = "RADAU-RIGHT" then 1 else 0

theorem getNodes_equid {qt : String} (hqt : qt ∈ QUAD_TYPES) {n : ℕ} (hn : ValidSize qt n) :
    getNodes ⟨"EQUID", qt⟩ n = .ok fun i =>
      -1 + ((i : ℕ) + equidOffset qt : ℕ) * (2 / (equidIntervals qt n : ℝ)) := by
  have c1 : ¬ ((qt = "LOBATTO" ∨ qt = "RADAU-LEFT") ∧ n < 2) := fun h => by
    have := hn.2 h.1; omega
  have c2 : ¬ n < 1 := by have := hn.1; omega
  unfold getNodes
  rw [if_neg c1, dif_neg c2]
  simp only [QUAD_TYPES, List.mem_cons, List.not_mem_nil, or_false] at hqt
  rcases hqt with rfl | rfl | rfl | rfl <;>
    simp only [String.reduceEq, if_true, if_false, and_false, and_true,
      npLinspace, equidOffset, equidIntervals, or_false, or_true, add_zero]
  · congr 1; funext i; push_cast; congr 2; ring
  · congr 1; funext i; push_cast; congr 2; ring
  · congr 1; funext i; push_cast; congr 2; ring
  · congr 1; funext i; rw [Nat.cast_sub (by omega)]; push_cast; congr 2; ring

theorem equidIntervals_pos {qt : String} {n : ℕ} (hn : ValidSize qt n) :
    0 < equidIntervals qt n := by
  have h1 := hn.1
  have h2 := hn.2
  unfold equidIntervals
  split_ifs with h h'
  · omega
  · have := h2 (Or.inl h'); omega
  · omega

end QMat
