import Verif.Lemmas.NodesMirror
import Verif.Lemmas.Cheby

/-!
# Properties C13 - C18, C20: quadrature nodes
-/

namespace QMat

open Polynomial Spec NodesGenerator

theorem nodeType_cases {nt : String} (h : nt ∈ NODE_TYPES) : nt = "EQUID" ∨ nt ∈ ORTHO_TYPES := by
  simpa [NODE_TYPES, ORTHO_TYPES] using h

/-- All facts of C13 and C14 at once. -/
theorem getNodes_all {nt qt : String} (hnt : nt ∈ NODE_TYPES) (hqt : qt ∈ QUAD_TYPES) {n : ℕ}
    (hn : ValidSize qt n) :
    ∃ x, getNodes ⟨nt, qt⟩ n = .ok x ∧ StrictMono x ∧ (∀ i, x i ∈ Set.Icc (-1 : ℝ) 1) ∧
      ((∃ i, x i = -1) ↔ qt = "RADAU-LEFT" ∨ qt = "LOBATTO") ∧
      ((∃ i, x i = 1) ↔ qt = "RADAU-RIGHT" ∨ qt = "LOBATTO") := by
  rcases nodeType_cases hnt with rfl | hnt
  · refine ⟨_, getNodes_equid hqt hn, ?_, ?_, ?_, ?_⟩
    · intro i j hij
      have hk : (0:ℝ) < equidIntervals qt n := by exact_mod_cast equidIntervals_pos hn
      have hij' : ((i:ℕ):ℝ) < (j:ℕ) := by exact_mod_cast hij
      have : (0:ℝ) < 2 / equidIntervals qt n := by positivity
      push_cast
      nlinarith
    all_goals
      have hk : (0:ℝ) < equidIntervals qt n := by exact_mod_cast equidIntervals_pos hn
      have hk0 := hk.ne'
      have h1 := hn.1
      have h2 := hn.2
    · intro i
      have hi := i.isLt
      have hle : (i : ℕ) + equidOffset qt ≤ equidIntervals qt n := by
        unfold equidIntervals equidOffset
        simp only [QUAD_TYPES, List.mem_cons, List.not_mem_nil, or_false] at hqt
        rcases hqt with rfl | rfl | rfl | rfl <;> simp <;> omega
      have hle' : (((i : ℕ) + equidOffset qt : ℕ) : ℝ) ≤ equidIntervals qt n := by exact_mod_cast hle
      constructor
      · have : (0:ℝ) ≤ ((i : ℕ) + equidOffset qt : ℕ) * (2 / (equidIntervals qt n : ℝ)) := by
          positivity
        linarith
      · have : (((i : ℕ) + equidOffset qt : ℕ) : ℝ) * (2 / (equidIntervals qt n : ℝ)) ≤ 2 := by
          rw [mul_div_assoc', div_le_iff₀ hk]; nlinarith
        linarith
    · have e : ∀ i : Fin n, -1 + (((i:ℕ) + equidOffset qt : ℕ) : ℝ) * (2 / (equidIntervals qt n : ℝ)) = -1
          ↔ (i:ℕ) + equidOffset qt = 0 := fun i => by
        rw [add_eq_left, mul_eq_zero, or_iff_left (div_ne_zero two_ne_zero hk0)]
        exact_mod_cast Iff.rfl
      simp only [e]
      unfold equidOffset
      simp only [QUAD_TYPES, List.mem_cons, List.not_mem_nil, or_false] at hqt
      rcases hqt with rfl | rfl | rfl | rfl <;> simp <;> exact ⟨⟨0, h1⟩, rfl⟩
    · have e : ∀ i : Fin n, -1 + (((i:ℕ) + equidOffset qt : ℕ) : ℝ) * (2 / (equidIntervals qt n : ℝ)) = 1
          ↔ (i:ℕ) + equidOffset qt = equidIntervals qt n := fun i => by
        constructor
        · intro h
          have : (((i:ℕ) + equidOffset qt : ℕ) : ℝ) = equidIntervals qt n := by
            field_simp at h; linarith
          exact_mod_cast this
        · intro h; rw [h]; field_simp; norm_num
      simp only [e]
      unfold equidOffset equidIntervals
      simp only [QUAD_TYPES, List.mem_cons, List.not_mem_nil, or_false] at hqt
      rcases hqt with rfl | rfl | rfl | rfl <;> simp
      · intro i; have := i.isLt; omega
      · intro i; have := i.isLt; omega
      · exact ⟨⟨n - 1, by omega⟩, by simp; omega⟩
      · exact ⟨⟨n - 1, by omega⟩, rfl⟩
  · obtain ⟨m, rfl⟩ : ∃ m, n = m + 1 := ⟨n - 1, by have := hn.1; omega⟩
    obtain ⟨x, a, b, hx, hs, hnod, hlast, hspec, -⟩ := getNodes_ortho hnt hqt hn
    have hiff : ∀ t, (∃ i, x i = t) ↔ (lastPoly (baseAlpha nt) (baseBeta nt) m a b).eval t = 0 :=
      fun t => by rw [← hnod, eval_nodal_eq_zero_iff]
    refine ⟨x, hx, hs, fun i => ⟨?_, ?_⟩, ?_, ?_⟩
    · by_contra h
      have := hspec.left (-x i) (by linarith)
      rw [neg_neg, (hiff (x i)).mp ⟨i, rfl⟩, mul_zero] at this
      exact lt_irrefl _ this
    · by_contra h
      exact (hspec.right _ (not_le.mp h)).ne' ((hiff (x i)).mp ⟨i, rfl⟩)
    · rw [hiff, hspec.atLeft, or_comm]
    · rw [hiff, hspec.atRight, or_comm]

/-- C13: for every node type, quadrature type and accepted size, `getNodes(n)` returns `n` strictly
increasing nodes in `[-1, 1]`. -/
theorem C13_nodes_increasing_in_range {nt qt : String} (hnt : nt ∈ NODE_TYPES)
    (hqt : qt ∈ QUAD_TYPES) {n : ℕ} (hn : ValidSize qt n) :
    ∃ g x, NodesGenerator.new nt qt = .ok g ∧ g.getNodes n = .ok x ∧ StrictMono x ∧
      ∀ i, -1 ≤ x i ∧ x i ≤ 1 := by
  obtain ⟨x, hx, hs, hr, -⟩ := getNodes_all hnt hqt hn
  exact ⟨⟨nt, qt⟩, x, by simp [NodesGenerator.new, hnt, hqt], hx, hs, hr⟩

/-- Instance: seven `CHEBY-3` nodes of Radau type. -/
example : ∃ g x, NodesGenerator.new "CHEBY-3" "RADAU-LEFT" = .ok g ∧ g.getNodes 7 = .ok x ∧ StrictMono x :=
  have ⟨g, x, h1, h2, h3, _⟩ := C13_nodes_increasing_in_range (nt := "CHEBY-3") (qt := "RADAU-LEFT") (by decide)
    (by decide) (n := 7) ⟨by decide, by decide⟩
  ⟨g, x, h1, h2, h3⟩

/-- C14: `-1` is a node exactly for `RADAU-LEFT` and `LOBATTO`, `1` exactly for `RADAU-RIGHT` and
`LOBATTO`. -/
theorem C14_boundary_nodes {nt qt : String} (hnt : nt ∈ NODE_TYPES) (hqt : qt ∈ QUAD_TYPES) {n : ℕ}
    (x : Fin n → ℝ) (hx : getNodes ⟨nt, qt⟩ n = .ok x) :
    ((∃ i, x i = -1) ↔ qt = "RADAU-LEFT" ∨ qt = "LOBATTO") ∧
    ((∃ i, x i = 1) ↔ qt = "RADAU-RIGHT" ∨ qt = "LOBATTO") := by
  have hn : ValidSize qt n := by
    unfold getNodes at hx
    split_ifs at hx with h1 h2
    all_goals
      refine ⟨by omega, fun hq => ?_⟩
      by_contra hlt
      exact h1 ⟨hq, by omega⟩
  obtain ⟨x', hx', -, -, hl, hr⟩ := getNodes_all hnt hqt hn
  rw [hx'] at hx
  cases hx
  exact ⟨hl, hr⟩

/-- Instance: of five `LEGENDRE` `RADAU-RIGHT` nodes one is `1` and none `-1`. -/
example : ∃ x, getNodes ⟨"LEGENDRE", "RADAU-RIGHT"⟩ 5 = .ok x ∧ (∃ i, x i = 1) ∧ ¬ ∃ i, x i = -1 := by
  obtain ⟨x, hx, -⟩ := getNodes_all (nt := "LEGENDRE") (qt := "RADAU-RIGHT") (by decide) (by decide) (n := 5)
    ⟨by decide, by decide⟩
  obtain ⟨h1, h2⟩ := C14_boundary_nodes (by decide) (by decide) x hx
  exact ⟨x, hx, h2.mpr (by decide), fun h => absurd (h1.mp h) (by decide)⟩

/-- C14 (overwriting the ends): the values written by `nodes[-1] = 1` and `nodes[0] = -1` are already
there: the result is the sorted list of eigenvalues of the Jacobi matrix. -/
theorem C14_overwrite_harmless {nt qt : String} (hnt : nt ∈ NODE_TYPES) (hne : nt ≠ "EQUID")
    (hqt : qt ∈ QUAD_TYPES) {n : ℕ} (x : Fin n → ℝ) (hx : getNodes ⟨nt, qt⟩ n = .ok x) :
    ∃ alpha beta, getTridiagCoefficients ⟨nt, qt⟩ n = .ok (alpha, beta) ∧
      x = npSort (eighTridiagonal n alpha fun k => Real.sqrt (beta (k + 1))) := by
  have hn : ValidSize qt n := by
    unfold getNodes at hx
    split_ifs at hx with h1 h2
    all_goals
      refine ⟨by omega, fun hq => ?_⟩
      by_contra hlt
      exact h1 ⟨hq, by omega⟩
  obtain ⟨m, rfl⟩ : ∃ m, n = m + 1 := ⟨n - 1, by have := hn.1; omega⟩
  obtain ⟨x', a, b, hx', -, -, -, -, h⟩ :=
    getNodes_ortho ((nodeType_cases hnt).resolve_left hne) hqt hn
  rw [hx'] at hx
  cases hx
  exact h

/-- Instance: five Gauss-Lobatto nodes. -/
example : ∃ x alpha beta, getNodes ⟨"LEGENDRE", "LOBATTO"⟩ 5 = .ok x ∧
    getTridiagCoefficients ⟨"LEGENDRE", "LOBATTO"⟩ 5 = .ok (alpha, beta) ∧
    x = npSort (eighTridiagonal 5 alpha fun k => Real.sqrt (beta (k + 1))) := by
  obtain ⟨x, hx, -⟩ := getNodes_all (nt := "LEGENDRE") (qt := "LOBATTO") (by decide) (by decide) (n := 5)
    ⟨by decide, by decide⟩
  obtain ⟨a, b, h1, h2⟩ := C14_overwrite_harmless (by decide) (by decide) (by decide) x hx
  exact ⟨x, a, b, hx, h1, h2⟩

/-- C15: the constructor raises `ValueError` exactly for an unknown node or quadrature type, and
`getNodes` raises `ValueError` exactly when the number of nodes is too small; nothing else is
raised. -/
theorem C15_constructor_errors (nt qt : String) :
    (nt ∈ NODE_TYPES ∧ qt ∈ QUAD_TYPES → NodesGenerator.new nt qt = .ok ⟨nt, qt⟩) ∧
    (¬ (nt ∈ NODE_TYPES ∧ qt ∈ QUAD_TYPES) → NodesGenerator.new nt qt = .error .valueError) := by
  unfold NodesGenerator.new
  constructor
  · rintro ⟨h1, h2⟩; simp [h1, h2]
  · intro h
    by_cases h1 : nt ∈ NODE_TYPES
    · have h2 : qt ∉ QUAD_TYPES := fun h2 => h ⟨h1, h2⟩
      simp [h1, h2]
    · simp [h1]

/-- Instance: a node type that does not exist. -/
example : NodesGenerator.new "CHEBY-5" "GAUSS" = .error .valueError :=
  (C15_constructor_errors _ _).2 (by decide)

/-- C15, for every Python integer `n`. -/
theorem C15_getNodes_errors {nt qt : String} (hnt : nt ∈ NODE_TYPES) (hqt : qt ∈ QUAD_TYPES)
    (n : ℤ) :
    (1 ≤ n ∧ (qt = "LOBATTO" ∨ qt = "RADAU-LEFT" → 2 ≤ n) →
      ∃ x, getNodesInt ⟨nt, qt⟩ n = .ok x ∧ (x.length : ℤ) = n) ∧
    (¬ (1 ≤ n ∧ (qt = "LOBATTO" ∨ qt = "RADAU-LEFT" → 2 ≤ n)) →
      getNodesInt ⟨nt, qt⟩ n = .error .valueError) := by
  unfold getNodesInt
  constructor
  · rintro ⟨h1, h2⟩
    obtain ⟨k, rfl⟩ := Int.eq_ofNat_of_zero_le (by omega : 0 ≤ n)
    obtain ⟨x, hx, -⟩ := getNodes_all hnt hqt (n := k)
      ⟨by omega, fun h => by have := h2 h; omega⟩
    refine ⟨List.ofFn x, ?_, by simp⟩
    rw [if_neg (by omega), Int.toNat_natCast, hx]
    rfl
  · intro h
    by_cases hneg : n < 0
    · rw [if_pos hneg]
    · obtain ⟨k, rfl⟩ := Int.eq_ofNat_of_zero_le (by omega : 0 ≤ n)
      rw [if_neg hneg, Int.toNat_natCast]
      have : getNodes ⟨nt, qt⟩ k = .error .valueError := by
        unfold getNodes
        by_cases c : (qt = "LOBATTO" ∨ qt = "RADAU-LEFT") ∧ k < 2
        · rw [if_pos c]
        · rw [if_neg c, dif_pos]
          by_contra hk
          apply h
          refine ⟨by omega, fun hq => ?_⟩
          by_contra h2
          exact c ⟨hq, by omega⟩
      rw [this]
      rfl

/-- Instance: one `LOBATTO` node and `-3` nodes are refused, two are not. -/
example : getNodesInt ⟨"LEGENDRE", "LOBATTO"⟩ 1 = .error .valueError ∧
    getNodesInt ⟨"LEGENDRE", "LOBATTO"⟩ (-3) = .error .valueError ∧
    ∃ x, getNodesInt ⟨"LEGENDRE", "LOBATTO"⟩ 2 = .ok x :=
  ⟨(C15_getNodes_errors (by decide) (by decide) 1).2 (by decide),
    (C15_getNodes_errors (by decide) (by decide) (-3)).2 (by decide),
    have ⟨x, h, _⟩ := (C15_getNodes_errors (by decide) (by decide) 2).1 (by decide); ⟨x, h⟩⟩

/-- C16: `EQUID` nodes are `h` apart, with `h = 2/(n+1)` for `GAUSS` (a full step before the first
and after the last node), `h = 2/(n-1)` for `LOBATTO` (both ends are nodes), `h = 2/n` for `RADAU-*`
(one end is a node). -/
theorem C16_equidistant {qt : String} (hqt : qt ∈ QUAD_TYPES) {n : ℕ} (hn : ValidSize qt n) :
    ∃ x : Fin n → ℝ, getNodes ⟨"EQUID", qt⟩ n = .ok x ∧
      (qt = "GAUSS" → ∀ i, x i = -1 + ((i:ℕ) + 1) * (2 / (n + 1))) ∧
      (qt = "LOBATTO" → ∀ i, x i = -1 + (i:ℕ) * (2 / (n - 1))) ∧
      (qt = "RADAU-RIGHT" → ∀ i, x i = -1 + ((i:ℕ) + 1) * (2 / n)) ∧
      (qt = "RADAU-LEFT" → ∀ i, x i = -1 + (i:ℕ) * (2 / n)) := by
  refine ⟨_, getNodes_equid hqt hn, ?_, ?_, ?_, ?_⟩
  · rintro rfl i; simp [equidOffset, equidIntervals]
  · rintro rfl i
    have := hn.1
    simp [equidOffset, equidIntervals, Nat.cast_sub this]
  · rintro rfl i; simp [equidOffset, equidIntervals]
  · rintro rfl i; simp [equidOffset, equidIntervals]

/-- Instance: four `RADAU-RIGHT` nodes are `-1/2, 0, 1/2, 1`. -/
example : ∃ x : Fin 4 → ℝ, getNodes ⟨"EQUID", "RADAU-RIGHT"⟩ 4 = .ok x ∧ x 0 = -1/2 ∧ x 3 = 1 := by
  obtain ⟨x, h, -, -, h3, -⟩ := C16_equidistant (qt := "RADAU-RIGHT") (by decide) (n := 4) ⟨by decide, by decide⟩
  refine ⟨x, h, ?_, ?_⟩ <;> rw [h3 rfl] <;> norm_num

/-- C17: closed forms of the Chebyshev `GAUSS` nodes; `i = 0, ..., n-1` counts from the left, i.e.
`k = n - i` counts from the right. -/
theorem C17_chebyshev_closed_form {n : ℕ} (hn : 1 ≤ n) :
    ∃ x1 x2 x3 x4 : Fin n → ℝ,
      getNodes ⟨"CHEBY-1", "GAUSS"⟩ n = .ok x1 ∧
      (∀ i : Fin n, x1 i = Real.cos ((2 * ((n - i : ℕ):ℝ) - 1) * Real.pi / (2 * n))) ∧
      getNodes ⟨"CHEBY-2", "GAUSS"⟩ n = .ok x2 ∧
      (∀ i : Fin n, x2 i = Real.cos (((n - i : ℕ):ℝ) * Real.pi / (n + 1))) ∧
      getNodes ⟨"CHEBY-3", "GAUSS"⟩ n = .ok x3 ∧
      (∀ i : Fin n, x3 i = Real.cos ((2 * ((n - i : ℕ):ℝ) - 1) * Real.pi / (2 * n + 1))) ∧
      getNodes ⟨"CHEBY-4", "GAUSS"⟩ n = .ok x4 ∧
      (∀ i : Fin n, x4 i = Real.cos (2 * ((n - i : ℕ):ℝ) * Real.pi / (2 * n + 1))) := by
  obtain ⟨m, rfl⟩ : ∃ m, n = m + 1 := ⟨n - 1, by omega⟩
  have key : ∀ nt ∈ ["CHEBY-1", "CHEBY-2", "CHEBY-3", "CHEBY-4"],
      getNodes ⟨nt, "GAUSS"⟩ (m + 1) = .ok fun i => Real.cos (chebyAngle nt (m + 1) i) := by
    intro nt hnt
    have hnt' : nt ∈ ORTHO_TYPES := by
      simp only [ORTHO_TYPES]; exact List.mem_cons_of_mem _ hnt
    obtain ⟨x, a, b, hx, hs, hnod, hlast, -⟩ := getNodes_ortho hnt' (qt := "GAUSS") (by decide)
      (m := m) ⟨by omega, by simp⟩
    rw [hx]
    congr 1
    simp only [LastCoeffs, String.reduceEq, true_and, false_and, or_false] at hlast
    rw [hlast.1, hlast.2, lastPoly, ← orthPoly_step] at hnod
    refine (eq_of_nodal_eq (chebyNodes_strictMono nt (m + 1)) hs fun i => ?_).symm
    rw [hnod]
    exact cheby_root hnt i.isLt
  refine ⟨_, _, _, _, key "CHEBY-1" (by decide), ?_, key "CHEBY-2" (by decide), ?_,
    key "CHEBY-3" (by decide), ?_, key "CHEBY-4" (by decide), ?_⟩ <;> intro i
  · simp [chebyAngle]
  · simp [chebyAngle]
  · simp [chebyAngle]
  · simp [chebyAngle]

/-- C18: `evalOrthogPoly(t, alpha, beta)` with arrays of length `m` returns the values at `t` of
`π_{m-1}` and `π_m`, where `π` is the monic three-term recurrence (`π_{-1} = 0`). -/
theorem C18_evalOrthogPoly (t : ℝ) (alpha beta : ℕ → ℝ) :
    evalOrthogPoly t alpha beta 0 = (0, 1) ∧
    ∀ m, evalOrthogPoly t alpha beta (m + 1) =
      ((orthPoly alpha beta m).eval t, (orthPoly alpha beta (m + 1)).eval t) :=
  ⟨rfl, evalOrthogPoly_eq t alpha beta⟩

/-- Instance: two steps of the recurrence of Legendre's polynomials at `1/2`. -/
example : evalOrthogPoly (1/2) (fun _ => 0) (fun _ => 1/3) 2 = (1/2, -1/12) := by
  rw [(C18_evalOrthogPoly (1/2) (fun _ => 0) (fun _ => 1/3)).2 1]
  norm_num [orthPoly]

/-- C18 (identification): with the coefficients of the Chebyshev types the recurrence gives, up to
the power of two that makes them monic, the Chebyshev polynomials of the four kinds:
`T_n`, `U_n`, `V_n = U_n - U_{n-1}`, `W_n = U_n + U_{n-1}`. -/
theorem C18_chebyshev_polynomials (qt : String) {m : ℕ} (hm : 0 < m) :
    (∃ a b, getOrthogPolyCoefficients ⟨"CHEBY-1", qt⟩ m = .ok (a, b) ∧ ∀ n : ℕ,
      C (2 ^ n : ℝ) * orthPoly a b (n + 1) = Chebyshev.T ℝ (n + 1)) ∧
    (∃ a b, getOrthogPolyCoefficients ⟨"CHEBY-2", qt⟩ m = .ok (a, b) ∧ ∀ n : ℕ,
      C (2 ^ n : ℝ) * orthPoly a b n = Chebyshev.U ℝ n) ∧
    (∃ a b, getOrthogPolyCoefficients ⟨"CHEBY-3", qt⟩ m = .ok (a, b) ∧ ∀ n : ℕ,
      C (2 ^ n : ℝ) * orthPoly a b n = Chebyshev.U ℝ n - Chebyshev.U ℝ (n - 1)) ∧
    (∃ a b, getOrthogPolyCoefficients ⟨"CHEBY-4", qt⟩ m = .ok (a, b) ∧ ∀ n : ℕ,
      C (2 ^ n : ℝ) * orthPoly a b n = Chebyshev.U ℝ n + Chebyshev.U ℝ (n - 1)) :=
  ⟨⟨_, _, getOrthogPolyCoefficients_eq qt (by decide) hm, cheby1_eq⟩,
    ⟨_, _, getOrthogPolyCoefficients_eq qt (by decide) hm, cheby2_eq⟩,
    ⟨_, _, getOrthogPolyCoefficients_eq qt (by decide) hm, cheby3_eq⟩,
    ⟨_, _, getOrthogPolyCoefficients_eq qt (by decide) hm, cheby4_eq⟩⟩

/-- Instance: `T_3` from the coefficients of `CHEBY-1`. -/
example : ∃ a b, getOrthogPolyCoefficients ⟨"CHEBY-1", "GAUSS"⟩ 3 = .ok (a, b) ∧
    C (2 ^ 2 : ℝ) * orthPoly a b 3 = Chebyshev.T ℝ 3 := by
  obtain ⟨⟨a, b, h, hT⟩, -⟩ := C18_chebyshev_polynomials "GAUSS" (m := 3) (by norm_num)
  exact ⟨a, b, h, by simpa using hT 2⟩

/-- C18 (errors): the recurrence coefficients exist for at least one coefficient of a type other than `EQUID`; without
coefficients the first assignment raises `IndexError`, and `EQUID` has none: `UnboundLocalError`. -/
theorem C18_errors {nt : String} (hnt : nt ∈ NODE_TYPES) (qt : String) (m : ℕ) :
    ((∃ ab, getOrthogPolyCoefficients ⟨nt, qt⟩ m = .ok ab) ↔ nt ≠ "EQUID" ∧ 0 < m) ∧
    (nt = "EQUID" → getOrthogPolyCoefficients ⟨nt, qt⟩ m = .error .unboundLocalError) ∧
    (nt ≠ "EQUID" → getOrthogPolyCoefficients ⟨nt, qt⟩ 0 = .error .indexError) := by
  rcases Nat.eq_zero_or_pos m with rfl | hm
  · simp only [NODE_TYPES, List.mem_cons, List.not_mem_nil, or_false] at hnt
    rcases hnt with rfl | rfl | rfl | rfl | rfl | rfl <;> simp [getOrthogPolyCoefficients, checkNonEmpty]
  · simp only [NODE_TYPES, List.mem_cons, List.not_mem_nil, or_false] at hnt
    rcases hnt with rfl | rfl | rfl | rfl | rfl | rfl <;> simp [getOrthogPolyCoefficients, checkNonEmpty, hm, hm.ne']

/-- Instance: the third Chebyshev type with and without coefficients. -/
example : (∃ ab, getOrthogPolyCoefficients ⟨"CHEBY-3", "GAUSS"⟩ 4 = .ok ab) ∧
    getOrthogPolyCoefficients ⟨"CHEBY-3", "GAUSS"⟩ 0 = .error .indexError :=
  ⟨(C18_errors (by decide) "GAUSS" 4).1.mpr ⟨by decide, by norm_num⟩,
    (C18_errors (by decide) "GAUSS" 0).2.2 (by decide)⟩

/-- C20 (mirror images): the nodes of the mirrored request (`RADAU-LEFT` for `RADAU-RIGHT` and
conversely, `CHEBY-4` for `CHEBY-3` and conversely, everything else unchanged) are the opposite nodes
in reversed order. -/
theorem C20_mirror {nt qt nt' qt' : String} (hnt : nt ∈ NODE_TYPES) (hqt : qt ∈ QUAD_TYPES)
    (hnt' : (nt = "CHEBY-3" ∧ nt' = "CHEBY-4") ∨ (nt = "CHEBY-4" ∧ nt' = "CHEBY-3") ∨
      (nt ≠ "CHEBY-3" ∧ nt ≠ "CHEBY-4" ∧ nt' = nt))
    (hqt' : (qt = "RADAU-LEFT" ∧ qt' = "RADAU-RIGHT") ∨ (qt = "RADAU-RIGHT" ∧ qt' = "RADAU-LEFT") ∨
      (qt ≠ "RADAU-LEFT" ∧ qt ≠ "RADAU-RIGHT" ∧ qt' = qt))
    {n : ℕ} (x y : Fin n → ℝ) (hx : getNodes ⟨nt, qt⟩ n = .ok x)
    (hy : getNodes ⟨nt', qt'⟩ n = .ok y) (i : Fin n) : y i = -x i.rev := by
  have size : ∀ {a b : String} {z : Fin n → ℝ}, getNodes ⟨a, b⟩ n = .ok z → ValidSize b n := by
    intro a b z hz
    unfold getNodes at hz
    split_ifs at hz with h1 h2
    all_goals
      refine ⟨by omega, fun hq => ?_⟩
      by_contra hlt
      exact h1 ⟨hq, by omega⟩
  have e1 : nt' = mirrorNode nt := by
    unfold mirrorNode
    rcases hnt' with ⟨rfl, rfl⟩ | ⟨rfl, rfl⟩ | ⟨h1, h2, rfl⟩
    · simp
    · simp
    · simp [h1, h2]
  have e2 : qt' = mirrorQuad qt := by
    unfold mirrorQuad
    rcases hqt' with ⟨rfl, rfl⟩ | ⟨rfl, rfl⟩ | ⟨h1, h2, rfl⟩
    · simp
    · simp
    · simp [h1, h2]
  subst e1 e2
  have hn := size hx
  have hn' := size hy
  rcases nodeType_cases hnt with rfl | hnt
  · have hm : mirrorNode "EQUID" = "EQUID" := by decide
    rw [hm, getNodes_equid (mirrorQuad_mem hqt) hn'] at hy
    rw [getNodes_equid hqt hn] at hx
    cases hx
    cases hy
    have hk : (0:ℝ) < equidIntervals qt n := by exact_mod_cast equidIntervals_pos hn
    have hk0 := hk.ne'
    have hi := i.isLt
    have hkk : equidIntervals (mirrorQuad qt) n = equidIntervals qt n := by
      simp only [QUAD_TYPES, List.mem_cons, List.not_mem_nil, or_false] at hqt
      rcases hqt with rfl | rfl | rfl | rfl <;> simp [mirrorQuad, equidIntervals]
    have hsum : (((i:ℕ) + equidOffset (mirrorQuad qt) : ℕ) : ℝ) +
        (((i.rev : Fin n) : ℕ) + equidOffset qt : ℕ) = equidIntervals qt n := by
      have : ((i:ℕ) + equidOffset (mirrorQuad qt)) + (((i.rev : Fin n) : ℕ) + equidOffset qt) =
          equidIntervals qt n := by
        rw [Fin.val_rev]
        simp only [QUAD_TYPES, List.mem_cons, List.not_mem_nil, or_false] at hqt
        rcases hqt with rfl | rfl | rfl | rfl <;>
          simp [mirrorQuad, equidIntervals, equidOffset] <;> omega
      exact_mod_cast this
    rw [hkk]
    beta_reduce
    set A : ℝ := (((i:ℕ) + equidOffset (mirrorQuad qt) : ℕ) : ℝ)
    set B : ℝ := ((((i.rev : Fin n) : ℕ) + equidOffset qt : ℕ) : ℝ)
    have : A = equidIntervals qt n - B := by linarith
    rw [this]
    field_simp
    ring
  · obtain ⟨m, rfl⟩ : ∃ m, n = m + 1 := ⟨n - 1, by have := hn.1; omega⟩
    exact getNodes_mirror_ortho hnt hqt hn hn' hx hy i

/-- Instance: five `CHEBY-3` `RADAU-LEFT` nodes and five `CHEBY-4` `RADAU-RIGHT` nodes. -/
example : ∃ x y, getNodes ⟨"CHEBY-3", "RADAU-LEFT"⟩ 5 = .ok x ∧ getNodes ⟨"CHEBY-4", "RADAU-RIGHT"⟩ 5 = .ok y ∧
    y 0 = -x 4 := by
  obtain ⟨x, hx, -⟩ := getNodes_all (nt := "CHEBY-3") (qt := "RADAU-LEFT") (by decide) (by decide) (n := 5)
    ⟨by decide, by decide⟩
  obtain ⟨y, hy, -⟩ := getNodes_all (nt := "CHEBY-4") (qt := "RADAU-RIGHT") (by decide) (by decide) (n := 5)
    ⟨by decide, by decide⟩
  exact ⟨x, y, hx, hy, C20_mirror (by decide) (by decide) (by decide) (by decide) x y hx hy 0⟩

/-- C20: `LEGENDRE`, `EQUID`, `CHEBY-1`, `CHEBY-2` nodes of type `GAUSS` or `LOBATTO` are symmetric. -/
theorem C20_symmetric {nt qt : String} (hnt : nt ∈ ["LEGENDRE", "EQUID", "CHEBY-1", "CHEBY-2"])
    (hqt : qt ∈ ["GAUSS", "LOBATTO"]) {n : ℕ} (x : Fin n → ℝ)
    (hx : getNodes ⟨nt, qt⟩ n = .ok x) (i : Fin n) : x i = -x i.rev := by
  simp only [List.mem_cons, List.not_mem_nil, or_false] at hnt hqt
  refine C20_mirror (nt := nt) (qt := qt) (nt' := nt) (qt' := qt) ?_ ?_ ?_ ?_ x x hx hx i
  · rcases hnt with rfl | rfl | rfl | rfl <;> decide
  · rcases hqt with rfl | rfl <;> decide
  · rcases hnt with rfl | rfl | rfl | rfl <;> decide
  · rcases hqt with rfl | rfl <;> decide

/-- The theorems apply: three Legendre-Lobatto nodes are `-1, 0, 1`. -/
example : ∃ x, getNodes ⟨"LEGENDRE", "LOBATTO"⟩ 3 = .ok x ∧ x 0 = -1 ∧ x 1 = 0 ∧ x 2 = 1 := by
  obtain ⟨x, hx, hs, hr, hl, hr1⟩ := getNodes_all (nt := "LEGENDRE") (qt := "LOBATTO") (by decide)
    (by decide) (n := 3) ⟨by norm_num, fun _ => by norm_num⟩
  refine ⟨x, hx, ?_, ?_, ?_⟩
  · obtain ⟨i, hi⟩ := hl.mpr (Or.inr rfl)
    have := hs.monotone (Fin.zero_le i)
    have h2 := (hr 0).1
    linarith
  · have := C20_symmetric (nt := "LEGENDRE") (qt := "LOBATTO") (by decide) (by decide) x hx 1
    rw [show (Fin.rev 1 : Fin 3) = 1 by decide] at this
    linarith
  · obtain ⟨i, hi⟩ := hr1.mpr (Or.inr rfl)
    have := hs.monotone (Fin.le_last i)
    have h2 := (hr 2).2
    change x i ≤ x 2 at this
    linarith

/-- The closed form applies: the two `CHEBY-1` nodes are `∓ 1/√2`. -/
example : ∃ x, getNodes ⟨"CHEBY-1", "GAUSS"⟩ 2 = .ok x ∧ x 1 = Real.sqrt 2 / 2 := by
  obtain ⟨x, -, -, -, hx, h, -⟩ := C17_chebyshev_closed_form (n := 2) (by norm_num)
  refine ⟨x, hx, ?_⟩
  rw [h 1, ← Real.cos_pi_div_four]
  congr 1
  norm_num

end QMat
